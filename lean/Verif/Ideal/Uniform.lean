import Verif.Ideal.SophosProps
import Verif.Ideal.DianaProps
import Verif.Ideal.JanusProps
import Verif.Faults.Props
import Verif.Power.Props
import Verif.Power.FlushProps
import Verif.Runner.SessionProps
import Verif.Janus.FaultsMixedProps
import Verif.Janus.PowerProps
import Verif.Janus.MixedProps
import Verif.Janus.ConcurrentProps

/-!
# Histories that depend on the random choice: C81

The histories, the failures and the schedules are quantified inside of the probability: they may depend on everything that was
chosen, in particular on everything seen before. -/

namespace Verif.Ideal

/-- At most `n` insertions for each keyword of the dictionary `W`, and none for other keywords. -/
def quota {Kw : Type} [DecidableEq Kw] (W : Finset Kw) (n : Nat) (w : Kw) : Nat := if w ∈ W then n else 0

theorem quota_le {Kw : Type} [DecidableEq Kw] (W : Finset Kw) (n : Nat) (w : Kw) : quota W n w ≤ n := by
  unfold quota; split <;> omega

theorem lt_of_quota {Kw : Type} [DecidableEq Kw] {W : Finset Kw} {n m : Nat} {w : Kw} (hn : n < 2 ^ 32) (h : m ≤ quota W n w) :
    m < 2 ^ 32 := Nat.lt_of_le_of_lt (le_trans h (quota_le W n w)) hn

/-- **C81**: if it is unlikely that there is a bad history, then every way to choose one, whatever it depends on, is unlikely to find one. -/
theorem C81_choose {Ω H : Type*} [Fintype Ω] {p : Ω → H → Prop} {b : ℚ} (h : prob (fun ω => ∃ x, p ω x) ≤ b) (σ : Ω → H) :
    prob (fun ω => p ω (σ ω)) ≤ b :=
  le_trans (prob_mono (fun ω hω => ⟨σ ω, hω⟩)) h

end Verif.Ideal

/-! ## Sophos -/

namespace Verif.Ideal.Sophos

open Verif Verif.Sophos

variable {Kw Seed ST DK : Type} [DecidableEq Kw]

/-- The bound for a dictionary of `k` keywords with `n` insertions each. -/
noncomputable def dictBound (Seed DK : Type) [Fintype Seed] [Fintype ST] [Fintype DK] (T : Perm ST) (k n : Nat) : ℚ :=
  (k.choose 2 : ℚ) / Fintype.card Seed + k * ((shortCycles T n).card / Fintype.card ST) +
    (k.choose 2 : ℚ) / Fintype.card DK + ((k * n).choose 2 : ℚ) / 256 ^ 16

/-- `n` insertions for each keyword. -/
noncomputable def full (W : Finset Kw) (n : Nat) : List (Kw × Index) := W.toList.flatMap (fun w => List.replicate n (w, 0))

theorem docs_append (w : Kw) (H H' : List (Kw × Index)) : Spec.docs w (H ++ H') = Spec.docs w H ++ Spec.docs w H' := by
  simp [Spec.docs]

theorem docs_replicate (w v : Kw) (n : Nat) :
    (Spec.docs w (List.replicate n (v, (0 : Index)))).length = if v = w then n else 0 := by
  by_cases h : v = w <;> simp [Spec.docs, h]

theorem docs_full (W : Finset Kw) (n : Nat) (w : Kw) : (Spec.docs w (full W n)).length = quota W n w := by
  have key : ∀ l : List Kw, l.Nodup → (Spec.docs w (l.flatMap (fun w => List.replicate n (w, (0 : Index))))).length =
      if w ∈ l then n else 0 := by
    intro l
    induction l with
    | nil => intro _; rfl
    | cons v l ih =>
      intro hl
      have := List.nodup_cons.mp hl
      rw [List.flatMap_cons, docs_append, List.length_append, docs_replicate, ih this.2]
      by_cases h : v = w
      · subst h; simp [this.1]
      · simp [h, Ne.symm h]
  unfold full quota
  rw [key _ W.nodup_toList]
  simp

theorem keywords_full (W : Finset Kw) (n : Nat) : keywords (full W n) ⊆ W := by
  intro w hw
  simp only [keywords, full, List.mem_toFinset, List.mem_map, List.mem_flatMap, Finset.mem_toList, List.mem_replicate] at hw
  obtain ⟨x, ⟨v, hv, -, rfl⟩, rfl⟩ := hw
  exact hv

omit [DecidableEq Kw] in
theorem length_full (W : Finset Kw) (n : Nat) : (full W n).length = W.card * n := by
  simp [full, List.length_flatMap]

variable [Fintype Seed] [Fintype ST] [Fintype DK] [DecidableEq Seed] [DecidableEq ST] [DecidableEq DK]

/-- **C81**, Sophos: update tokens of the dictionary collide with a probability of at most `dictBound`. -/
theorem C81_sophos_collision {U : Finset Kw} (T : Perm ST) (g : Kw → Seed) (W : Finset Kw) (hU : W ⊆ U) (n : Nat) :
    prob (fun ω : Choice U Seed ST DK => ¬ Faults.SophosNoCollision (crypto T g ω) (quota W n)) ≤ dictBound Seed DK T W.card n := by
  have h := C78_sophos_collision (Seed := Seed) (DK := DK) (U := U) T g (full W n) n
    (Finset.Subset.trans (keywords_full W n) hU) (fun w => by rw [docs_full]; exact quota_le W n w)
  refine le_trans (prob_mono ?_) (le_trans h ?_)
  · intro ω hω hnc
    refine hω (fun w a v b ha hb => hnc w a v b ?_ ?_)
    · rw [docs_full]; exact ha
    · rw [docs_full]; exact hb
  · have hk : (keywords (full W n)).card ≤ W.card := Finset.card_le_card (keywords_full W n)
    have h1 : ((keywords (full W n)).card.choose 2 : ℚ) ≤ W.card.choose 2 := by exact_mod_cast Nat.choose_le_choose 2 hk
    have h2 : ((keywords (full W n)).card : ℚ) ≤ W.card := by exact_mod_cast hk
    unfold bound dictBound
    rw [length_full]
    dsimp only
    gcongr

/-- **C81**, Sophos: with random functions, the probability that some history over the dictionary is answered wrongly. -/
theorem C81_sophos_search {U : Finset Kw} (T : Perm ST) (g : Kw → Seed) (W : Finset Kw) (hU : W ⊆ U) (n : Nat) (hn32 : n < 2 ^ 32) :
    prob (fun ω : Choice U Seed ST DK => ∃ (garbage : ST × DK) (ops : List (Op Kw)),
      (∀ w, (Spec.docs w (Spec.insertions ops)).length ≤ quota W n w) ∧
      (run (crypto T g ω) garbage Sys.init ops).2 ≠ Spec.run [] ops) ≤ dictBound Seed DK T W.card n := by
  refine le_trans (prob_mono ?_) (C81_sophos_collision T g W hU n)
  rintro ω ⟨garbage, ops, hq, hω⟩ hnc
  exact hω (C01_search_exact (crypto T g ω) garbage ops (fun w => lt_of_quota hn32 (hq w))
    (fun w a v b ha hb => hnc w a v b (Nat.lt_of_lt_of_le ha (hq w)) (Nat.lt_of_lt_of_le hb (hq v))))

/-- **C81**, Sophos: the same when only some of the updates reach the server, in any order. -/
theorem C81_sophos_delivered {U : Finset Kw} (T : Perm ST) (g : Kw → Seed) (W : Finset Kw) (hU : W ⊆ U) (n : Nat) (hn32 : n < 2 ^ 32) :
    prob (fun ω : Choice U Seed ST DK => ∃ (garbage : ST × DK) (H : List (Kw × Index)) (D : List Nat) (w : Kw),
      (∀ w, (Spec.docs w H).length ≤ quota W n w) ∧
      search (crypto T g ω) (deliver (crypto T g ω) H D)
        (searchRequest (crypto T g ω) garbage (clientRun (crypto T g ω) Map.empty H).2 w) ≠ Spec.expectedDelivered w H D) ≤
      dictBound Seed DK T W.card n := by
  refine le_trans (prob_mono ?_) (C81_sophos_collision T g W hU n)
  rintro ω ⟨garbage, H, D, w, hq, hω⟩ hnc
  exact hω (C04_search_delivered (crypto T g ω) garbage H D (fun w => lt_of_quota hn32 (hq w))
    (fun w a v b ha hb => hnc w a v b (Nat.lt_of_lt_of_le ha (hq w)) (Nat.lt_of_lt_of_le hb (hq v))) w)

/-- **C81**, Sophos: the same under failures of RocksDB: what is observed is what the specification of C50 says. -/
theorem C81_sophos_faults {U : Finset Kw} (T : Perm ST) (g : Kw → Seed) (W : Finset Kw) (hU : W ⊆ U) (n : Nat) (hn32 : n < 2 ^ 32) :
    prob (fun ω : Choice U Seed ST DK => ∃ (garbage : ST × DK) (ops : List (Faults.Op Kw Index)),
      (∀ w, Faults.Spec.attempts w ops ≤ quota W n w) ∧
      Faults.sophosRun (crypto T g ω) garbage Sys.init ops ≠ Faults.Spec.Slots.init.run Faults.Spec.newestFirst ops) ≤
      dictBound Seed DK T W.card n := by
  refine le_trans (prob_mono ?_) (C81_sophos_collision T g W hU n)
  rintro ω ⟨garbage, ops, hq, hω⟩ hnc
  exact hω (Faults.C50_sophos_refines (crypto T g ω) garbage ops (fun w => lt_of_quota hn32 (hq w))
    (fun w a v b ha hb => hnc w a v b (Nat.lt_of_lt_of_le ha (hq w)) (Nat.lt_of_lt_of_le hb (hq v))))

/-- **C81**, Sophos: the same under loss of power: the results are what the specification of C57 says. -/
theorem C81_sophos_power {U : Finset Kw} (T : Perm ST) (g : Kw → Seed) (W : Finset Kw) (hU : W ⊆ U) (n : Nat) (hn32 : n < 2 ^ 32) :
    prob (fun ω : Choice U Seed ST DK => ∃ (garbage : ST × DK) (ops : List (Power.Op Kw)) (w : Kw),
      (∀ w, (Power.Spec.inserted ops w).length ≤ quota W n w) ∧
      Power.search (Runner.Sess.sophos (crypto T g ω) garbage) ops w ≠ some ((Power.Spec.Slots.run ops).search w).reverse) ≤
      dictBound Seed DK T W.card n := by
  refine le_trans (prob_mono ?_) (C81_sophos_collision T g W hU n)
  rintro ω ⟨garbage, ops, w, hq, hω⟩ hnc
  exact hω (Power.C57_sophos_refines (crypto T g ω) garbage ops (fun w => lt_of_quota hn32 (hq w))
    (fun w a v b ha hb => hnc w a v b (Nat.lt_of_lt_of_le ha (hq w)) (Nat.lt_of_lt_of_le hb (hq v))) w)

/-- **C81**, Sophos: the same for the searches of any number of clients over the network (C56). -/
theorem C81_sophos_session {U : Finset Kw} (T : Perm ST) (g : Kw → Seed) (W : Finset Kw) (hU : W ⊆ U) (n : Nat) (hn32 : n < 2 ^ 32) :
    prob (fun ω : Choice U Seed ST DK => ∃ (garbage : ST × DK) (acts : List (Runner.Sess.Act Kw)) (p q : List (Runner.Sess.Event Kw)) (m : Nat)
        (w : Kw) (r : Option (List Index)),
      ((Runner.Sess.init (Runner.Sess.sophos (crypto T g ω) garbage)).run acts).trace = p ++ .found m w r :: q ∧
      (∀ v, (Spec.docs v (Runner.Sess.hist p)).length ≤ quota W n v) ∧
      r ≠ some (Runner.Sess.storedDocs w p).reverse) ≤
      dictBound Seed DK T W.card n := by
  refine le_trans (prob_mono ?_) (C81_sophos_collision T g W hU n)
  rintro ω ⟨garbage, acts, p, q, m, w, r, h, hq, hω⟩ hnc
  exact hω (Runner.Sess.C56_sophos_search (crypto T g ω) garbage acts p q m w r h (fun w => lt_of_quota hn32 (hq w))
    (fun w a v b ha hb => hnc w a v b (Nat.lt_of_lt_of_le ha (hq w)) (Nat.lt_of_lt_of_le hb (hq v))))

omit [DecidableEq ST] in
/-- With keyword indices of 16 bytes, derivation keys of 32 bytes, a million keywords with a thousand insertions each and no short cycle of
the permutation, the bound is below `2^-68`. -/
theorem C81_sophos_number (T : Perm ST) (hT : shortCycles T (2 ^ 10) = ∅) :
    dictBound (Vector UInt8 16) (Vector UInt8 32) T (2 ^ 20) (2 ^ 10) < 1 / 2 ^ 68 := by
  unfold dictBound
  simp only [hT, card_bytes, Finset.card_empty]
  rw [Nat.choose_two_right, Nat.choose_two_right]
  norm_num

end Verif.Ideal.Sophos

/-! ## Diana -/

namespace Verif.Ideal.Diana

open Verif Verif.Diana

variable {Kw V : Type} [DecidableEq Kw]

/-- **C81**, Diana: update tokens of the dictionary collide with a probability of at most `bound`. -/
theorem C81_diana_collision {U : Finset Kw} (R : Rest V) (g : Kw → Token) (W : Finset Kw) (hU : W ⊆ U) (n : Nat) (hn32 : n ≤ 2 ^ 32) :
    prob (fun ω : Choice U => ¬ NoCollision (crypto R g ω) (quota W n)) ≤ bound W.card (W.card * n) := by
  refine C78_diana_collision R g W (quota W n) _ hU ?_ (fun w => le_trans (quota_le W n w) hn32) ?_
  · intro w hw
    unfold quota at hw
    split at hw
    · assumption
    · omega
  · exact le_trans (Finset.sum_le_card_nsmul _ _ n (fun w _ => quota_le W n w)) le_rfl

omit [DecidableEq Kw] in
theorem noCollision_mono {c : Crypto Kw V} {B B' : Kw → Nat} (h : ∀ w, B w ≤ B' w) (hnc : NoCollision c B') : NoCollision c B :=
  fun w a v b ha hb => hnc w a v b (Nat.lt_of_lt_of_le ha (h w)) (Nat.lt_of_lt_of_le hb (h v))

/-- **C81**, Diana: with random functions, the probability that some history over the dictionary, with insertions lost or not and
searches that delete or not, is answered wrongly. -/
theorem C81_diana_search {U : Finset Kw} (R : Rest V) (g : Kw → Token) (W : Finset Kw) (hU : W ⊆ U) (n : Nat) (hn32 : n < 2 ^ 32) :
    prob (fun ω : Choice U => ∃ ops : List (Op Kw V), (∀ w, Spec.insertions w ops ≤ quota W n w) ∧
      ¬ ∃ s, run (crypto R g ω) Sys.init ops = some (s, Spec.run Spec.empty ops)) ≤ bound W.card (W.card * n) := by
  refine le_trans (prob_mono ?_) (C81_diana_collision R g W hU n (Nat.le_of_lt hn32))
  rintro ω ⟨ops, hq, hω⟩ hnc
  exact hω (C07_histories (crypto R g ω) ops (fun w => lt_of_quota hn32 (hq w)) (noCollision_mono hq hnc))

/-- **C81**, Diana: the same for all kinds of searches, in parallel or not, whose calls of RocksDB may fail, under any schedule. -/
theorem C81_diana_kinds {U : Finset Kw} (R : Rest V) (g : Kw → Token) (zero : V) (W : Finset Kw) (hU : W ⊆ U) (n : Nat)
    (hn32 : n < 2 ^ 32) :
    prob (fun ω : Choice U => ∃ (ops : List (Diana.Kinds.Op Kw V)) (s : Diana.Sys Kw V) (outs : List (List V)),
      (∀ op ∈ ops, op.Ok) ∧ (∀ w, Diana.Kinds.Spec.insertions w ops ≤ quota W n w) ∧
      Diana.Kinds.Run (crypto R g ω) zero Diana.Sys.init ops s outs ∧
      ¬ Diana.Kinds.Spec.Answers zero Diana.Kinds.Spec.State.init ops outs) ≤ bound W.card (W.card * n) := by
  refine le_trans (prob_mono ?_) (C81_diana_collision R g W hU n (Nat.le_of_lt hn32))
  rintro ω ⟨ops, s, outs, hok, hq, hrun, hω⟩ hnc
  exact hω (Diana.Kinds.C77_refines (crypto R g ω) zero ops hok (fun w => lt_of_quota hn32 (hq w)) (noCollision_mono hq hnc) s outs hrun)

/-- **C81**, Diana: the same under failures of RocksDB (C50). -/
theorem C81_diana_faults {U : Finset Kw} (R : Rest V) (g : Kw → Token) (W : Finset Kw) (hU : W ⊆ U) (n : Nat) (hn32 : n < 2 ^ 32) :
    prob (fun ω : Choice U => ∃ ops : List (Faults.Op Kw V), (∀ w, Faults.Spec.attempts w ops ≤ quota W n w) ∧
      Faults.dianaRun (crypto R g ω) Sys.init ops ≠ Faults.Spec.Slots.init.run Faults.Spec.oldestFirst ops) ≤
      bound W.card (W.card * n) := by
  refine le_trans (prob_mono ?_) (C81_diana_collision R g W hU n (Nat.le_of_lt hn32))
  rintro ω ⟨ops, hq, hω⟩ hnc
  exact hω (Faults.C50_diana_refines (crypto R g ω) ops (fun w => lt_of_quota hn32 (hq w)) (noCollision_mono hq hnc))

/-- **C81**, Diana: the same under loss of power (C57). -/
theorem C81_diana_power {U : Finset Kw} (R : Rest Index) (g : Kw → Token) (W : Finset Kw) (hU : W ⊆ U) (n : Nat) (hn32 : n < 2 ^ 32) :
    prob (fun ω : Choice U => ∃ (ops : List (Power.Op Kw)) (w : Kw),
      (∀ w, (Power.Spec.inserted ops w).length ≤ quota W n w) ∧
      Power.search (Runner.Sess.diana (crypto R g ω)) ops w ≠ some ((Power.Spec.Slots.run ops).search w)) ≤
      bound W.card (W.card * n) := by
  refine le_trans (prob_mono ?_) (C81_diana_collision R g W hU n (Nat.le_of_lt hn32))
  rintro ω ⟨ops, w, hq, hω⟩ hnc
  exact hω (Power.C57_diana_refines (crypto R g ω) ops (fun w => lt_of_quota hn32 (hq w)) (noCollision_mono hq hnc) w)

/-- **C81**, Diana: the same under loss of power of the server, with the flushes of the service (C86). -/
theorem C81_diana_durable {U : Finset Kw} (R : Rest Index) (g : Kw → Token) (W : Finset Kw) (hU : W ⊆ U) (n : Nat) (hn32 : n < 2 ^ 32) :
    prob (fun ω : Choice U => ∃ (evs : List (Power.Ev Kw)) (w : Kw),
      (∀ w, (Power.Durable.inserted evs w).length ≤ quota W n w) ∧ Power.Durable.NoClientLoss evs ∧ Power.Durable.NoFailure evs ∧
      Power.evSearch .diana (Runner.Sess.diana (crypto R g ω)) evs w ≠ some (Power.Durable.docs evs w)) ≤
      bound W.card (W.card * n) := by
  refine le_trans (prob_mono ?_) (C81_diana_collision R g W hU n (Nat.le_of_lt hn32))
  rintro ω ⟨evs, w, hq, hc, hf, hω⟩ hnc
  exact hω (Power.C86_diana_partial (crypto R g ω) evs hc hf (fun w => lt_of_quota hn32 (hq w)) (noCollision_mono hq hnc) w)

/-- **C81**, Diana: the same for the searches of any number of clients over the network (C56). -/
theorem C81_diana_session {U : Finset Kw} (R : Rest Index) (g : Kw → Token) (W : Finset Kw) (hU : W ⊆ U) (n : Nat) (hn32 : n < 2 ^ 32) :
    prob (fun ω : Choice U => ∃ (acts : List (Runner.Sess.Act Kw)) (p q : List (Runner.Sess.Event Kw)) (m : Nat)
        (w : Kw) (r : Option (List Index)),
      ((Runner.Sess.init (Runner.Sess.diana (crypto R g ω))).run acts).trace = p ++ .found m w r :: q ∧
      (∀ v, (Diana.Spec.docs v (Runner.Sess.hist p)).length ≤ quota W n v) ∧ r ≠ some (Runner.Sess.storedDocs w p)) ≤
      bound W.card (W.card * n) := by
  refine le_trans (prob_mono ?_) (C81_diana_collision R g W hU n (Nat.le_of_lt hn32))
  rintro ω ⟨acts, p, q, m, w, r, h, hq, hω⟩ hnc
  exact hω (Runner.Sess.C56_diana_search (crypto R g ω) acts p q m w r h (fun w => lt_of_quota hn32 (hq w)) (noCollision_mono hq hnc))

/-- With a million keywords with a thousand insertions each, the bound is below `2^-68`. -/
theorem C81_diana_number : bound (2 ^ 20) (2 ^ 20 * 2 ^ 10) < 1 / 2 ^ 68 := by
  unfold bound
  rw [Nat.choose_two_right, Nat.choose_two_right]
  norm_num

end Verif.Ideal.Diana

/-! ## Janus -/

namespace Verif.Ideal.Janus

open Verif Verif.Janus

variable {PK KS CT Rand : Type}

theorem metas_mono {K K' : List Str} {n n' : Nat} (hK : K ⊆ K') (hn : n ≤ n') : metas K n ⊆ metas K' n' := by
  intro x hx
  simp only [metas, List.mem_flatMap, List.mem_map, List.mem_range] at hx ⊢
  obtain ⟨w, hw, e, he, rfl⟩ := hx
  exact ⟨w, hK hw, e, by omega, rfl⟩

/-- Fewer keywords, documents and operations use fewer points. -/
theorem noCollision_mono {c : Crypto PK KS CT Rand} {K K' : List Str} {D D' : List Index} {n n' : Nat} (hK : K ⊆ K') (hD : D ⊆ D')
    (hn : n ≤ n') (h : NoCollision c K' D' n') : NoCollision c K D n := by
  have hb : ∀ w, Verif.Janus.bound K n w ≤ Verif.Janus.bound K' n' w := by
    intro w
    unfold Verif.Janus.bound
    split
    · next h1 => rw [if_pos (metas_mono hK hn h1)]; exact hn
    · omega
  exact ⟨Diana.noCollision_mono hb h.ins, Diana.noCollision_mono hb h.del, fun v hv w hw => h.kw v (hK hv) w (hK hw),
    fun w hw i hi j hj => h.tags w (hK hw) i (hD hi) j (hD hj)⟩

/-- **C81**, Janus: there is a collision for the dictionary with a probability of at most `bound`. -/
theorem C81_janus_collision {U : Finset Str} (R : Rest PK KS CT Rand) (W : List Str) (D : List Index) (n : Nat)
    (hn : n ≤ 2 ^ 32) (hU : stringsOf W D n ⊆ U) :
    prob (fun ω : Choice U => ¬ NoCollision (crypto R ω) W D n) ≤ bound W.toFinset.card D.toFinset.card n :=
  collision_le R W D n _ _ hn hU le_rfl le_rfl

/-- **C81**, Janus: with random functions, the probability that some history of C12 over the dictionary is answered wrongly. -/
theorem C81_janus_search_partial {U : Finset Str} (R : Rest PK KS CT Rand) (laws : ∀ ω : Choice U, PunctLaws (crypto R ω))
    (W : List Str) (D : List Index) (n : Nat) (hn : n + 1 < 2 ^ 32) (hU : stringsOf W D n ⊆ U) :
    prob (fun ω : Choice U => ∃ ops : List (Op Rand), ops.map Spec.Op.kw ⊆ W ∧ ops.flatMap Spec.Op.docs ⊆ D ∧ ops.length ≤ n ∧
      Spec.admissible (fun _ => ⟨[], []⟩) ops = true ∧
      ¬ ∃ s, run (crypto R ω) Sys.init ops = .ok (s, Spec.run Spec.empty ops)) ≤
      bound W.toFinset.card D.toFinset.card n := by
  refine le_trans (prob_mono ?_) (C81_janus_collision R W D n (by omega) hU)
  rintro ω ⟨ops, hK, hD, hl, hadm, hω⟩ hnc
  exact hω (C12_search_exact_partial (crypto R ω) (laws ω) ops (by omega) (noCollision_mono hK hD hl hnc) hadm)

/-- **C81**, Janus: the probability that some history over the dictionary makes the server fail. -/
theorem C81_janus_no_fault {U : Finset Str} (R : Rest PK KS CT Rand) (W : List Str) (D : List Index) (n : Nat) (hn : n + 1 < 2 ^ 32)
    (hU : stringsOf W D n ⊆ U) :
    prob (fun ω : Choice U => ∃ ops : List (Op Rand), ops.map Spec.Op.kw ⊆ W ∧ ops.flatMap Spec.Op.docs ⊆ D ∧ ops.length ≤ n ∧
      ¬ ∃ s outs, run (crypto R ω) Sys.init ops = .ok (s, outs)) ≤ bound W.toFinset.card D.toFinset.card n := by
  refine le_trans (prob_mono ?_) (C81_janus_collision R W D n (by omega) hU)
  rintro ω ⟨ops, hK, hD, hl, hω⟩ hnc
  exact hω (C12_no_fault (crypto R ω) ops (by omega) (noCollision_mono hK hD hl hnc))

/-- **C81**, Janus: the same for sequential and parallel searches mixed, under any schedule (C68). -/
theorem C81_janus_mixed {U : Finset Str} (R : Rest PK KS CT Rand) (W : List Str) (D : List Index) (n : Nat) (hn : n + 1 < 2 ^ 32)
    (hU : stringsOf W D n ⊆ U) :
    prob (fun ω : Choice U => ∃ (ops : List (Mixed.Op Rand)) (s : Sys KS CT) (outs : List (List Index)),
      (ops.map Mixed.Op.plain).map Spec.Op.kw ⊆ W ∧ (ops.map Mixed.Op.plain).flatMap Spec.Op.docs ⊆ D ∧ ops.length ≤ n ∧
      (∀ op ∈ ops, op.ok = true) ∧ Mixed.Run (crypto R ω) Sys.init ops s outs ∧
      ¬ ∃ q outs', run (crypto R ω) Sys.init (ops.map Mixed.Op.plain) = .ok (q, outs') ∧ List.Forall₂ List.Perm outs outs') ≤
      bound W.toFinset.card D.toFinset.card n := by
  refine le_trans (prob_mono ?_) (C81_janus_collision R W D n (by omega) hU)
  rintro ω ⟨ops, s, outs, hK, hD, hl, hok, hrun, hω⟩ hnc
  exact hω (Mixed.C68_mixed (crypto R ω) ops (by omega) (noCollision_mono hK hD (by simpa using hl) hnc) hok s outs hrun)

/-- **C81**, Janus: the same under failures of RocksDB, as long as searches use punctured keys (C64). -/
theorem C81_janus_faults {U : Finset Str} (R : Rest PK KS CT Rand) (laws : ∀ ω : Choice U, PunctLaws (crypto R ω))
    (W : List Str) (D : List Index) (n : Nat) (hn : n < 2 ^ 32) (hU : stringsOf W D n ⊆ U) :
    prob (fun ω : Choice U => ∃ ops : List (Verif.Janus.Faults.Op Rand), ops.map Verif.Janus.Faults.Spec.Op.kw ⊆ W ∧ ops.flatMap Verif.Janus.Faults.Spec.Op.docs ⊆ D ∧
      ops.length ≤ n ∧ (Verif.Janus.Faults.Spec.Machine.init : Verif.Janus.Faults.Spec.Machine Rand).keysOk ops = true ∧
      ¬ ∃ s, Verif.Janus.Faults.run (crypto R ω) Sys.init ops = .ok (s, Verif.Janus.Faults.Spec.Machine.init.run ops)) ≤
      bound W.toFinset.card D.toFinset.card n := by
  refine le_trans (prob_mono ?_) (C81_janus_collision R W D n (by omega) hU)
  rintro ω ⟨ops, hK, hD, hl, hkeys, hω⟩ hnc
  exact hω (Verif.Janus.Faults.C64_refines (crypto R ω) (laws ω) ops (noCollision_mono hK hD hl hnc) (by omega) hkeys)

/-- **C81**, Janus: the same under failures of RocksDB, for sequential and parallel searches mixed, under any schedule (C64). -/
theorem C81_janus_faults_mixed {U : Finset Str} (R : Rest PK KS CT Rand) (laws : ∀ ω : Choice U, PunctLaws (crypto R ω))
    (W : List Str) (D : List Index) (n : Nat) (hn : n + 1 < 2 ^ 32) (hU : stringsOf W D n ⊆ U) :
    prob (fun ω : Choice U => ∃ (ops : List (Verif.Janus.Faults.Mixed.Op Rand)) (s : Sys KS CT)
      (outs : List Verif.Janus.Faults.Out),
      (ops.map Verif.Janus.Faults.Mixed.Op.plain).map Verif.Janus.Faults.Spec.Op.kw ⊆ W ∧
      (ops.map Verif.Janus.Faults.Mixed.Op.plain).flatMap Verif.Janus.Faults.Spec.Op.docs ⊆ D ∧
      ops.length ≤ n ∧ (∀ op ∈ ops, op.ok = true) ∧
      (Verif.Janus.Faults.Spec.Machine.init : Verif.Janus.Faults.Spec.Machine Rand).keysOk
        (ops.map Verif.Janus.Faults.Mixed.Op.plain) = true ∧
      Verif.Janus.Faults.Mixed.Run (crypto R ω) Sys.init ops s outs ∧
      ¬ List.Forall₂ Verif.Janus.Faults.Mixed.Same outs
        (Verif.Janus.Faults.Spec.Machine.init.run (ops.map Verif.Janus.Faults.Mixed.Op.plain))) ≤
      bound W.toFinset.card D.toFinset.card n := by
  refine le_trans (prob_mono ?_) (C81_janus_collision R W D n (by omega) hU)
  rintro ω ⟨ops, s, outs, hK, hD, hl, hok, hkeys, hrun, hω⟩ hnc
  exact hω (Verif.Janus.Faults.Mixed.C64_mixed_refines (crypto R ω) (laws ω) ops (by omega)
    (noCollision_mono hK hD (by simpa using hl) hnc) hok hkeys s outs hrun)

/-- **C81**, Janus: the same under loss of power, as long as searches use punctured keys (C75). -/
theorem C81_janus_power {U : Finset Str} (R : Rest PK KS CT Rand) (laws : ∀ ω : Choice U, PunctLaws (crypto R ω))
    (W : List Str) (D : List Index) (n : Nat) (hn : n < 2 ^ 32) (hU : stringsOf W D n ⊆ U) :
    prob (fun ω : Choice U => ∃ ops : List (Verif.Janus.Power.Op Rand), ops.flatMap Verif.Janus.Power.Spec.Op.kws ⊆ W ∧
      ops.flatMap Verif.Janus.Power.Spec.Op.docs ⊆ D ∧ ops.length ≤ n ∧
      (Verif.Janus.Power.Spec.Machine.init : Verif.Janus.Power.Spec.Machine Rand).keysOk ops = true ∧
      ¬ ∃ s, Verif.Janus.Power.run (crypto R ω) Verif.Janus.Power.Sys.init ops = .ok (s, Verif.Janus.Power.Spec.Machine.init.run ops)) ≤
      bound W.toFinset.card D.toFinset.card n := by
  refine le_trans (prob_mono ?_) (C81_janus_collision R W D n (by omega) hU)
  rintro ω ⟨ops, hK, hD, hl, hkeys, hω⟩ hnc
  exact hω (Verif.Janus.Power.C75_refines (crypto R ω) (laws ω) ops (noCollision_mono hK hD hl hnc) (by omega) hkeys)

/-- **C81**, Janus: the same for calls on which the server works at the same time, as far as C70 covers them. -/
theorem C81_janus_concurrent_partial {U : Finset Str} (R : Rest PK KS CT Rand) (W : List Str) (D : List Index) (n : Nat)
    (hn : n + 1 < 2 ^ 32) (hU : stringsOf W D n ⊆ U) :
    prob (fun ω : Choice U => ∃ (es : List (Conc.Ev Rand)) (k : Nat) (call : Conc.Call (crypto R ω)),
      (Conc.issued es).map Spec.Op.kw ⊆ W ∧ (Conc.issued es).flatMap Spec.Op.docs ⊆ D ∧
      (Conc.issued es).length ≤ n ∧ Conc.allCareful (Conc.CSys.init (crypto R ω)) es = true ∧
      ((Conc.CSys.init (crypto R ω)).run es).calls[k]? = some call ∧ call.pc.over = true ∧
      ¬ ∃ op q outs q' out, (Conc.issued es)[k]? = some op ∧
        run (crypto R ω) Sys.init ((Conc.issued es).take k) = .ok (q, outs) ∧
        step (crypto R ω) q op = .ok (q', out) ∧ call.pc = .done out) ≤
      bound W.toFinset.card D.toFinset.card n := by
  refine le_trans (prob_mono ?_) (C81_janus_collision R W D n (by omega) hU)
  rintro ω ⟨es, k, call, hK, hD, hl, hcare, hk, hover, hω⟩ hnc
  exact hω (Conc.C70_partial (crypto R ω) es (by omega) (noCollision_mono hK hD hl hnc) hcare k call hk hover)

end Verif.Ideal.Janus

/-! ## Instances -/

namespace Verif.Ideal

theorem quota_of_list {W : Finset Nat} {n : Nat} {l : List Nat} (hW : ∀ w ∈ l, w ∈ W) (hn : l.length ≤ n) (w : Nat) :
    l.count w ≤ quota W n w := by
  by_cases h : w ∈ l
  · unfold quota
    rw [if_pos (hW w h)]
    exact le_trans List.count_le_length hn
  · rw [List.count_eq_zero_of_not_mem h]
    exact Nat.zero_le _

/-- A history of Diana that depends on the random choice: which keyword is used next depends on the first byte of a leaf. -/
def sampleDiana (ω : Diana.Choice (Finset.range 10)) : List (Verif.Diana.Op Nat Index) :=
  if (ω.2.2.1 (Vector.replicate 32 7, Diana.pos 3))[0] = 0 then [.insert 1 5, .search 1, .insert 1 6, .searchDelete 1]
  else [.insert 1 5, .search 1, .insert 2 6, .lost 2 7, .search 2]

/-- It keeps to the quota, whatever was chosen. -/
theorem sampleDiana_quota (ω : Diana.Choice (Finset.range 10)) (w : Nat) :
    Verif.Diana.Spec.insertions w (sampleDiana ω) ≤ quota (Finset.range 10) 3 w := by
  rw [Diana.insertions_eq]
  unfold sampleDiana
  split <;> exact quota_of_list (by decide) (by decide) w

/-- So it is answered wrongly with a probability of at most the bound. -/
example (R : Diana.Rest Index) (g : Nat → Verif.Diana.Token) :
    prob (fun ω : Diana.Choice (Finset.range 10) => ¬ ∃ s, Verif.Diana.run (Diana.crypto R g ω) Verif.Diana.Sys.init (sampleDiana ω) =
      some (s, Verif.Diana.Spec.run Verif.Diana.Spec.empty (sampleDiana ω))) ≤ Diana.bound 10 30 := by
  have h := C81_choose (Diana.C81_diana_search (U := Finset.range 10) R g (Finset.range 10) (Finset.Subset.refl _) 3 (by decide)) sampleDiana
  refine le_trans (prob_mono (fun ω hω => ⟨sampleDiana_quota ω, hω⟩)) h

/-- The history of Sophos of C78 keeps to the quota. -/
example (w : Nat) : (Verif.Sophos.Spec.docs w (Verif.Sophos.Spec.insertions Sophos.sampleOps)).length ≤ quota (Finset.range 10) 3 w := by
  have h : (Verif.Sophos.Spec.docs w (Verif.Sophos.Spec.insertions Sophos.sampleOps)).length = [1, 2, 1].count w := by
    have e : Verif.Sophos.Spec.insertions Sophos.sampleOps = [(1, 5), (2, 6), (1, 7)] := by decide
    rw [e]
    by_cases h1 : 1 = w
    · subst h1; decide
    · by_cases h2 : 2 = w
      · subst h2; decide
      · simp [Verif.Sophos.Spec.docs, h1, h2]
  rw [h]
  exact quota_of_list (by decide) (by decide) w

/-- Insertions of Sophos, one of which fails: within the quota too. -/
example (w : Nat) : Faults.Spec.attempts w [(.insert 1 5 true .ok .failed : Faults.Op Nat Index), .insert 1 6 true .ok .ok] ≤
    quota (Finset.range 10) 3 w := by
  by_cases h1 : 1 = w
  · subst h1; decide
  · simp [Faults.Spec.attempts, h1]

/-- A history of Janus over a dictionary of two keywords and three documents. -/
example : ([.insert [97] 3 (), .insert [97] 4 (), .remove [97] 3, .search [97]] : List (Verif.Janus.Op Unit)).map
      Verif.Janus.Spec.Op.kw ⊆ [[97], [98]] ∧
    ([.insert [97] 3 (), .insert [97] 4 (), .remove [97] 3, .search [97]] : List (Verif.Janus.Op Unit)).flatMap
      Verif.Janus.Spec.Op.docs ⊆ [3, 4, 5] ∧
    Verif.Janus.Spec.admissible (fun _ => ⟨[], []⟩)
      ([.insert [97] 3 (), .insert [97] 4 (), .remove [97] 3, .search [97]] : List (Verif.Janus.Op Unit)) = true := by
  decide +kernel

/-- A history of Janus with failures, in which searches of all kinds are mixed, over a dictionary of one keyword and five documents. -/
example : (Verif.Janus.Faults.Mixed.sampleHistory.map Verif.Janus.Faults.Mixed.Op.plain).map Verif.Janus.Faults.Spec.Op.kw ⊆ [[97]] ∧
    (Verif.Janus.Faults.Mixed.sampleHistory.map Verif.Janus.Faults.Mixed.Op.plain).flatMap Verif.Janus.Faults.Spec.Op.docs ⊆
      [5, 7, 9, 11, 12] ∧
    (Verif.Janus.Faults.Spec.Machine.init : Verif.Janus.Faults.Spec.Machine Unit).keysOk
      (Verif.Janus.Faults.Mixed.sampleHistory.map Verif.Janus.Faults.Mixed.Op.plain) = true := by
  decide +kernel

/-- All histories of Janus over it. -/
example : prob (fun ω : Janus.Choice (Janus.stringsOf [[97], [98]] [3, 4, 5] 20) => ∃ ops : List (Verif.Janus.Op Unit),
    ops.map Verif.Janus.Spec.Op.kw ⊆ [[97], [98]] ∧ ops.flatMap Verif.Janus.Spec.Op.docs ⊆ [3, 4, 5] ∧ ops.length ≤ 20 ∧
    Verif.Janus.Spec.admissible (fun _ => ⟨[], []⟩) ops = true ∧
    ¬ ∃ s, Verif.Janus.run (Janus.crypto (Janus.Rest.of Verif.Janus.Toy.crypto) ω) Verif.Janus.Sys.init ops =
      .ok (s, Verif.Janus.Spec.run Verif.Janus.Spec.empty ops)) ≤ Janus.bound 2 3 20 :=
  Janus.C81_janus_search_partial (Janus.Rest.of Verif.Janus.Toy.crypto) (Janus.laws_of _ Verif.Janus.Toy.laws) _ _ 20 (by decide)
    (Finset.Subset.refl _)

end Verif.Ideal
