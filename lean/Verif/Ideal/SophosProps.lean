import Verif.Ideal.Sophos
import Mathlib.Tactic.NormNum
import Mathlib.Tactic.Linarith
import Mathlib.Tactic.Ring
import Mathlib.Data.ZMod.Basic

/-!
# Sophos with ideal cryptography: C78
-/

namespace Verif.Ideal.Sophos

open Verif Verif.Sophos

variable {Kw Seed ST DK : Type} [DecidableEq Kw]

theorem inv_injective (T : Perm ST) : Function.Injective T.inv := by
  intro x y h
  have := congrArg T.eval h
  rwa [T.eval_inv, T.eval_inv] at this

/-- The inverses of a token that lies on no short cycle are different. -/
theorem iterate_inj [Fintype ST] (T : Perm ST) {n : Nat} {x : ST} (hx : x ∉ shortCycles T n) {a b : Nat}
    (ha : a < n) (hb : b < n) (h : T.inv^[a] x = T.inv^[b] x) : a = b := by
  have key : ∀ a b : Nat, a < b → b < n → T.inv^[a] x ≠ T.inv^[b] x := by
    intro a b hab hb h
    apply hx
    simp only [shortCycles, Finset.mem_filter, Finset.mem_univ, true_and]
    refine ⟨b - a, by omega, by omega, ?_⟩
    have e : T.inv^[b] x = T.inv^[a] (T.inv^[b - a] x) := by
      rw [← Function.iterate_add_apply]; congr 2; omega
    rw [e] at h
    exact ((inv_injective T).iterate a h).symm
  rcases Nat.lt_trichotomy a b with h1 | h1 | h1
  · exact absurd h (key a b h1 hb)
  · exact h1
  · exact absurd h.symm (key b a h1 ha)

theorem mem_keywords {H : List (Kw × Index)} {w : Kw} {a : Nat} (h : a < (Spec.docs w H).length) :
    w ∈ keywords H := by
  obtain ⟨e, he⟩ := List.exists_mem_of_length_pos (Nat.lt_of_le_of_lt (Nat.zero_le a) h)
  simp only [Spec.docs, List.mem_map, List.mem_filter, decide_eq_true_eq] at he
  obtain ⟨x, ⟨hx, rfl⟩, -⟩ := he
  simp only [keywords, List.mem_toFinset]
  exact List.mem_map_of_mem hx

/-- The points at which the last function is used. -/
def points [DecidableEq ST] [DecidableEq DK] (T : Perm ST) (H : List (Kw × Index)) (h : Kw → Seed)
    (g : Seed → ST) (d : Seed → DK) : Finset (DK × ST × Bool) :=
  (keywords H).biUnion (fun w => (Finset.range (Spec.docs w H).length).image
    (fun a => (d (h w), T.inv^[a] (g (h w)), false)))

theorem sum_docs (H : List (Kw × Index)) (K : Finset Kw) :
    ∑ w ∈ K, (Spec.docs w H).length ≤ H.length := by
  induction H with
  | nil => simp [Spec.docs]
  | cons e H ih =>
    have : ∀ w, (Spec.docs w (e :: H)).length = (Spec.docs w H).length + if e.1 = w then 1 else 0 := by
      intro w
      by_cases hw : e.1 = w <;> simp [Spec.docs, hw]
    simp only [this, Finset.sum_add_distrib, List.length_cons]
    have h1 : ∑ w ∈ K, (if e.1 = w then 1 else 0) ≤ 1 := by
      rw [Finset.sum_ite_eq]; split <;> simp
    omega

theorem card_points [DecidableEq ST] [DecidableEq DK] (T : Perm ST) (H : List (Kw × Index)) (h : Kw → Seed)
    (g : Seed → ST) (d : Seed → DK) : (points T H h g d).card ≤ H.length := by
  refine le_trans Finset.card_biUnion_le (le_trans (Finset.sum_le_sum (fun w _ => ?_)) (sum_docs H (keywords H)))
  exact le_trans Finset.card_image_le (by simp)

theorem mem_points [DecidableEq ST] [DecidableEq DK] (T : Perm ST) (H : List (Kw × Index)) (h : Kw → Seed)
    (g : Seed → ST) (d : Seed → DK) {w : Kw} {a : Nat} (ha : a < (Spec.docs w H).length) :
    (d (h w), T.inv^[a] (g (h w)), false) ∈ points T H h g d := by
  simp only [points, Finset.mem_biUnion, Finset.mem_image, Finset.mem_range]
  exact ⟨w, mem_keywords ha, a, ha, rfl⟩

variable [Fintype Seed] [Fintype ST] [Fintype DK] [DecidableEq Seed] [DecidableEq ST] [DecidableEq DK]

omit [Fintype Seed] [Fintype DK] in
/-- A collision of update tokens is a collision of one of the functions, or a short cycle. -/
theorem noCollision_of {U : Finset Kw} (T : Perm ST) (g : Kw → Seed) (H : List (Kw × Index)) (n : Nat)
    (hn : ∀ w, (Spec.docs w H).length ≤ n) (ω : Choice U Seed ST DK) (h : Kw → Seed) (hh : h = extend g ω.1)
    (h1 : ¬ ∃ a ∈ keywords H, ∃ b ∈ keywords H, a ≠ b ∧ h a = h b)
    (h2 : ¬ ∃ s ∈ (keywords H).image h, ω.2.1 s ∈ shortCycles T n)
    (h3 : ¬ ∃ a ∈ (keywords H).image h, ∃ b ∈ (keywords H).image h, a ≠ b ∧ ω.2.2.1 a = ω.2.2.1 b)
    (h4 : ¬ ∃ a ∈ points T H h ω.2.1 ω.2.2.1, ∃ b ∈ points T H h ω.2.1 ω.2.2.1,
      a ≠ b ∧ ω.2.2.2 a = ω.2.2.2 b) :
    NoCollision (crypto T g ω) H := by
  intro w a v b ha hb heq
  have hw := mem_keywords ha
  have hv := mem_keywords hb
  simp only [updateToken, crypto, ← hh] at heq
  have e : (ω.2.2.1 (h w), T.inv^[a] (ω.2.1 (h w)), false) =
      (ω.2.2.1 (h v), T.inv^[b] (ω.2.1 (h v)), false) := by
    by_contra hne
    exact h4 ⟨_, mem_points T H h ω.2.1 ω.2.2.1 ha, _, mem_points T H h ω.2.1 ω.2.2.1 hb, hne, heq⟩
  obtain ⟨e1, e2⟩ := Prod.mk.inj e
  obtain ⟨e2, -⟩ := Prod.mk.inj e2
  have e3 : h w = h v := by
    by_contra hne
    exact h3 ⟨_, Finset.mem_image_of_mem _ hw, _, Finset.mem_image_of_mem _ hv, hne, e1⟩
  have e4 : w = v := by
    by_contra hne
    exact h1 ⟨w, hw, v, hv, hne, e3⟩
  subst e4
  refine ⟨rfl, iterate_inj T (n := n) (fun hs => h2 ⟨_, Finset.mem_image_of_mem _ hw, hs⟩) ?_ ?_ e2⟩
  · exact Nat.lt_of_lt_of_le ha (hn w)
  · exact Nat.lt_of_lt_of_le hb (hn w)

/-- **C78**, Sophos: update tokens collide with a probability of at most `bound`. -/
theorem C78_sophos_collision {U : Finset Kw} (T : Perm ST) (g : Kw → Seed) (H : List (Kw × Index)) (n : Nat)
    (hU : keywords H ⊆ U) (hn : ∀ w, (Spec.docs w H).length ≤ n) :
    prob (fun ω : Choice U Seed ST DK => ¬ NoCollision (crypto T g ω) H) ≤ bound (Seed := Seed) (DK := DK) T H n := by
  have hk : ∀ h : Kw → Seed, ((keywords H).image h).card ≤ (keywords H).card := fun _ => Finset.card_image_le
  refine le_trans (prob_mono (q := fun ω =>
    (((∃ a ∈ keywords H, ∃ b ∈ keywords H, a ≠ b ∧ extend g ω.1 a = extend g ω.1 b) ∨
      (∃ s ∈ (keywords H).image (extend g ω.1), ω.2.1 s ∈ shortCycles T n)) ∨
      (∃ a ∈ (keywords H).image (extend g ω.1), ∃ b ∈ (keywords H).image (extend g ω.1), a ≠ b ∧ ω.2.2.1 a = ω.2.2.1 b)) ∨
      (∃ a ∈ points T H (extend g ω.1) ω.2.1 ω.2.2.1, ∃ b ∈ points T H (extend g ω.1) ω.2.1 ω.2.2.1,
        a ≠ b ∧ ω.2.2.2 a = ω.2.2.2 b)) ?_) ?_
  · intro ω hω
    by_contra hc
    simp only [not_or] at hc
    exact hω (noCollision_of T g H n hn ω _ rfl hc.1.1.1 hc.1.1.2 hc.1.2 hc.2)
  · unfold bound
    refine prob_or_le (prob_or_le (prob_or_le ?_ ?_) ?_) ?_
    · exact extend_le hU g
    · exact hit_le₂ (fun h : U → Seed => (keywords H).image (extend g h)) _ _ (fun h => hk _)
    · exact collision_le₃ (fun (h : U → Seed) _ => (keywords H).image (extend g h)) _ (fun h _ => hk _)
    · have := collision_last₄ (C := Token) (fun (h : U → Seed) (s : Seed → ST) (d : Seed → DK) =>
        points T H (extend g h) s d) _ (fun h s d => card_points T H _ s d)
      rw [card_bytes] at this
      push_cast at this
      exact this

/-- **C78**, Sophos: with random functions, a history of insertions and searches gives a wrong result with
a probability of at most `bound`. -/
theorem C78_sophos_search {U : Finset Kw} (T : Perm ST) (g : Kw → Seed) (garbage : ST × DK) (ops : List (Op Kw)) (n : Nat)
    (hn32 : n < 2 ^ 32) (hU : keywords (Spec.insertions ops) ⊆ U)
    (hn : ∀ w, (Spec.docs w (Spec.insertions ops)).length ≤ n) :
    prob (fun ω : Choice U Seed ST DK =>
      (run (crypto T g ω) garbage Sys.init ops).2 ≠ Spec.run [] ops) ≤
      bound (Seed := Seed) (DK := DK) T (Spec.insertions ops) n := by
  refine le_trans (prob_mono ?_) (C78_sophos_collision T g (Spec.insertions ops) n hU hn)
  intro ω hω hnc
  exact hω (C01_search_exact (crypto T g ω) garbage ops (fun w => Nat.lt_of_le_of_lt (hn w) hn32) hnc)

/-- **C78**, Sophos: the same when only some of the updates reach the server, in any order. -/
theorem C78_sophos_delivered {U : Finset Kw} (T : Perm ST) (g : Kw → Seed) (garbage : ST × DK) (H : List (Kw × Index)) (D : List Nat)
    (n : Nat) (hU : keywords H ⊆ U) (hn32 : n < 2 ^ 32) (hn : ∀ w, (Spec.docs w H).length ≤ n) :
    prob (fun ω : Choice U Seed ST DK => ∃ w, search (crypto T g ω) (deliver (crypto T g ω) H D)
      (searchRequest (crypto T g ω) garbage (clientRun (crypto T g ω) Map.empty H).2 w) ≠
        Spec.expectedDelivered w H D) ≤
      bound (Seed := Seed) (DK := DK) T H n := by
  refine le_trans (prob_mono ?_) (C78_sophos_collision T g H n hU hn)
  rintro ω ⟨w, hω⟩ hnc
  exact hω (C04_search_delivered (crypto T g ω) garbage H D (fun w => Nat.lt_of_le_of_lt (hn w) hn32) hnc w)

omit [DecidableEq ST] in
/-- With keyword indices of 16 bytes, derivation keys of 32 bytes, a million keywords, a billion insertions and no short cycle
of the permutation, the bound is below `2^-68`. -/
theorem C78_sophos_number (T : Perm ST) (H : List (Kw × Index)) (n : Nat) (hT : shortCycles T n = ∅)
    (hk : (keywords H).card ≤ 2 ^ 20) (hH : H.length ≤ 2 ^ 30) :
    bound (Seed := Vector UInt8 16) (DK := Vector UInt8 32) T H n < 1 / 2 ^ 68 := by
  unfold bound
  simp only [hT, card_bytes, Finset.card_empty]
  have h1 : (keywords H).card.choose 2 ≤ 549755289600 := by
    refine le_trans (Nat.choose_le_choose 2 hk) ?_
    rw [Nat.choose_two_right]
    norm_num
  have h2 : H.length.choose 2 ≤ 576460751766552576 := by
    refine le_trans (Nat.choose_le_choose 2 hH) ?_
    rw [Nat.choose_two_right]
    norm_num
  have h1' : ((keywords H).card.choose 2 : ℚ) ≤ 549755289600 := by exact_mod_cast h1
  have h2' : (H.length.choose 2 : ℚ) ≤ 576460751766552576 := by exact_mod_cast h2
  norm_num
  linarith

/-! ## An instance -/

/-- The permutation that adds one to an integer modulo `m`. -/
def shift (m : Nat) : Perm (ZMod m) := ⟨(· + 1), (· - 1), by intro x; simp⟩

theorem shift_iterate (m j : Nat) (x : ZMod m) : (shift m).inv^[j] x = x - j := by
  induction j with
  | zero => simp
  | succ j ih =>
    rw [Function.iterate_succ_apply', ih]
    show x - j - 1 = _
    push_cast
    ring

/-- It has no short cycle. -/
theorem shift_cycles (m : Nat) [NeZero m] (n : Nat) (hn : n ≤ m) : shortCycles (shift m) n = ∅ := by
  refine Finset.eq_empty_of_forall_notMem (fun x hx => ?_)
  simp only [shortCycles, Finset.mem_filter, Finset.mem_univ, true_and] at hx
  obtain ⟨j, h0, hj, h⟩ := hx
  rw [shift_iterate, sub_eq_self, ZMod.natCast_eq_zero_iff] at h
  exact absurd (Nat.le_of_dvd h0 h) (by omega)

/-- A history. -/
def sampleOps : List (Op Nat) := [.insert 1 5, .insert 2 6, .search 1, .insert 1 7, .search 1]

/-- The hypotheses hold for it. -/
example (m : Nat) [NeZero m] (hm : 3 ≤ m) :
    prob (fun ω : Choice (Finset.range 10) (Vector UInt8 16) (ZMod m) (Vector UInt8 32) =>
      (run (crypto (shift m) (fun _ : Nat => Vector.replicate 16 0) ω) (0, Vector.replicate 32 0) Sys.init sampleOps).2 ≠
        [[5], [7, 5]]) < 1 / 2 ^ 68 := by
  have h := C78_sophos_search (U := Finset.range 10) (shift m) (fun _ : Nat => (Vector.replicate 16 0 : Vector UInt8 16))
    (0, (Vector.replicate 32 0 : Vector UInt8 32)) sampleOps 3 (by decide) (by decide)
    (fun w => le_trans (List.length_map _).le (le_trans (List.length_filter_le _ _) (by decide)))
  rw [show Spec.run [] sampleOps = [[5], [7, 5]] by decide] at h
  exact lt_of_le_of_lt h (C78_sophos_number _ (Spec.insertions sampleOps) _ (shift_cycles _ _ hm) (by decide) (by decide))

end Verif.Ideal.Sophos
