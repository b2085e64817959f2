import Verif.Ideal.Dist
import Verif.Ideal.Cmds
import Verif.Ideal.SophosProps
import Verif.Sophos.HidingProps

/-!
# What the Sophos server sees, with ideal cryptography: C79

The server sees the messages of the client, and the values of the pseudorandom function that it computes to answer the searches
(`/repo/lib/sophos/sophos_server.cpp` L46-89). The functions are chosen at random, as in `Verif.Ideal.Sophos`.
-/

namespace Verif.Ideal.Sophos

open Verif Verif.Sophos Verif.Leak

variable {Kw Seed ST DK : Type}

/-- The tokens and masks that the server computes for a message (the loop of `SophosServer::search`, sophos_server.cpp L53-86) -/
def served (c : Crypto Kw Seed ST DK) : Msg Token Index (SearchReq ST DK) → List (Token × Token)
  | .update _ _ => []
  | .search r => (List.range r.addCount.toNat).map (fun i =>
      (c.prf r.derivationKey (c.eval^[i] r.token) false, c.prf r.derivationKey (c.eval^[i] r.token) true))

/-- What the server sees of a history: for each command the message, and what it computes to serve it -/
def view [DecidableEq Kw] (c : Crypto Kw Seed ST DK) (garbage : ST × DK) (H : List (Cmd Kw Index)) :
    List (Msg Token Index (SearchReq ST DK) × List (Token × Token)) :=
  (transcript c garbage Map.empty H).map (fun m => (m, served c m))

/-- The bound on the advantage for one history with `k` keywords and at most `n` insertions for each of them: keyword indices,
first search tokens on short cycles, derivation keys -/
noncomputable def hidingBound (Seed DK : Type) [Fintype Seed] [Fintype ST] [Fintype DK] (T : Perm ST) (k n : Nat) : ℚ :=
  (k.choose 2 : ℚ) / Fintype.card Seed + k * ((shortCycles T n).card / Fintype.card ST) + (k.choose 2 : ℚ) / Fintype.card DK

variable [DecidableEq Kw]

variable [Fintype Seed] [Fintype ST] [Fintype DK] [DecidableEq Seed] [DecidableEq ST] [DecidableEq DK]

/-- Two keywords have the same index, or a first search token lies on a short cycle, or two keywords have the same key. -/
def Bad {U : Finset Kw} (T : Perm ST) (g : Kw → Seed) (H : List (Cmd Kw Index)) (n : Nat) (ω : Choice U Seed ST DK) : Prop :=
  ((∃ a ∈ cmdKeywords H, ∃ b ∈ cmdKeywords H, a ≠ b ∧ extend g ω.1 a = extend g ω.1 b) ∨
    (∃ s ∈ (cmdKeywords H).image (extend g ω.1), ω.2.1 s ∈ shortCycles T n)) ∨
    (∃ a ∈ (cmdKeywords H).image (extend g ω.1), ∃ b ∈ (cmdKeywords H).image (extend g ω.1), a ≠ b ∧ ω.2.2.1 a = ω.2.2.1 b)

theorem prob_bad_le {U : Finset Kw} (T : Perm ST) (g : Kw → Seed) (H : List (Cmd Kw Index)) (n : Nat)
    (hU : cmdKeywords H ⊆ U) :
    prob (Bad (Seed := Seed) (DK := DK) (U := U) T g H n) ≤ hidingBound Seed DK T (cmdKeywords H).card n := by
  have hk : ∀ h : Kw → Seed, ((cmdKeywords H).image h).card ≤ (cmdKeywords H).card := fun _ => Finset.card_image_le
  unfold hidingBound
  refine prob_or_le (prob_or_le ?_ ?_) ?_
  · exact extend_le hU g
  · exact hit_le₂ (fun h : U → Seed => (cmdKeywords H).image (extend g h)) _ _ (fun h => hk _)
  · exact collision_le₃ (fun (h : U → Seed) _ => (cmdKeywords H).image (extend g h)) _ (fun h _ => hk _)

omit [Fintype Seed] [Fintype DK] [DecidableEq ST] [DecidableEq DK] in
theorem seedsDistinct_of {U : Finset Kw} (T : Perm ST) (g : Kw → Seed) (H : List (Cmd Kw Index)) (n : Nat)
    (ω : Choice U Seed ST DK) (h : ¬ Bad T g H n ω) : Spec.SeedsDistinct (crypto T g ω) H := by
  intro m n' w v h1 h2 he
  by_contra hne
  exact h (Or.inl (Or.inl ⟨w, mem_cmdKeywords h1, v, mem_cmdKeywords h2, hne, he⟩))

omit [Fintype Seed] [Fintype DK] [DecidableEq ST] [DecidableEq DK] in
theorem pointsDistinct_of {U : Finset Kw} (T : Perm ST) (g : Kw → Seed) (H : List (Cmd Kw Index)) (n : Nat)
    (hn : ∀ w, count w H ≤ n) (ω : Choice U Seed ST DK) (h : ¬ Bad T g H n ω) : Spec.PointsDistinct (crypto T g ω) H := by
  simp only [Bad, not_or] at h
  obtain ⟨⟨h1, h2⟩, h3⟩ := h
  intro m m' w a v b hs hs' he
  have ha := Nat.lt_of_lt_of_le (slot_lt hs) (hn w)
  have hb := Nat.lt_of_lt_of_le (slot_lt hs') (hn v)
  obtain ⟨i, hi, hai⟩ := id hs
  obtain ⟨j, hj, hbj⟩ := id hs'
  have hw := mem_cmdKeywords hi
  have hv := mem_cmdKeywords hj
  simp only [keywordOf] at hw hv
  simp only [Spec.point, crypto, Prod.mk.injEq] at he
  obtain ⟨e1, e2⟩ := he
  have e3 : extend g ω.1 w = extend g ω.1 v := by
    by_contra hne
    exact h3 ⟨_, Finset.mem_image_of_mem _ hw, _, Finset.mem_image_of_mem _ hv, hne, e1⟩
  have e4 : w = v := by
    by_contra hne
    exact h1 ⟨w, hw, v, hv, hne, e3⟩
  subst e4
  have e5 := iterate_inj T (n := n) (fun hs => h2 ⟨_, Finset.mem_image_of_mem _ hw, hs⟩) ha hb e2
  subst e5
  exact slot_unique hs hs'

omit [Fintype Seed] [Fintype ST] [Fintype DK] [DecidableEq Seed] [DecidableEq ST] [DecidableEq DK] in
/-- The points that the server computes for a search are not those of hidden insertions. -/
theorem request_shown (c : Crypto Kw Seed ST DK) (garbage : ST × DK) (H : List (Cmd Kw Index)) (hfit : Spec.CountsFit H)
    (hd : Spec.PointsDistinct c H) (n : Nat) (r : SearchReq ST DK)
    (hr : (transcript c garbage Map.empty H)[n]? = some (.search r)) (i : Nat) (hi : i < r.addCount.toNat) :
    ¬ Spec.Hidden c H (r.derivationKey, c.eval^[i] r.token) := by
  rw [transcript_eq c garbage H [] Map.empty (fun w => rfl) hfit, eachFrom_get, List.nil_append] at hr
  obtain ⟨o, ho, hm⟩ := Option.map_eq_some_iff.mp hr
  cases o with
  | insert w j => simp [msgOf] at hm
  | search w =>
    simp only [msgOf] at hm
    have hcount : count w (H.take n) < 2 ^ 32 := Nat.lt_of_le_of_lt (count_take_le w H n) (hfit w)
    by_cases h0 : count w (H.take n) = 0
    · rw [if_pos h0] at hm
      cases hm
      simp at hi
    · rw [if_neg h0] at hm
      cases hm
      simp only [UInt32.toNat_ofNat', Nat.mod_eq_of_lt hcount] at hi
      have hit : ∀ (a i : Nat) (x : ST), i ≤ a → c.eval^[i] (c.inv^[a] x) = c.inv^[a - i] x := by
        intro a i x hia
        induction i with
        | zero => rfl
        | succ i ih =>
          rw [Function.iterate_succ_apply', ih (by omega), show a - i = (a - (i + 1)) + 1 by omega,
            Function.iterate_succ_apply', c.eval_inv]
      have hp : (⟨c.dkey (c.hash w), c.eval^[i] (c.inv^[count w (H.take n) - 1] (c.gen (c.hash w)))⟩ : DK × ST) =
          Spec.point c w (count w (H.take n) - 1 - i) := by
        rw [hit _ _ _ (by omega)]
        rfl
      rintro ⟨m, v, b, ⟨hslot, hno⟩, he⟩
      obtain ⟨m', hm', hs'⟩ := slot_of_count H w n (count w (H.take n) - 1 - i) (by omega)
      have heq := hd m' m w _ v b hs' hslot (hp.symm.trans he)
      subst heq
      obtain ⟨x, hx, -⟩ := hs'
      obtain ⟨y, hy, -⟩ := hslot
      rw [hx] at hy
      cases hy
      exact hno n hm' ho

/-- The secret functions of a choice -/
def secretOf : ((Seed → ST) × (Seed → DK) × (DK × ST × Bool → Token)) ≃ Secret Seed ST DK where
  toFun k := (k.1, k.2.1, fun d s b => k.2.2 (d, s, b))
  invFun k := (k.1, k.2.1, fun x => k.2.2 x.1 x.2.1 x.2.2)
  left_inv _ := rfl
  right_inv _ := rfl

/-- The cryptography of a choice, without the secret functions -/
def base {U : Finset Kw} (T : Perm ST) (g : Kw → Seed) (garbage : ST × DK) (h : U → Seed) : Crypto Kw Seed ST DK :=
  crypto T g (h, fun _ => garbage.1, fun _ => garbage.2, fun _ => Vector.replicate 16 0)

/-- **C79** (Sophos): an observer of the server distinguishes two histories with the same leakage with an advantage of at most the
sum of the two bounds. -/
theorem C79_sophos {U : Finset Kw} (T : Perm ST) (g : Kw → Seed) (garbage : ST × DK) (H H' : List (Cmd Kw Index))
    (n n' : Nat) (hleak : leak H = leak H') (hU : cmdKeywords H ⊆ U) (hU' : cmdKeywords H' ⊆ U) (hn32 : n < 2 ^ 32)
    (hn32' : n' < 2 ^ 32) (hn : ∀ w, count w H ≤ n) (hn' : ∀ w, count w H' ≤ n')
    (E : List (Msg Token Index (SearchReq ST DK) × List (Token × Token)) → Prop) :
    |prob (fun ω : Choice U Seed ST DK => E (view (crypto T g ω) garbage H)) -
        prob (fun ω : Choice U Seed ST DK => E (view (crypto T g ω) garbage H'))| ≤
      hidingBound Seed DK T (cmdKeywords H).card n + hidingBound Seed DK T (cmdKeywords H').card n' := by
  classical
  have hfit : Spec.CountsFit H := fun w => Nat.lt_of_le_of_lt (hn w) hn32
  have hfit' : Spec.CountsFit H' := fun w => Nat.lt_of_le_of_lt (hn' w) hn32'
  have hex : ∀ h : U → Seed, ∃ φ : Secret Seed ST DK → Secret Seed ST DK, Function.Bijective φ ∧
      (Spec.SeedsDistinct (base T g garbage h) H → Spec.SeedsDistinct (base T g garbage h) H' → ∀ k,
        Spec.PointsDistinct (withSecret (base T g garbage h) (φ k)) H →
        Spec.PointsDistinct (withSecret (base T g garbage h) k) H' →
        transcript (withSecret (base T g garbage h) (φ k)) garbage Map.empty H =
          transcript (withSecret (base T g garbage h) k) garbage Map.empty H' ∧
        ∀ d s, ¬ Spec.Hidden (withSecret (base T g garbage h) (φ k)) H (d, s) →
          ¬ Spec.Hidden (withSecret (base T g garbage h) k) H' (d, s) → ∀ b, (φ k).2.2 d s b = k.2.2 d s b) := by
    intro h
    by_cases hs : Spec.SeedsDistinct (base T g garbage h) H ∧ Spec.SeedsDistinct (base T g garbage h) H'
    · obtain ⟨φ, hb, -, hφ⟩ := C62_sophos_hiding (base T g garbage h) garbage H H' hleak hfit hfit' hs.1 hs.2
      exact ⟨φ, hb, fun _ _ => hφ⟩
    · exact ⟨id, Function.bijective_id, fun h1 h2 => absurd ⟨h1, h2⟩ hs⟩
  choose φ hb hφ using hex
  have hΦ : Function.Bijective (fun ω : Choice U Seed ST DK => (ω.1, secretOf.symm (φ ω.1 (secretOf ω.2)))) :=
    bijective_fiber (fun h k => secretOf.symm (φ h (secretOf k)))
      (fun h => (secretOf.symm.bijective.comp (hb h)).comp secretOf.bijective)
  have hdist := prob_dist_le hΦ (fun ω : Choice U Seed ST DK => view (crypto T g ω) garbage H)
    (fun ω => view (crypto T g ω) garbage H')
    (fun ω => Bad T g H n (ω.1, secretOf.symm (φ ω.1 (secretOf ω.2))) ∨ Bad T g H' n' ω) ?_ E
  · refine le_trans hdist (prob_or_le ?_ (prob_bad_le T g H' n' hU'))
    rw [prob_bijective hΦ (Bad T g H n)]
    exact prob_bad_le T g H n hU
  · intro ω hω
    rw [not_or] at hω
    obtain ⟨hg, hg'⟩ := hω
    have hpd := pointsDistinct_of T g H n hn _ hg
    have hpd' := pointsDistinct_of T g H' n' hn' _ hg'
    have hsd : Spec.SeedsDistinct (base T g garbage ω.1) H := by
      have := seedsDistinct_of T g H n _ hg
      exact this
    have hsd' : Spec.SeedsDistinct (base T g garbage ω.1) H' := seedsDistinct_of T g H' n' ω hg'
    obtain ⟨ht, hv⟩ := hφ ω.1 hsd hsd' (secretOf ω.2) hpd hpd'
    change transcript (crypto T g (ω.1, secretOf.symm (φ ω.1 (secretOf ω.2)))) garbage Map.empty H =
      transcript (crypto T g ω) garbage Map.empty H' at ht
    unfold view
    rw [ht]
    refine List.map_congr_left (fun m hm => ?_)
    refine congrArg (Prod.mk m) ?_
    cases m with
    | update t e => rfl
    | search r =>
      obtain ⟨p, hp⟩ := List.getElem?_of_mem hm
      refine List.map_congr_left (fun i hi => ?_)
      have hi := List.mem_range.mp hi
      have s1 := request_shown _ garbage H hfit hpd p r (ht ▸ hp) i hi
      have s2 := request_shown _ garbage H' hfit' hpd' p r hp i hi
      have := hv r.derivationKey (T.eval^[i] r.token) s1 s2
      exact Prod.ext (this false) (this true)

/-- **C79** (Sophos, forward privacy): after any history, insertions of the same number are distinguished with an advantage of at most
the sum of the two bounds, whatever their keywords and documents. -/
theorem C79_sophos_forward {U : Finset Kw} (T : Perm ST) (g : Kw → Seed) (garbage : ST × DK) (P : List (Cmd Kw Index))
    (X Y : List (Kw × Index)) (n : Nat) (hlen : X.length = Y.length)
    (hU : cmdKeywords (P ++ X.map (fun e => .insert e.1 e.2)) ⊆ U)
    (hU' : cmdKeywords (P ++ Y.map (fun e => .insert e.1 e.2)) ⊆ U) (hn32 : n < 2 ^ 32)
    (hn : ∀ w, count w (P ++ X.map (fun e => .insert e.1 e.2)) ≤ n)
    (hn' : ∀ w, count w (P ++ Y.map (fun e => .insert e.1 e.2)) ≤ n)
    (E : List (Msg Token Index (SearchReq ST DK) × List (Token × Token)) → Prop) :
    |prob (fun ω : Choice U Seed ST DK => E (view (crypto T g ω) garbage (P ++ X.map (fun e => .insert e.1 e.2)))) -
        prob (fun ω : Choice U Seed ST DK => E (view (crypto T g ω) garbage (P ++ Y.map (fun e => .insert e.1 e.2))))| ≤
      hidingBound Seed DK T (cmdKeywords (P ++ X.map (fun e => .insert e.1 e.2))).card n +
        hidingBound Seed DK T (cmdKeywords (P ++ Y.map (fun e => .insert e.1 e.2))).card n :=
  C79_sophos T g garbage _ _ n n (leak_append_inserts P X Y hlen) hU hU' hn32 hn32 hn hn' E

omit [Fintype Seed] [Fintype ST] [Fintype DK] [DecidableEq Seed] [DecidableEq ST] [DecidableEq DK] [DecidableEq Kw] in
/-- **C79** (Sophos): the answer of the server to a search depends on the database and on what the server sees only. -/
theorem C79_sophos_answer (c c' : Crypto Kw Seed ST DK) (edb : Edb) (r : SearchReq ST DK) (he : c.eval = c'.eval)
    (h : served c (.search r) = served c' (.search r)) : search c edb r = search c' edb r := by
  have key : ∀ (n : Nat) (st : ST) (res : List Index),
      (∀ i < n, c.prf r.derivationKey (c.eval^[i] st) false = c'.prf r.derivationKey (c.eval^[i] st) false ∧
        c.prf r.derivationKey (c.eval^[i] st) true = c'.prf r.derivationKey (c.eval^[i] st) true) →
      searchLoop c edb r.derivationKey n st res = searchLoop c' edb r.derivationKey n st res := by
    intro n
    induction n with
    | zero => intro st res _; rfl
    | succ n ih =>
      intro st res hp
      have h0 : access c edb r.derivationKey st = access c' edb r.derivationKey st := by
        obtain ⟨h1, h2⟩ := hp 0 (Nat.succ_pos n)
        simp only [Function.iterate_zero, id_eq] at h1 h2
        unfold access genUpdateTokenMasks
        rw [h1, h2]
      unfold searchLoop
      rw [h0, ← he]
      exact ih _ _ (fun i hi => hp (i + 1) (by omega))
  refine key _ _ _ (fun i hi => ?_)
  have := List.map_inj_left.mp h i (List.mem_range.mpr hi)
  rw [← he] at this
  exact Prod.mk.inj this

omit [DecidableEq Kw] [Fintype Seed] [Fintype DK] [DecidableEq Seed] [DecidableEq ST] [DecidableEq DK] in
/-- With keyword indices of 16 bytes, derivation keys of 32 bytes, a million keywords and no short cycle of the permutation, the
bound for a history is below `2^-88`. -/
theorem C79_sophos_number (T : Perm ST) (k n : Nat) (hT : shortCycles T n = ∅) (hk : k ≤ 2 ^ 20) :
    hidingBound (Vector UInt8 16) (Vector UInt8 32) T k n < 1 / 2 ^ 88 := by
  unfold hidingBound
  simp only [hT, card_bytes, Finset.card_empty]
  have h1 : k.choose 2 ≤ 549755289600 := by
    refine le_trans (Nat.choose_le_choose 2 hk) ?_
    rw [Nat.choose_two_right]
    norm_num
  have h1' : (k.choose 2 : ℚ) ≤ 549755289600 := by exact_mod_cast h1
  norm_num
  linarith

/-! ## An instance -/

/-- A history: the last insertion is for the keyword searched before. -/
def sample : List (Cmd Nat Index) := [.insert 1 5, .search 1, .insert 1 7]

/-- Another one: the last insertion is for another keyword and another document. -/
def sample' : List (Cmd Nat Index) := [.insert 3 5, .search 3, .insert 2 9]

/-- The hypotheses hold for them: no observer of the server can tell them apart. -/
example (m : Nat) [NeZero m] (hm : 3 ≤ m) (E : List (Msg Token Index (SearchReq (ZMod m) (Vector UInt8 32)) × List (Token × Token)) → Prop) :
    |prob (fun ω : Choice (Finset.range 10) (Vector UInt8 16) (ZMod m) (Vector UInt8 32) =>
        E (view (crypto (shift m) (fun _ : Nat => Vector.replicate 16 0) ω) (0, Vector.replicate 32 0) sample)) -
      prob (fun ω : Choice (Finset.range 10) (Vector UInt8 16) (ZMod m) (Vector UInt8 32) =>
        E (view (crypto (shift m) (fun _ : Nat => Vector.replicate 16 0) ω) (0, Vector.replicate 32 0) sample'))| < 1 / 2 ^ 87 := by
  have h := C79_sophos (U := Finset.range 10) (shift m) (fun _ : Nat => (Vector.replicate 16 0 : Vector UInt8 16))
    (0, (Vector.replicate 32 0 : Vector UInt8 32)) sample sample' 3 3 (by decide) (by decide) (by decide) (by decide) (by decide)
    (fun w => count_le w _) (fun w => count_le w _) E
  have h1 := C79_sophos_number (shift m) (cmdKeywords sample).card 3 (shift_cycles _ _ hm) (by decide)
  have h2 := C79_sophos_number (shift m) (cmdKeywords sample').card 3 (shift_cycles _ _ hm) (by decide)
  have h3 : (1 : ℚ) / 2 ^ 87 = 1 / 2 ^ 88 + 1 / 2 ^ 88 := by norm_num
  rw [h3]
  exact lt_of_le_of_lt h (add_lt_add h1 h2)

end Verif.Ideal.Sophos
