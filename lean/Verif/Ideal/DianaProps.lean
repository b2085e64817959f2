import Verif.Ideal.Diana
import Mathlib.Tactic.NormNum

/-!
# Diana with ideal cryptography: C78
-/

namespace Verif.Ideal.Diana

open Verif Verif.Diana

variable {Kw V : Type} [DecidableEq Kw]

/-- The roots and positions used, for the keywords `K` with `B w` positions each. -/
def places (K : Finset Kw) (B : Kw → Nat) (h : Kw → Token) (r : Token → Leaf) : Finset (Leaf × Pos) :=
  K.biUnion (fun w => (Finset.range (B w)).image (fun a => (r (h w), pos a)))

omit [DecidableEq Kw] in
theorem card_places (K : Finset Kw) (B : Kw → Nat) (h : Kw → Token) (r : Token → Leaf) :
    (places K B h r).card ≤ ∑ w ∈ K, B w := by
  refine le_trans Finset.card_biUnion_le (Finset.sum_le_sum (fun w _ => ?_))
  exact le_trans Finset.card_image_le (by simp)

omit [DecidableEq Kw] in
theorem mem_places {K : Finset Kw} {B : Kw → Nat} {h : Kw → Token} {r : Token → Leaf} {w : Kw} {a : Nat}
    (hw : w ∈ K) (ha : a < B w) : (r (h w), pos a) ∈ places K B h r := by
  simp only [places, Finset.mem_biUnion, Finset.mem_image, Finset.mem_range]
  exact ⟨w, hw, a, ha, rfl⟩

theorem pos_inj {a b : Nat} (ha : a < 2 ^ 32) (hb : b < 2 ^ 32) (h : pos a = pos b) : a = b := by
  have := congrArg Fin.val h
  simp only [pos, Nat.mod_eq_of_lt ha, Nat.mod_eq_of_lt hb] at this
  exact this

/-- A collision of update tokens is a collision of one of the functions. -/
theorem noCollision_of {U : Finset Kw} (R : Rest V) (g : Kw → Token) (K : Finset Kw) (B : Kw → Nat) (hK : ∀ w, 0 < B w → w ∈ K)
    (hB : ∀ w, B w ≤ 2 ^ 32) (ω : Choice U) (h : Kw → Token)
    (hh : h = extend g ω.1)
    (h1 : ¬ ∃ a ∈ K, ∃ b ∈ K, a ≠ b ∧ h a = h b)
    (h2 : ¬ ∃ a ∈ K.image h, ∃ b ∈ K.image h, a ≠ b ∧ ω.2.1 a = ω.2.1 b)
    (h3 : ¬ ∃ a ∈ places K B h ω.2.1, ∃ b ∈ places K B h ω.2.1, a ≠ b ∧ ω.2.2.1 a = ω.2.2.1 b)
    (h4 : ¬ ∃ a ∈ (places K B h ω.2.1).image ω.2.2.1, ∃ b ∈ (places K B h ω.2.1).image ω.2.2.1,
      a ≠ b ∧ ω.2.2.2 a = ω.2.2.2 b) :
    NoCollision (crypto R g ω) B := by
  intro w a v b ha hb heq
  have hw := hK w (by omega)
  have hv := hK v (by omega)
  have mw := mem_places (h := h) (r := ω.2.1) hw ha
  have mv := mem_places (h := h) (r := ω.2.1) hv hb
  have heq' : ω.2.2.2 (ω.2.2.1 (ω.2.1 (h w), pos a)) = ω.2.2.2 (ω.2.2.1 (ω.2.1 (h v), pos b)) := by
    rw [hh]; exact heq
  have e1 : ω.2.2.1 (ω.2.1 (h w), pos a) = ω.2.2.1 (ω.2.1 (h v), pos b) := by
    by_contra hne
    exact h4 ⟨_, Finset.mem_image_of_mem _ mw, _, Finset.mem_image_of_mem _ mv, hne, heq'⟩
  have e2 : (ω.2.1 (h w), pos a) = (ω.2.1 (h v), pos b) := by
    by_contra hne
    exact h3 ⟨_, mw, _, mv, hne, e1⟩
  obtain ⟨e3, e4⟩ := Prod.mk.inj e2
  have e5 : h w = h v := by
    by_contra hne
    exact h2 ⟨_, Finset.mem_image_of_mem _ hw, _, Finset.mem_image_of_mem _ hv, hne, e3⟩
  have e6 : w = v := by
    by_contra hne
    exact h1 ⟨w, hw, v, hv, hne, e5⟩
  subst e6
  exact ⟨rfl, pos_inj (Nat.lt_of_lt_of_le ha (hB w)) (Nat.lt_of_lt_of_le hb (hB w)) e4⟩

/-- **C78**, Diana: update tokens collide with a probability of at most `bound`. -/
theorem C78_diana_collision {U : Finset Kw} (R : Rest V) (g : Kw → Token) (K : Finset Kw) (B : Kw → Nat) (n : Nat)
    (hU : K ⊆ U) (hK : ∀ w, 0 < B w → w ∈ K)
    (hB : ∀ w, B w ≤ 2 ^ 32) (hn : ∑ w ∈ K, B w ≤ n) :
    prob (fun ω : Choice U => ¬ NoCollision (crypto R g ω) B) ≤ bound K.card n := by
  have hk : ∀ h : Kw → Token, (K.image h).card ≤ K.card := fun _ => Finset.card_image_le
  have hp : ∀ h r, (places K B h r).card ≤ n := fun h r => le_trans (card_places K B h r) hn
  refine le_trans (prob_mono (q := fun ω =>
    (((∃ a ∈ K, ∃ b ∈ K, a ≠ b ∧ extend g ω.1 a = extend g ω.1 b) ∨
      (∃ a ∈ K.image (extend g ω.1), ∃ b ∈ K.image (extend g ω.1), a ≠ b ∧ ω.2.1 a = ω.2.1 b)) ∨
      (∃ a ∈ places K B (extend g ω.1) ω.2.1, ∃ b ∈ places K B (extend g ω.1) ω.2.1, a ≠ b ∧ ω.2.2.1 a = ω.2.2.1 b)) ∨
      (∃ a ∈ (places K B (extend g ω.1) ω.2.1).image ω.2.2.1, ∃ b ∈ (places K B (extend g ω.1) ω.2.1).image ω.2.2.1,
        a ≠ b ∧ ω.2.2.2 a = ω.2.2.2 b)) ?_) ?_
  · intro ω hω
    by_contra hc
    simp only [not_or] at hc
    exact hω (noCollision_of R g K B hK hB ω _ rfl hc.1.1.1 hc.1.1.2 hc.1.2 hc.2)
  · unfold bound
    refine prob_or_le (prob_or_le (prob_or_le ?_ ?_) ?_) ?_
    · have := extend_le (Ω₂ := (Token → Leaf) × (Leaf × Pos → Leaf) × (Leaf → Token)) (C := Token) hU g
      rw [card_bytes] at this
      push_cast at this
      exact this
    · have := collision_le₂ (Ω₃ := (Leaf × Pos → Leaf) × (Leaf → Token)) (C := Leaf)
        (fun h : U → Token => K.image (extend g h)) _ (fun h => hk _)
      rw [card_bytes] at this
      push_cast at this
      exact this
    · have := collision_le₃ (Ω₄ := Leaf → Token) (C := Leaf)
        (fun (h : U → Token) (r : Token → Leaf) => places K B (extend g h) r) _ (fun h r => hp _ r)
      rw [card_bytes] at this
      push_cast at this
      exact this
    · have := collision_last₄ (C := Token) (fun (h : U → Token) (r : Token → Leaf) (l : Leaf × Pos → Leaf) =>
        (places K B (extend g h) r).image l) n (fun h r l => le_trans Finset.card_image_le (hp _ r))
      rw [card_bytes] at this
      push_cast at this
      exact this

/-! ## Histories -/

/-- The keyword of an insertion, lost or not. -/
def inserted : Op Kw V → Option Kw
  | .insert w _ => some w
  | .lost w _ => some w
  | _ => none

theorem insertions_eq (w : Kw) (ops : List (Op Kw V)) :
    Spec.insertions w ops = (ops.filterMap inserted).count w := by
  induction ops with
  | nil => rfl
  | cons op ops ih =>
    cases op <;> simp [Spec.insertions, inserted, ih, List.count_cons, List.filterMap_cons, Nat.add_comm]

/-- **C78**, Diana: with random functions, a history of insertions, lost or not, and searches, deleting or not, gives a
wrong result with a probability of at most `bound`. -/
theorem C78_diana_search {U : Finset Kw} (R : Rest V) (g : Kw → Token) (ops : List (Op Kw V)) (k n : Nat)
    (hU : (ops.filterMap inserted).toFinset ⊆ U) (hk : (ops.filterMap inserted).toFinset.card ≤ k)
    (hn : (ops.filterMap inserted).length ≤ n) (hfit : ∀ w, Spec.insertions w ops < 2 ^ 32) :
    prob (fun ω : Choice U => ¬ ∃ s, run (crypto R g ω) Sys.init ops = some (s, Spec.run Spec.empty ops)) ≤
      bound k n := by
  refine le_trans (prob_mono ?_) (le_trans (C78_diana_collision R g _ (fun w => Spec.insertions w ops)
    (ops.filterMap inserted).length hU ?_ (fun w => Nat.le_of_lt (hfit w)) ?_) (bound_mono hk hn))
  · intro ω hω hnc
    exact hω (C07_histories (crypto R g ω) ops hfit hnc)
  · intro w hw
    rw [insertions_eq] at hw
    exact List.mem_toFinset.mpr (List.count_pos_iff.mp hw)
  · simp only [insertions_eq]
    exact le_of_eq (List.sum_toFinset_count_eq_length _)

/-- The keyword of an insertion of `Kinds`. -/
def Kinds.inserted : Diana.Kinds.Op Kw V → Option Kw
  | .insert w _ _ => some w
  | _ => none

theorem Kinds.insertions_eq (w : Kw) (ops : List (Diana.Kinds.Op Kw V)) :
    Diana.Kinds.Spec.insertions w ops = (ops.filterMap Kinds.inserted).count w := by
  unfold Diana.Kinds.Spec.insertions
  induction ops with
  | nil => rfl
  | cons op ops ih =>
    rw [List.countP_cons, ih]
    cases op <;> simp [Kinds.inserted, List.filterMap_cons, List.count_cons]

/-- **C78**, Diana: the same for all kinds of searches, in parallel or not, whose calls of RocksDB may fail, and keywords
forgotten: the probability that any schedule of the threads gives a result that the specification does not allow. -/
theorem C78_diana_kinds {U : Finset Kw} (R : Rest V) (g : Kw → Token) (zero : V) (ops : List (Diana.Kinds.Op Kw V)) (k n : Nat)
    (hok : ∀ op ∈ ops, op.Ok)
    (hU : (ops.filterMap Kinds.inserted).toFinset ⊆ U) (hk : (ops.filterMap Kinds.inserted).toFinset.card ≤ k)
    (hn : (ops.filterMap Kinds.inserted).length ≤ n) (hfit : ∀ w, Diana.Kinds.Spec.insertions w ops < 2 ^ 32) :
    prob (fun ω : Choice U => ∃ s outs, Diana.Kinds.Run (crypto R g ω) zero Diana.Sys.init ops s outs ∧
      ¬ Diana.Kinds.Spec.Answers zero Diana.Kinds.Spec.State.init ops outs) ≤ bound k n := by
  refine le_trans (prob_mono ?_) (le_trans (C78_diana_collision R g _ (fun w => Diana.Kinds.Spec.insertions w ops)
    (ops.filterMap Kinds.inserted).length hU ?_ (fun w => Nat.le_of_lt (hfit w)) ?_) (bound_mono hk hn))
  · rintro ω ⟨s, outs, hrun, hω⟩ hnc
    exact hω (Diana.Kinds.C77_refines (crypto R g ω) zero ops hok hfit hnc s outs hrun)
  · intro w hw
    rw [Kinds.insertions_eq] at hw
    exact List.mem_toFinset.mpr (List.count_pos_iff.mp hw)
  · simp only [Kinds.insertions_eq]
    exact le_of_eq (List.sum_toFinset_count_eq_length _)

/-- With a million keywords and a billion insertions, the bound is below `2^-68`. -/
theorem C78_diana_number : bound (2 ^ 20) (2 ^ 30) < 1 / 2 ^ 68 := by
  unfold bound
  rw [Nat.choose_two_right, Nat.choose_two_right]
  norm_num

/-- A history. -/
def sampleOps : List (Op Nat Index) := [.insert 1 5, .lost 2 6, .search 1, .insert 1 7, .searchDelete 1, .search 2]

/-- The hypotheses hold for it. -/
example : (sampleOps.filterMap inserted).toFinset ⊆ Finset.range 10 ∧ (sampleOps.filterMap inserted).toFinset.card ≤ 2 ∧
    (sampleOps.filterMap inserted).length ≤ 3 ∧ ∀ w, Spec.insertions w sampleOps < 2 ^ 32 := by
  refine ⟨by decide, by decide, by decide, fun w => ?_⟩
  have : Spec.insertions w sampleOps ≤ 3 := by
    rw [insertions_eq]; exact List.count_le_length
  omega

end Verif.Ideal.Diana
