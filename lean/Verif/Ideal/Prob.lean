import Mathlib.Algebra.BigOperators.Group.Finset.Basic
import Mathlib.Algebra.Order.BigOperators.Ring.Finset
import Mathlib.Data.Fintype.BigOperators
import Mathlib.Data.Nat.Choose.Basic
import Mathlib.Data.Rat.Cast.Order
import Mathlib.SetTheory.Cardinal.Finite
import Mathlib.Tactic.Ring
import Mathlib.Tactic.Positivity
import Mathlib.Tactic.FieldSimp
import Mathlib.Data.Set.Card

/-!
# Probabilities by counting

Random functions with a finite domain and a finite range: the probability of an event is the number
of outcomes in the event divided by the number of all outcomes.
-/

namespace Verif.Ideal

/-- The probability of the event `p` for a uniformly chosen element of `Ω`. -/
noncomputable def prob {Ω : Type*} [Fintype Ω] (p : Ω → Prop) : ℚ :=
  (Nat.card {ω // p ω} : ℚ) / (Fintype.card Ω : ℚ)

section Basic

variable {Ω : Type*} [Fintype Ω]

theorem prob_mono {p q : Ω → Prop} (h : ∀ ω, p ω → q ω) : prob p ≤ prob q := by
  unfold prob
  have : Nat.card {ω // p ω} ≤ Nat.card {ω // q ω} :=
    Nat.card_le_card_of_injective (fun x => (⟨x.1, h x.1 x.2⟩ : {ω // q ω}))
      (fun a b hab => Subtype.ext (by simpa using hab))
  have h' : (Nat.card {ω // p ω} : ℚ) ≤ Nat.card {ω // q ω} := by exact_mod_cast this
  exact div_le_div_of_nonneg_right h' (by positivity)

/-- The certain event has probability one. -/
theorem prob_true [Nonempty Ω] : prob (fun _ : Ω => True) = 1 := by
  unfold prob
  have : Nat.card {_ω : Ω // True} = Fintype.card Ω := by
    rw [Nat.card_congr (Equiv.subtypeUnivEquiv (fun _ => trivial)), Nat.card_eq_fintype_card]
  rw [this, div_self]
  exact_mod_cast Fintype.card_ne_zero

theorem prob_nonneg (p : Ω → Prop) : 0 ≤ prob p := by
  unfold prob; positivity

theorem card_filter_eq (p : Ω → Prop) [DecidablePred p] :
    Nat.card {ω // p ω} = (Finset.univ.filter p).card := by
  rw [Nat.card_eq_fintype_card, Fintype.card_subtype]

theorem prob_or (p q : Ω → Prop) : prob (fun ω => p ω ∨ q ω) ≤ prob p + prob q := by
  classical
  unfold prob
  rw [← add_div]
  refine div_le_div_of_nonneg_right ?_ (by positivity)
  rw [card_filter_eq, card_filter_eq, card_filter_eq, Finset.filter_or]
  exact_mod_cast Finset.card_union_le _ _

theorem prob_false : prob (fun _ : Ω => False) = 0 := by
  unfold prob; simp

/-- Union bound. -/
theorem prob_exists {ι : Type*} (s : Finset ι) (p : ι → Ω → Prop) :
    prob (fun ω => ∃ i ∈ s, p i ω) ≤ ∑ i ∈ s, prob (p i) := by
  classical
  induction s using Finset.induction_on with
  | empty => simp [prob_false]
  | insert a s ha ih =>
    rw [Finset.sum_insert ha]
    refine le_trans (prob_mono (q := fun ω => p a ω ∨ ∃ i ∈ s, p i ω) ?_) (le_trans (prob_or _ _) ?_)
    · rintro ω ⟨i, hi, h⟩
      rcases Finset.mem_insert.mp hi with rfl | hi
      · exact Or.inl h
      · exact Or.inr ⟨i, hi, h⟩
    · gcongr

theorem prob_exists_le {ι : Type*} (s : Finset ι) (p : ι → Ω → Prop) (b : ℚ)
    (h : ∀ i ∈ s, prob (p i) ≤ b) : prob (fun ω => ∃ i ∈ s, p i ω) ≤ s.card * b := by
  refine le_trans (prob_exists s p) ?_
  have := Finset.sum_le_card_nsmul s (fun i => prob (p i)) b h
  simpa [nsmul_eq_mul] using this

end Basic

section Prod

variable {Ω₁ Ω₂ : Type*} [Fintype Ω₁] [Fintype Ω₂]

theorem card_prod_eq (p : Ω₁ × Ω₂ → Prop) :
    Nat.card {ω // p ω} = ∑ a : Ω₁, Nat.card {b // p (a, b)} := by
  classical
  have e : {ω : Ω₁ × Ω₂ // p ω} ≃ (Σ a : Ω₁, {b // p (a, b)}) :=
    { toFun := fun x => ⟨x.1.1, x.1.2, x.2⟩
      invFun := fun x => ⟨(x.1, x.2.1), x.2.2⟩
      left_inv := fun _ => rfl
      right_inv := fun _ => rfl }
  rw [Nat.card_congr e, Nat.card_sigma]

/-- If the event has probability at most `b` whatever the first component, its probability is at most
`b`. -/
theorem prob_prod_le (p : Ω₁ × Ω₂ → Prop) (b : ℚ) (hb : 0 ≤ b)
    (h : ∀ a, prob (fun x => p (a, x)) ≤ b) : prob p ≤ b := by
  unfold prob
  rcases Nat.eq_zero_or_pos (Fintype.card Ω₁) with h1 | h1
  · rw [Fintype.card_prod, h1]; simpa using hb
  rcases Nat.eq_zero_or_pos (Fintype.card Ω₂) with h2 | h2
  · rw [Fintype.card_prod, h2]; simpa using hb
  have h1' : (0 : ℚ) < Fintype.card Ω₁ := by exact_mod_cast h1
  have h2' : (0 : ℚ) < Fintype.card Ω₂ := by exact_mod_cast h2
  rw [card_prod_eq, Fintype.card_prod, div_le_iff₀ (by push_cast; positivity)]
  push_cast
  calc (∑ a : Ω₁, (Nat.card {x // p (a, x)} : ℚ)) ≤ ∑ _a : Ω₁, b * Fintype.card Ω₂ := by
        refine Finset.sum_le_sum (fun a _ => ?_)
        have := h a
        unfold prob at this
        rwa [div_le_iff₀ h2'] at this
    _ = b * (Fintype.card Ω₁ * Fintype.card Ω₂) := by
        rw [Finset.sum_const, nsmul_eq_mul, Finset.card_univ]; ring

/-- An event about the first component only. -/
theorem prob_fst_le (p : Ω₁ → Prop) : prob (fun x : Ω₁ × Ω₂ => p x.1) ≤ prob p := by
  unfold prob
  rw [card_prod_eq]
  rcases Nat.eq_zero_or_pos (Fintype.card Ω₂) with h2 | h2
  · rw [Fintype.card_prod, h2]; simp; positivity
  have h2' : (0 : ℚ) < Fintype.card Ω₂ := by exact_mod_cast h2
  rcases Nat.eq_zero_or_pos (Fintype.card Ω₁) with h1 | h1
  · rw [Fintype.card_prod, h1]; simp
  have h1' : (0 : ℚ) < Fintype.card Ω₁ := by exact_mod_cast h1
  have : ∀ a : Ω₁, Nat.card {_b : Ω₂ // p a} = Nat.card {_u : Unit // p a} * Fintype.card Ω₂ := by
    intro a
    by_cases h : p a
    · simp [h]
    · simp [h]
  have h3 : ∑ a : Ω₁, Nat.card {_b : Ω₂ // p a} = Nat.card {a // p a} * Fintype.card Ω₂ := by
    rw [Finset.sum_congr rfl (fun a _ => this a), ← Finset.sum_mul]
    congr 1
    have e : {a // p a} ≃ (Σ a : Ω₁, {_u : Unit // p a}) :=
      { toFun := fun x => ⟨x.1, (), x.2⟩
        invFun := fun x => ⟨x.1, x.2.2⟩
        left_inv := fun _ => rfl
        right_inv := fun _ => rfl }
    rw [Nat.card_congr e, Nat.card_sigma]
  have h4 : ∑ a : Ω₁, Nat.card {b : Ω₂ // p (a, b).1} = Nat.card {a // p a} * Fintype.card Ω₂ := h3
  rw [h4, Fintype.card_prod]
  push_cast
  rw [mul_div_mul_right _ _ (ne_of_gt h2')]

end Prod

section Functions

variable {D C : Type*} [Fintype D] [DecidableEq D] [Fintype C]

/-- A random function takes a value in `B` at the point `a` with probability `|B| / |C|`. -/
theorem prob_mem_le (a : D) (B : Finset C) :
    prob (fun f : D → C => f a ∈ B) ≤ B.card / Fintype.card C := by
  classical
  -- the other values are arbitrary: the functions correspond to pairs
  let e : (D → C) ≃ C × ({x // x ≠ a} → C) := Equiv.funSplitAt a C
  have h : prob (fun f : D → C => f a ∈ B) =
      prob (fun x : C × ({x // x ≠ a} → C) => x.1 ∈ B) := by
    unfold prob
    rw [Fintype.card_congr e]
    congr 2
    refine Nat.card_congr (e.subtypeEquiv (fun f => ?_))
    rfl
  rw [h]
  refine le_trans (prob_fst_le (fun c => c ∈ B)) ?_
  unfold prob
  refine le_of_eq ?_
  congr 2
  simp

/-- Two different points have the same value with probability `1 / |C|`. -/
theorem prob_eq_le (a b : D) (hab : a ≠ b) :
    prob (fun f : D → C => f a = f b) ≤ 1 / Fintype.card C := by
  classical
  let e : (D → C) ≃ ({x // x ≠ a} → C) × C := (Equiv.funSplitAt a C).trans (Equiv.prodComm _ _)
  have h : prob (fun f : D → C => f a = f b) =
      prob (fun x : ({x // x ≠ a} → C) × C => x.2 = x.1 ⟨b, Ne.symm hab⟩) := by
    unfold prob
    rw [Fintype.card_congr e]
    congr 2
    refine Nat.card_congr (e.subtypeEquiv (fun f => ?_))
    rfl
  rw [h]
  refine prob_prod_le _ _ (by positivity) (fun g => ?_)
  unfold prob
  refine le_of_eq ?_
  congr 2
  simp

/-- Birthday bound: a random function has a collision on the set `S` with probability at most
`|S| (|S| - 1) / 2 / |C|`. -/
theorem prob_collision_le (S : Finset D) :
    prob (fun f : D → C => ∃ a ∈ S, ∃ b ∈ S, a ≠ b ∧ f a = f b) ≤
      (S.card.choose 2 : ℚ) / Fintype.card C := by
  classical
  have h1 : prob (fun f : D → C => ∃ a ∈ S, ∃ b ∈ S, a ≠ b ∧ f a = f b) ≤
      prob (fun f : D → C => ∃ t ∈ S.powersetCard 2, ∃ a ∈ t, ∃ b ∈ t, a ≠ b ∧ f a = f b) := by
    refine prob_mono ?_
    rintro f ⟨a, ha, b, hb, hab, h⟩
    refine ⟨{a, b}, ?_, a, by simp, b, by simp, hab, h⟩
    rw [Finset.mem_powersetCard]
    exact ⟨by intro x hx; rcases Finset.mem_insert.mp hx with rfl | hx
              · exact ha
              · rw [Finset.mem_singleton.mp hx]; exact hb, Finset.card_pair hab⟩
  refine le_trans h1 (le_trans (prob_exists_le _ _ (1 / Fintype.card C) ?_) ?_)
  · intro t ht
    obtain ⟨x, y, hxy, rfl⟩ := Finset.card_eq_two.mp (Finset.mem_powersetCard.mp ht).2
    refine le_trans (prob_mono (q := fun f : D → C => f x = f y) ?_) (prob_eq_le x y hxy)
    rintro f ⟨a, ha, b, hb, hab, h⟩
    simp only [Finset.mem_insert, Finset.mem_singleton] at ha hb
    rcases ha with rfl | rfl <;> rcases hb with rfl | rfl
    · exact absurd rfl hab
    · exact h
    · exact h.symm
    · exact absurd rfl hab
  · rw [Finset.card_powersetCard, mul_one_div]

/-- Some of the values at `S` is in `B`. -/
theorem prob_hit_le (S : Finset D) (B : Finset C) :
    prob (fun f : D → C => ∃ a ∈ S, f a ∈ B) ≤ S.card * (B.card / Fintype.card C) :=
  prob_exists_le S _ _ (fun a _ => prob_mem_le a B)

end Functions

end Verif.Ideal
