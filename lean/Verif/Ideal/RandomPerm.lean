import Verif.Ideal.Adaptive
import Verif.Ideal.Sophos
import Mathlib.GroupTheory.Perm.Basic
import Mathlib.Data.Fintype.Perm
import Mathlib.Algebra.BigOperators.Field

/-!
# Random permutations

The trapdoor permutation of Sophos is chosen uniformly among all permutations of a finite set: short cycles are unlikely, and
probabilities for each permutation are averaged.
-/

namespace Verif.Ideal

open Finset

/-! ## Averages -/

section

variable {P Ω : Type*} [Fintype P] [Fintype Ω]

/-- The probability of an event of two choices is the average over the first one. -/
theorem prob_average (p : P → Ω → Prop) : prob (fun x : P × Ω => p x.1 x.2) = (∑ π, prob (p π)) / Fintype.card P := by
  classical
  unfold prob
  have h : Nat.card {x : P × Ω // p x.1 x.2} = ∑ π, Nat.card {ω // p π ω} := by
    rw [Nat.card_congr (Equiv.subtypeProdEquivSigmaSubtype p), Nat.card_sigma]
  rw [h, ← Finset.sum_div, Fintype.card_prod]
  push_cast
  rw [div_div, mul_comm (Fintype.card P : ℚ)]

theorem average_le (p : P → Ω → Prop) (b : P → ℚ) (h : ∀ π, prob (p π) ≤ b π) {B : ℚ} (hB : (∑ π, b π) / Fintype.card P ≤ B) :
    prob (fun x : P × Ω => p x.1 x.2) ≤ B := by
  rw [prob_average]
  refine le_trans (div_le_div_of_nonneg_right (Finset.sum_le_sum (fun π _ => h π)) (by positivity)) hB

theorem average_dist (p q : P → Ω → Prop) (b : P → ℚ) (h : ∀ π, |prob (p π) - prob (q π)| ≤ b π) {B : ℚ}
    (hB : (∑ π, b π) / Fintype.card P ≤ B) :
    |prob (fun x : P × Ω => p x.1 x.2) - prob (fun x : P × Ω => q x.1 x.2)| ≤ B := by
  rw [prob_average, prob_average, ← sub_div, ← Finset.sum_sub_distrib, abs_div, abs_of_nonneg (by positivity : (0 : ℚ) ≤ Fintype.card P)]
  refine le_trans (div_le_div_of_nonneg_right ?_ (by positivity)) hB
  exact le_trans (Finset.abs_sum_le_sum_abs _ _) (Finset.sum_le_sum (fun π _ => h π))

end

/-! ## Cycles -/

section

variable {X : Type} [Fintype X] [DecidableEq X]

omit [Fintype X] in
/-- Exchanging two elements after the permutation: `y` comes where the cycle was closed. -/
theorem iterate_swap_mul (π : Equiv.Perm X) (x y : X) (j : Nat) (hx : ∀ i, 0 < i → i < j → π^[i] x ≠ x)
    (hy : ∀ i, 0 < i → i < j → y ≠ π^[i] x) : ∀ i, i < j → (Equiv.swap x y * π)^[i] x = π^[i] x := by
  intro i
  induction i with
  | zero => intro _; rfl
  | succ i ih =>
    intro hi
    rw [Function.iterate_succ_apply', Function.iterate_succ_apply', ih (by omega), Equiv.Perm.mul_apply]
    rw [← Function.iterate_succ_apply' (f := π)]
    exact Equiv.swap_apply_of_ne_of_ne (hx _ (by omega) hi) (hy _ (by omega) hi).symm

/-- The probability that the cycle of `x` has length `j` -/
theorem prob_period_le (x : X) (j K : Nat) (hj : 0 < j) (hK : 0 < K) (hle : K + j ≤ Fintype.card X) :
    prob (fun π : Equiv.Perm X => π^[j] x = x ∧ ∀ i, 0 < i → i < j → π^[i] x ≠ x) ≤ 1 / K := by
  refine prob_le_of_changes (Ω := Equiv.Perm X) (Y := X) (fun π : Equiv.Perm X => π^[j] x = x ∧ ∀ i, 0 < i → i < j → π^[i] x ≠ x)
    (fun π => univ \ (range j).image (fun i => π^[i] x)) K hK ?_ (fun π y => Equiv.swap x y * π) ?_
  · intro π _
    have h1 := le_card_sdiff ((range j).image (fun i => π^[i] x)) univ
    have h2 : ((range j).image (fun i => π^[i] x)).card ≤ j := le_trans card_image_le (card_range j).le
    rw [card_univ] at h1
    omega
  · intro π y π' y' hA hA' hy hy' he
    simp only [mem_sdiff, mem_univ, true_and, mem_image, mem_range, not_exists, not_and] at hy hy'
    have key : ∀ (ρ : Equiv.Perm X) (z : X), (ρ^[j] x = x ∧ ∀ i, 0 < i → i < j → ρ^[i] x ≠ x) → (∀ i, i < j → ¬ ρ^[i] x = z) →
        (Equiv.swap x z * ρ)^[j] x = z := by
      intro ρ z h hz
      obtain ⟨j, rfl⟩ : ∃ j', j = j' + 1 := ⟨j - 1, by omega⟩
      rw [Function.iterate_succ_apply', iterate_swap_mul ρ x z (j + 1) h.2 (fun i _ hi e => hz i hi e.symm) j (by omega),
        Equiv.Perm.mul_apply, ← Function.iterate_succ_apply' (f := ρ), h.1, Equiv.swap_apply_left]
    have hyy : y = y' := by rw [← key π y hA hy, he, key π' y' hA' hy']
    subst hyy
    exact ⟨mul_left_cancel he, rfl⟩

/-- The probability that `x` lies on a cycle shorter than `n` -/
theorem prob_short_le (x : X) (n : Nat) (hn : n < Fintype.card X) :
    prob (fun π : Equiv.Perm X => ∃ j, 0 < j ∧ j < n ∧ π^[j] x = x) ≤ (n : ℚ) / (Fintype.card X - n) := by
  obtain ⟨K, hK⟩ : ∃ K, K + n = Fintype.card X := ⟨Fintype.card X - n, by omega⟩
  have hK' : (Fintype.card X : ℚ) - n = K := by rw [← hK]; push_cast; ring
  rw [hK']
  refine le_trans (prob_mono (q := fun π : Equiv.Perm X => ∃ j ∈ (range n).filter (0 < ·),
    π^[j] x = x ∧ ∀ i, 0 < i → i < j → π^[i] x ≠ x) ?_) (le_trans (prob_exists_le _ _ (1 / K) ?_) ?_)
  · rintro π ⟨j, h0, hj, h⟩
    have hex : ∃ j, 0 < j ∧ π^[j] x = x := ⟨j, h0, h⟩
    classical
    refine ⟨Nat.find hex, ?_, (Nat.find_spec hex).2, fun i hi hlt he => Nat.find_min hex hlt ⟨hi, he⟩⟩
    rw [mem_filter, mem_range]
    exact ⟨Nat.lt_of_le_of_lt (Nat.find_min' hex ⟨h0, h⟩) hj, (Nat.find_spec hex).1⟩
  · intro j hj
    rw [mem_filter, mem_range] at hj
    exact prob_period_le x j K hj.2 (by omega) (by omega)
  · have : ((range n).filter (0 < ·)).card ≤ n := le_trans (card_filter_le _ _) (card_range n).le
    have h' : ((((range n).filter (0 < ·)).card : ℕ) : ℚ) ≤ n := by exact_mod_cast this
    rw [mul_one_div]
    exact div_le_div_of_nonneg_right h' (by positivity)

end

end Verif.Ideal

namespace Verif.Ideal.Sophos

open Verif Finset

variable {ST : Type}

/-- A permutation and its inverse -/
def ofPerm (π : Equiv.Perm ST) : Perm ST := ⟨π, π.symm, π.apply_symm_apply⟩

theorem inv_iterate (π : Equiv.Perm ST) (j : Nat) (x : ST) : (ofPerm π).inv^[j] x = x ↔ π^[j] x = x := by
  have h : π^[j] ((ofPerm π).inv^[j] x) = x := (Function.LeftInverse.iterate (g := π) (f := π.symm) π.apply_symm_apply j) x
  have h' : (ofPerm π).inv^[j] (π^[j] x) = x := (Function.LeftInverse.iterate (g := π.symm) (f := π) π.symm_apply_apply j) x
  constructor
  · intro e; rw [e] at h; exact h
  · intro e; rw [e] at h'; exact h'

variable [Fintype ST] [DecidableEq ST]

/-- The average number of elements on short cycles -/
theorem average_short (n : Nat) (hn : n < Fintype.card ST) :
    (∑ π : Equiv.Perm ST, ((shortCycles (ofPerm π) n).card : ℚ) / Fintype.card ST) / Fintype.card (Equiv.Perm ST) ≤
      (n : ℚ) / (Fintype.card ST - n) := by
  classical
  have h1 := prob_average (P := Equiv.Perm ST) (Ω := ST) (fun π x => x ∈ shortCycles (ofPerm π) n)
  have h2 : ∀ π : Equiv.Perm ST, prob (fun x => x ∈ shortCycles (ofPerm π) n) = ((shortCycles (ofPerm π) n).card : ℚ) / Fintype.card ST := by
    intro π
    unfold prob
    rw [Nat.card_eq_fintype_card, Fintype.card_coe]
  simp only [h2] at h1
  rw [← h1]
  have h3 := prob_average (P := ST) (Ω := Equiv.Perm ST) (fun x π => x ∈ shortCycles (ofPerm π) n)
  have h4 : prob (fun x : Equiv.Perm ST × ST => x.2 ∈ shortCycles (ofPerm x.1) n) =
      prob (fun x : ST × Equiv.Perm ST => x.1 ∈ shortCycles (ofPerm x.2) n) := by
    unfold prob
    rw [Fintype.card_prod, Fintype.card_prod, mul_comm]
    congr 2
    exact Nat.card_congr ((Equiv.prodComm _ _).subtypeEquiv (fun _ => Iff.rfl))
  rw [h4]
  refine average_le (P := ST) (fun x π => x ∈ shortCycles (ofPerm π) n) (fun _ => (n : ℚ) / (Fintype.card ST - n)) (fun x => ?_) ?_
  · refine le_trans (prob_mono (fun π hπ => ?_)) (prob_short_le x n hn)
    simp only [shortCycles, mem_filter, mem_univ, true_and] at hπ
    obtain ⟨j, a, b, c⟩ := hπ
    exact ⟨j, a, b, (inv_iterate π j x).mp c⟩
  · rw [sum_const, card_univ, nsmul_eq_mul]
    have : (0 : ℚ) < Fintype.card ST := by exact_mod_cast (by omega : 0 < Fintype.card ST)
    rw [mul_div_cancel_left₀ _ this.ne']

/-- The average of a bound with a term for short cycles -/
theorem average_bound (a c d : ℚ) (hc : 0 ≤ c) (n : Nat) (hn : n < Fintype.card ST) :
    (∑ π : Equiv.Perm ST, (a + c * (((shortCycles (ofPerm π) n).card : ℚ) / Fintype.card ST) + d)) / Fintype.card (Equiv.Perm ST) ≤
      a + c * ((n : ℚ) / (Fintype.card ST - n)) + d := by
  have h := average_short (ST := ST) n hn
  have hp : (0 : ℚ) < Fintype.card (Equiv.Perm ST) := by exact_mod_cast Fintype.card_pos
  simp only [sum_add_distrib, sum_const, card_univ, nsmul_eq_mul, ← mul_sum]
  rw [add_div, add_div, mul_div_cancel_left₀ _ hp.ne', mul_div_cancel_left₀ _ hp.ne', mul_div_assoc]
  have := mul_le_mul_of_nonneg_left h hc
  linarith

end Verif.Ideal.Sophos
