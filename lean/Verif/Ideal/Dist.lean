import Verif.Ideal.Lemmas
import Mathlib.Algebra.Order.Group.Abs
import Mathlib.Tactic.Linarith

/-!
# The distance of two distributions

What an observer sees is a function of the random choice. Two such functions are close when a permutation of the choices turns one
into the other except on an event of small probability.
-/

namespace Verif.Ideal

variable {Ω : Type*} [Fintype Ω]

/-- A permutation of the choices does not change probabilities. -/
theorem prob_bijective {Φ : Ω → Ω} (hΦ : Function.Bijective Φ) (p : Ω → Prop) : prob (fun ω => p (Φ ω)) = prob p := by
  unfold prob
  congr 2
  exact Nat.card_congr ((Equiv.ofBijective Φ hΦ).subtypeEquiv (fun _ => Iff.rfl))

/-- An observer who decides by `E` distinguishes `X` and `Y` with an advantage that is at most the probability of the event that the
permutation does not turn the one into the other. -/
theorem prob_dist_le {α : Type*} {Φ : Ω → Ω} (hΦ : Function.Bijective Φ) (X Y : Ω → α) (bad : Ω → Prop)
    (h : ∀ ω, ¬ bad ω → X (Φ ω) = Y ω) (E : α → Prop) :
    |prob (fun ω => E (X ω)) - prob (fun ω => E (Y ω))| ≤ prob bad := by
  rw [← prob_bijective hΦ (fun ω => E (X ω))]
  have h1 : prob (fun ω => E (X (Φ ω))) ≤ prob (fun ω => E (Y ω)) + prob bad := by
    refine le_trans (prob_mono (q := fun ω => E (Y ω) ∨ bad ω) ?_) (prob_or _ _)
    intro ω hω
    by_cases hb : bad ω
    · exact Or.inr hb
    · exact Or.inl (h ω hb ▸ hω)
  have h2 : prob (fun ω => E (Y ω)) ≤ prob (fun ω => E (X (Φ ω))) + prob bad := by
    refine le_trans (prob_mono (q := fun ω => E (X (Φ ω)) ∨ bad ω) ?_) (prob_or _ _)
    intro ω hω
    by_cases hb : bad ω
    · exact Or.inr hb
    · exact Or.inl (by rw [h ω hb]; exact hω)
  rw [abs_le]
  constructor <;> linarith

/-- A permutation of the second component that depends on the first one. -/
theorem bijective_fiber {A B : Type*} (φ : A → B → B) (h : ∀ a, Function.Bijective (φ a)) :
    Function.Bijective (fun x : A × B => (x.1, φ x.1 x.2)) := by
  constructor
  · rintro ⟨a, b⟩ ⟨a', b'⟩ he
    obtain ⟨h1, h2⟩ := Prod.mk.inj he
    change a = a' at h1
    subst h1
    have := (h a).1 h2
    change b = b' at this
    rw [this]
  · rintro ⟨a, b⟩
    obtain ⟨b', hb⟩ := (h a).2 b
    exact ⟨(a, b'), by simp [hb]⟩

end Verif.Ideal
