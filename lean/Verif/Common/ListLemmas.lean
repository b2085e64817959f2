import Mathlib.Data.List.Perm.Basic
import Mathlib.Data.List.Count

/-! # Lemmas on lists used in several places -/

namespace Verif

theorem List.set_split {α : Type} {l : List α} {i : Nat} {a : α} (h : l[i]? = some a) (b : α) :
    ∃ pre post, l = pre ++ a :: post ∧ l.set i b = pre ++ b :: post := by
  induction l generalizing i with
  | nil => simp at h
  | cons x l ih =>
    cases i with
    | zero => simp at h; subst h; exact ⟨[], l, rfl, rfl⟩
    | succ i =>
      simp only [List.getElem?_cons_succ] at h
      obtain ⟨pre, post, h1, h2⟩ := ih h
      exact ⟨x :: pre, post, by simp [← h1], by simp [h2]⟩

/-- Permutations by counting. -/
theorem List.perm_of_count {α : Type} [DecidableEq α] {l l' : List α}
    (h : ∀ a, l.count a = l'.count a) : l.Perm l' := List.perm_iff_count.mpr h

theorem List.getElem?_set_cases {β : Type} {l : List β} {t t' : Nat} {a b x : β}
    (h : l[t]? = some a) (hx : (l.set t b)[t']? = some x) :
    (t' = t ∧ x = b) ∨ (t' ≠ t ∧ l[t']? = some x) := by
  by_cases htt : t' = t
  · subst htt
    have hlt : t' < l.length := by
      rcases List.getElem?_eq_some_iff.mp h with ⟨hlt, _⟩; exact hlt
    simp [hlt] at hx
    exact Or.inl ⟨rfl, hx.symm⟩
  · rw [List.getElem?_set_ne (Ne.symm htt)] at hx
    exact Or.inr ⟨htt, hx⟩

end Verif
