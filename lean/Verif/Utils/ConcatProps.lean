import Verif.Utils.Concat

/-!
# Concatenated iteration: C40
-/

namespace Verif.Concat

variable {α : Type}

theorem visit_second (c1 c2 : List α) (p : Nat) (hp : p ≤ c2.length) (acc : List α) :
    visit c1 c2 ⟨true, p, true⟩ acc = some (acc ++ c2.drop p) := by
  induction hd : c2.length - p generalizing p acc with
  | zero =>
    have : p = c2.length := by omega
    subst this
    rw [visit]
    simp [Iter.eq, «end»]
  | succ d ih =>
    have hlt : p < c2.length := by omega
    rw [visit]
    have hne : (Iter.eq ⟨true, p, true⟩ («end» c2)) = false := by
      simp [Iter.eq, «end»]; omega
    have hderef : deref c1 c2 ⟨true, p, true⟩ = some c2[p] := by
      simp [deref, Iter.container, hlt]
    have hnext : next c1 c2 ⟨true, p, true⟩ = some ⟨true, p + 1, true⟩ := by
      simp [next, Iter.container, hlt]
    rw [hne, hderef]
    simp only [Bool.false_eq_true, if_false]
    split
    · rename_i h; rw [hnext] at h; cases h
    · rename_i it' h
      rw [hnext] at h; cases h
      rw [ih (p + 1) (by omega) _ (by omega)]
      rw [List.drop_eq_getElem_cons hlt]
      simp

theorem visit_first (c1 c2 : List α) (p : Nat) (hp : p < c1.length) (acc : List α) :
    visit c1 c2 ⟨false, p, false⟩ acc = some (acc ++ (c1.drop p ++ c2)) := by
  induction hd : c1.length - p generalizing p acc with
  | zero => omega
  | succ d ih =>
    rw [visit]
    have hne : (Iter.eq ⟨false, p, false⟩ («end» c2)) = false := by
      simp [Iter.eq, «end»]
    have hderef : deref c1 c2 ⟨false, p, false⟩ = some c1[p] := by
      simp [deref, Iter.container, hp]
    rw [hne, hderef]
    simp only [Bool.false_eq_true, if_false]
    by_cases hlast : p + 1 = c1.length
    · have hnext : next c1 c2 ⟨false, p, false⟩ = some ⟨true, 0, true⟩ := by
        simp [next, Iter.container, hp, hlast]
      split
      · rename_i h; rw [hnext] at h; cases h
      · rename_i it' h
        rw [hnext] at h; cases h
        rw [visit_second c1 c2 0 (by omega), List.drop_eq_getElem_cons hp, hlast]
        simp
    · have hnext : next c1 c2 ⟨false, p, false⟩ = some ⟨false, p + 1, false⟩ := by
        simp [next, Iter.container, hp, hlast]
      split
      · rename_i h; rw [hnext] at h; cases h
      · rename_i it' h
        rw [hnext] at h; cases h
        rw [ih (p + 1) (by omega) _ (by omega), List.drop_eq_getElem_cons hp]
        simp only [List.append_assoc, List.singleton_append, List.cons_append, List.nil_append]

/-- **C40**, the part that holds: when the first container is not empty, the iteration visits its
elements in order and then those of the second container. Missing: an empty first container. -/
theorem C40_visits_all_partial (c1 c2 : List α) (h : c1 ≠ []) :
    visit c1 c2 begin [] = some (c1 ++ c2) := by
  have := visit_first c1 c2 0 (List.length_pos_iff.mpr h) []
  simpa [begin] using this

example : visit [1, 2] [3, 4, 5] begin [] = some [1, 2, 3, 4, 5] :=
  C40_visits_all_partial [1, 2] [3, 4, 5] (by simp)

example : visit [1, 2] [] begin [] = some [1, 2] := C40_visits_all_partial [1, 2] [] (by simp)

/-- **C40**, violated: when the first container is empty, the iteration dereferences its end
iterator, whatever the second container. -/
theorem C40_empty_first_violated (c2 : List α) : visit [] c2 begin [] = none := by
  rw [visit]
  simp [begin, Iter.eq, «end», deref, Iter.container]

end Verif.Concat
