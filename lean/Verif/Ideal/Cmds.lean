import Verif.Leak.Core
import Mathlib.Data.Finset.Basic
import Mathlib.Data.Finset.Dedup

/-!
# The keywords of a history
-/

namespace Verif.Ideal

open Verif.Leak

variable {Kw D : Type}

/-- The keyword of a command -/
def keywordOf : Cmd Kw D → Kw
  | .insert w _ => w
  | .search w => w

variable [DecidableEq Kw]

/-- The keywords of a history -/
def cmdKeywords (H : List (Cmd Kw D)) : Finset Kw := (H.map keywordOf).toFinset

theorem mem_cmdKeywords {H : List (Cmd Kw D)} {n : Nat} {o : Cmd Kw D} (h : H[n]? = some o) : keywordOf o ∈ cmdKeywords H := by
  simp only [cmdKeywords, List.mem_toFinset]
  exact List.mem_map_of_mem (List.mem_of_getElem? h)

theorem count_append (w : Kw) (G H : List (Cmd Kw D)) : count w (G ++ H) = count w G + (insertedFrom w G.length H).length := by
  unfold count inserted
  rw [insertedFrom_append, List.length_append, Nat.zero_add]

/-- The number of an insertion is smaller than the number of insertions. -/
theorem slot_lt {H : List (Cmd Kw D)} {m : Nat} {w : Kw} {a : Nat} (h : SlotAt H m w a) : a < count w H := by
  obtain ⟨i, hi, rfl⟩ := h
  have hlt := (List.getElem?_eq_some_iff.mp hi).1
  have e : H = H.take m ++ .insert w i :: H.drop (m + 1) := by
    have h1 : H[m]'hlt = .insert w i := (List.getElem?_eq_some_iff.mp hi).2
    rw [← h1, List.getElem_cons_drop, List.take_append_drop]
  have h2 := count_append w (H.take m) (.insert w i :: H.drop (m + 1))
  rw [← e] at h2
  rw [h2]
  simp [insertedFrom]

theorem count_take_le (w : Kw) (H : List (Cmd Kw D)) (n : Nat) : count w (H.take n) ≤ count w H := by
  have := count_append w (H.take n) (H.drop n)
  rw [List.take_append_drop] at this
  omega

theorem count_le (w : Kw) (H : List (Cmd Kw D)) : count w H ≤ H.length := by
  have hle : ∀ n, (insertedFrom w n H).length ≤ H.length := by
    induction H with
    | nil => intro n; simp [insertedFrom]
    | cons o H ih =>
      intro n
      have := ih (n + 1)
      cases o with
      | insert v i =>
        unfold insertedFrom
        by_cases hv : v = w <;> simp [hv] <;> omega
      | search v =>
        unfold insertedFrom
        simp; omega
  exact hle 0

end Verif.Ideal
