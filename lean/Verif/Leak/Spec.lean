import Mathlib.Logic.Equiv.Basic

/-!
# Specification of leakage

Independent of the schemes: a history of insertions and searches, and what the server may learn from it. An insertion reveals
nothing but that it occurs. A search reveals which of the insertions before it are for the same keyword, and their documents (hence
also which searches are for the same keyword, when something was inserted for it).
-/

namespace Verif.Leak

/-- A command of the user -/
inductive Cmd (Kw D : Type) where
  | insert (w : Kw) (i : D)
  | search (w : Kw)

variable {Kw D : Type} [DecidableEq Kw]

/-- The insertions for `w`, with their positions from `n` on -/
def insertedFrom (w : Kw) : Nat → List (Cmd Kw D) → List (Nat × D)
  | _, [] => []
  | n, .insert v i :: H => (if v = w then [(n, i)] else []) ++ insertedFrom w (n + 1) H
  | n, .search _ :: H => insertedFrom w (n + 1) H

/-- The insertions for `w` in a history: positions and documents -/
def inserted (w : Kw) (H : List (Cmd Kw D)) : List (Nat × D) := insertedFrom w 0 H

/-- What happens at each command, given the commands before it -/
def eachFrom {β : Type} (f : List (Cmd Kw D) → Cmd Kw D → β) : List (Cmd Kw D) → List (Cmd Kw D) → List β
  | _, [] => []
  | past, o :: H => f past o :: eachFrom f (past ++ [o]) H

/-- What the server may learn from a command -/
def leakOf (past : List (Cmd Kw D)) : Cmd Kw D → Option (List (Nat × D))
  | .insert _ _ => none
  | .search w => some (inserted w past)

/-- What the server may learn from a history -/
def leak (H : List (Cmd Kw D)) : List (Option (List (Nat × D))) := eachFrom leakOf [] H

/-- The number of insertions for `w` -/
def count (w : Kw) (H : List (Cmd Kw D)) : Nat := (inserted w H).length

/-- The slot (keyword, and number among the insertions for this keyword) of the insertion in position `m` -/
def SlotAt (H : List (Cmd Kw D)) (m : Nat) (w : Kw) (a : Nat) : Prop :=
  ∃ i, H[m]? = some (.insert w i) ∧ a = count w (H.take m)

/-- The insertion in position `m` has a keyword that is not searched later. -/
def HiddenAt (H : List (Cmd Kw D)) (m : Nat) (w : Kw) (a : Nat) : Prop :=
  SlotAt H m w a ∧ ∀ n, m < n → H[n]? ≠ some (.search w)

end Verif.Leak
