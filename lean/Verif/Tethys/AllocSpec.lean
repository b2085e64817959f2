import Mathlib.Algebra.BigOperators.Group.List.Basic

/-!
# Specification of the allocation problem

Lists with two candidate buckets each; an assignment says how many entries of each list go to its
first and to its second bucket, the rest goes to the stash.
-/

namespace Verif.Tethys.Spec

/-- A list to be stored: its two candidate buckets and its length -/
structure Item where
  h0 : Nat
  h1 : Nat
  len : Nat
deriving DecidableEq, Repr

/-- What a bucket receives -/
def load (items : List Item) (parts : List (Nat × Nat)) (v : Nat) : Nat :=
  ((items.zip parts).map
    (fun x => (if x.1.h0 = v then x.2.1 else 0) + (if x.1.h1 = v then x.2.2 else 0))).sum

/-- An assignment: no list gives more entries than it has, no bucket receives more than a page. -/
structure IsAssignment (page : Nat) (items : List Item) (parts : List (Nat × Nat)) : Prop where
  length : parts.length = items.length
  split : ∀ x ∈ items.zip parts, x.2.1 + x.2.2 ≤ x.1.len
  fits : ∀ v, load items parts v ≤ page

/-- Entries left to the stash -/
def stashSize (items : List Item) (parts : List (Nat × Nat)) : Nat :=
  ((items.zip parts).map (fun x => x.1.len - (x.2.1 + x.2.2))).sum

end Verif.Tethys.Spec
