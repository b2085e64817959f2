import Verif.Tethys.Generic

/-!
# What the encoder of Tethys should keep
-/

namespace Verif.Tethys.Generic.Spec

/-- Sizes for which nothing has to be filled up: the length and the key of a list take whole entries. -/
def Whole (S : Sizes) : Prop := 0 < S.val ∧ S.val ∣ 8 ∧ S.val ∣ S.key

/-- Entries taken by the length and the key, for such sizes. -/
def headEntries (S : Sizes) : Nat := (8 + S.key) / S.val

/-- A list as the builder gives it: keys and values have their sizes, the list is not empty, and the length it
is assigned with counts the control values of both buckets. -/
def PartOk (S : Sizes) (p : Part) : Prop :=
  p.key.length = S.key ∧ (∀ v ∈ p.values, v.length = S.val) ∧ p.values ≠ [] ∧
    p.info.listLength.toNat = p.values.length + 2 * headEntries S

/-- Number of values stored with `a` entries of a bucket, of a list of `n` values. -/
def stored (S : Sizes) (a n : Nat) : Nat := min (a - headEntries S) n

/-- The values of a list that are stored in the bucket. -/
def share (S : Sizes) (p : Part) : List (List UInt8) :=
  match p.info.orientation with
  | .incoming => p.values.take (stored S p.info.assigned.toNat p.values.length)
  | .outgoing => p.values.drop (p.values.length - stored S p.info.assigned.toNat p.values.length)

/-- Bytes used in a bucket: nothing for lists with too few entries for the length and the key. -/
def used (S : Sizes) (ps : List Part) : Nat :=
  (ps.map fun p => if p.info.assigned.toNat ≤ headEntries S then 0
    else 8 + S.key + S.val * stored S p.info.assigned.toNat p.values.length).sum

/-- Entries assigned in a bucket. -/
def assigned (ps : List Part) : Nat := (ps.map fun p => p.info.assigned.toNat).sum

end Verif.Tethys.Generic.Spec
