import Verif.Oceanus.Cuckoo

/-!
# Specification of the cuckoo table
-/

namespace Verif.Oceanus.Spec

/-- The entries stored in the two tables -/
def entries (a : Alloc) : List Cell := (a.t0 ++ a.t1).filter Cell.full

/-- Each entry is at its position: the first hash in the first table, the second hash in the second. -/
def Placed (a : Alloc) : Prop :=
  (∀ (i : Nat) c, a.t0[i]? = some c → c.full = true → c.key.h0.toNat % a.size = i) ∧
    ∀ (i : Nat) c, a.t1[i]? = some c → c.full = true → c.key.h1.toNat % a.size = i

/-- A sequence of insertions in a new allocator: the allocator, and the returned indexes -/
def insertAll (a : Alloc) : List (CKey × UInt64) → Except Fault (Alloc × List UInt64)
  | [] => .ok (a, [])
  | x :: xs => match a.insert x.1 x.2 with
    | .error f => .error f
    | .ok (a', r) => match insertAll a' xs with
      | .error f => .error f
      | .ok (a'', rs) => .ok (a'', r :: rs)

/-- The key whose bytes are all 255, as in the empty cells -/
def allOnes : Key := Vector.replicate 16 255

end Verif.Oceanus.Spec
