import Verif.Utils.Rocks

/-!
# What the wrappers of RocksDB should do

Stated on the list of the operations performed, oldest first, without any database.
-/

namespace Verif.Rocks.Spec

open Verif.Rocks

section

variable {τ : Type} {V : τ → Type}

/-- The key an operation is about. -/
def keyOf : Write V → Bytes
  | .put k _ _ => k
  | .remove k => k
  | .removePtr buf len => buf.take len.toNat

/-- The operation removes its key. -/
def IsRemoval : Write V → Prop
  | .put _ _ _ => False
  | .remove _ => True
  | .removePtr _ _ => True

/-- No buffer is shorter than announced. -/
def InBounds : Write V → Prop
  | .put _ _ _ => True
  | .remove _ => True
  | .removePtr buf len => len.toNat ≤ buf.length

/-- The last operation about `k` stored the value `v` of type `t`. -/
def Holds (h : List (Write V)) (k : Bytes) (t : τ) (v : V t) : Prop :=
  ∃ a b, h = a ++ .put k t v :: b ∧ ∀ w ∈ b, keyOf w ≠ k

/-- No operation was about `k`, or the last one removed it. -/
def Absent (h : List (Write V)) (k : Bytes) : Prop :=
  (∀ w ∈ h, keyOf w ≠ k) ∨
    ∃ a w b, h = a ++ w :: b ∧ keyOf w = k ∧ IsRemoval w ∧ ∀ x ∈ b, keyOf x ≠ k

end

/-- The call adds one to the counter of `k` if there is one. -/
def isIncr (k : Bytes) : CounterOp → Bool
  | .getAndIncrement k' => k' == k
  | .increment k' _ => k' == k
  | _ => false

/-- The call replaces or removes the counter of `k`. -/
def isReset (k : Bytes) : CounterOp → Bool
  | .set k' _ => k' == k
  | .removeKey k' => k' == k
  | _ => false

/-- The call starts a counter for `k`, with the value `v`, when there is none. -/
def Starts (k : Bytes) (v : UInt32) : CounterOp → Prop
  | .getAndIncrement k' => k' = k ∧ v = 0
  | .increment k' d => k' = k ∧ v = d
  | .set k' d => k' = k ∧ v = d
  | _ => False

/-- The calls leave no counter for `k`: it was never started since the beginning or its last
removal. -/
def NoCounter (os : List CounterOp) (k : Bytes) : Prop :=
  ∃ a b, os = a ++ b ∧ (a = [] ∨ ∃ a', a = a' ++ [.removeKey k]) ∧
    ∀ o ∈ b, isIncr k o = false ∧ isReset k o = false

/-- The counter of `k` has the value `v`: it was started, by a call that found no counter or by
`set`, and has been incremented since. -/
def HasValue (os : List CounterOp) (k : Bytes) (v : UInt32) : Prop :=
  ∃ a o b base, os = a ++ o :: b ∧ Starts k base o ∧ (NoCounter a k ∨ o = .set k base) ∧
    (∀ x ∈ b, isReset k x = false) ∧ v = base + UInt32.ofNat (b.countP (isIncr k))

end Verif.Rocks.Spec
