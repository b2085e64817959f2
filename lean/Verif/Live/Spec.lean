import Verif.Common.XorMask

/-!
# Specification of searches that run while updates are stored

Over plain histories: `H` is a list of insertions, and sets of positions in `H` say which of them have
reached the server.
-/

namespace Verif.Live.Spec

variable {Kw V : Type} [DecidableEq Kw]

/-- The insertions of `w`, oldest first, with their positions -/
def entries (w : Kw) (H : List (Kw × V)) : List (V × Nat) :=
  (H.zipIdx.filter (fun e => e.1.1 = w)).map (fun e => (e.1.2, e.2))

/-- The documents of `w` at the positions `P`, oldest first -/
def documents (w : Kw) (H : List (Kw × V)) (P : List Nat) : List V :=
  ((entries w H).filter (fun e => e.2 ∈ P)).map (·.1)

/-- The same with `zero` in place of the documents that are not in `P` -/
def slots (zero : V) (w : Kw) (H : List (Kw × V)) (P : List Nat) : List V :=
  (entries w H).map (fun e => if e.2 ∈ P then e.1 else zero)

/-- A set of positions that a search may see, when `before` are stored before it begins and `during`
while it runs: all of the former, and some of the latter -/
def Seen (before during P : List Nat) : Prop :=
  (∀ k ∈ before, k ∈ P) ∧ ∀ k ∈ P, k ∈ before ∨ k ∈ during

/-- What is stored at one moment of the search -/
def Moment (before during P : List Nat) : Prop :=
  ∃ m, m ≤ during.length ∧ P = before ++ during.take m

/-- The updates of `w` among `during` arrive in the order of their insertion. -/
def InOrder (w : Kw) (H : List (Kw × V)) (during : List Nat) : Prop :=
  during.Pairwise (fun j k => (H[j]?).map (·.1) = some w → (H[k]?).map (·.1) = some w → j ≤ k)

end Verif.Live.Spec
