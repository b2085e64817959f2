import Verif.Faults.Model

/-!
# What a user may expect when RocksDB fails

Written over what the user does and observes only: no counter, token or database.
-/

namespace Verif.Faults.Spec

open Verif Verif.Faults

variable {Kw V : Type} [DecidableEq Kw]

/-- The values of `w` in a list of insertions, oldest first. -/
def docs (w : Kw) (G : List (Kw × V)) : List V := (G.filter (fun e => e.1 = w)).map (·.2)

/-- The observations are right: an insertion that returned normally counts, one that threw does
not, and every search that returns normally returns exactly the values that count, in the order
`arrange`.  `G` holds the insertions that count so far. -/
def Honest (arrange : List V → List V) :
    List (Kw × V) → List (Op Kw V) → List (Out V) → Prop
  | _, [], [] => True
  | G, .insert w i _ _ _ :: ops, .acked :: outs => Honest arrange (G ++ [(w, i)]) ops outs
  | G, .insert _ _ _ _ _ :: ops, .error :: outs => Honest arrange G ops outs
  | G, .search w _ _ :: ops, .results l :: outs => l = arrange (docs w G) ∧ Honest arrange G ops outs
  | G, .search _ _ _ :: ops, .error :: outs => Honest arrange G ops outs
  | _, _, _ => False

/-- The number of insertions attempted for `w`. -/
def attempts (w : Kw) : List (Op Kw V) → Nat
  | [] => 0
  | .insert v _ _ _ _ :: ops => (if v = w then 1 else 0) + attempts w ops
  | .search _ _ _ :: ops => attempts w ops

/-- Only the `Put` of the client may fail. -/
def OnlyClientPut : Op Kw V → Prop
  | .insert _ _ getOk _ srvPut => getOk = true ∧ srvPut = .ok
  | .search _ getOk bad => getOk = true ∧ ∀ p, bad p = false

/-- An insertion for which nothing fails. -/
def good (e : Kw × V) : Op Kw V := .insert e.1 e.2 true .ok .ok

/-- A search for which nothing fails. -/
def goodSearch (w : Kw) : Op Kw V := .search w true (fun _ => false)

/-! ## What the code does

A machine with numbered slots for each keyword, describing exactly the observations under every
pattern of failures. -/

/-- `n w`: number of slots of `w` in use; `slot w a`: the value in slot `a`. -/
structure Slots (Kw V : Type) where
  n : Kw → Nat
  slot : Kw → Nat → Option V

/-- No slot in use. -/
def Slots.init : Slots Kw V := ⟨fun _ => 0, fun _ _ => none⟩

/-- Change the number of slots of `w`. -/
def Slots.setN (s : Slots Kw V) (w : Kw) (k : Nat) : Slots Kw V :=
  { s with n := fun v => if v = w then k else s.n v }

/-- Fill slot `a` of `w`. -/
def Slots.fill (s : Slots Kw V) (w : Kw) (a : Nat) (i : V) : Slots Kw V :=
  { s with slot := fun v b => if v = w ∧ b = a then some i else s.slot v b }

/-- One operation.  A client that cannot read its counter starts again at slot 0.  `pos n p` is
the slot visited by the `p`-th access of a search over `n` slots. -/
def Slots.step (pos : Nat → Nat → Nat) (s : Slots Kw V) : Op Kw V → Slots Kw V × Out V
  | .insert w i getOk putRes srvPut =>
    let k := if getOk then s.n w else 0
    match putRes with
    | .failed => (s, .error)
    | .storedButFailed => (s.setN w (k + 1), .error)
    | .ok => (if srvPut = .failed then s.setN w (k + 1) else (s.setN w (k + 1)).fill w k i, .acked)
  | .search w getOk bad =>
    let n := if getOk then s.n w else 0
    (s, .results ((List.range n).filterMap
      (fun p => if bad p then none else s.slot w (pos n p))))

/-- A history. -/
def Slots.run (pos : Nat → Nat → Nat) : Slots Kw V → List (Op Kw V) → List (Out V)
  | _, [] => []
  | s, op :: ops => (s.step pos op).2 :: Slots.run pos (s.step pos op).1 ops

/-- Sophos visits the slots from the newest to the oldest. -/
def newestFirst (n p : Nat) : Nat := n - 1 - p

/-- Diana visits the slots from the oldest to the newest. -/
def oldestFirst (_ p : Nat) : Nat := p

end Verif.Faults.Spec
