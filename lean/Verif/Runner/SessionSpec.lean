import Verif.Runner.Session
import Verif.Live.Spec

/-!
# What is expected of update sessions (C56)

Definitions over the trace of the calls and of what the server stored.
-/

namespace Verif.Runner.Sess

open Verif

variable {Kw : Type}

/-- Starts or ends a session -/
def Call.isSession : Call Kw → Bool
  | .start => true
  | .finish => true
  | _ => false

/-- A search -/
def Call.isSearch : Call Kw → Bool
  | .search _ => true
  | _ => false

/-- The insertions that were requested, in order, with the number of the call -/
def requests (t : List (Event Kw)) : List (Nat × Kw × Index) :=
  t.filterMap fun e => match e with | .requested n w i => some (n, w, i) | _ => none

/-- The insertions in the order of the requests -/
def hist (t : List (Event Kw)) : List (Kw × Index) := (requests t).map (·.2)

/-- The numbers of the stored requests -/
def stored (t : List (Event Kw)) : List Nat :=
  t.filterMap fun e => match e with | .stored p => some p | _ => none

/-- The call `n` made request number `p`. -/
def RequestedBy (t : List (Event Kw)) (p n : Nat) : Prop := ∃ w i, (requests t)[p]? = some (n, w, i)

/-- No failure of the network or of the server -/
def Act.good : Act Kw → Bool
  | .rpcFail _ _ => false
  | .break _ => false
  | _ => true

/-- What is known after a trace: the calls in progress, and whether there is a session: one begins when
`start_update_session` is called and ends when `end_update_session` returns. -/
structure Scan (Kw : Type) where
  active : List (Nat × Call Kw)
  isOpen : Bool

variable [DecidableEq Kw]

/-- The effect of an event -/
def Scan.next (z : Scan Kw) : Event Kw → Scan Kw
  | .called n c => ⟨z.active ++ [(n, c)], z.isOpen || decide (c = .start)⟩
  | .returned n => ⟨z.active.filter (·.1 ≠ n), z.isOpen && decide ((n, Call.finish) ∉ z.active)⟩
  | .threw n => ⟨z.active.filter (·.1 ≠ n), z.isOpen⟩
  | .found n _ _ => ⟨z.active.filter (·.1 ≠ n), z.isOpen⟩
  | _ => z

/-- What is known after the trace `t` -/
def scan (t : List (Event Kw)) : Scan Kw := t.foldl Scan.next ⟨[], false⟩

/-- When a call that starts or ends a session is in progress, there are only searches beside it. -/
def Scan.exclusive (z : Scan Kw) : Bool :=
  z.active.all fun a => z.active.all fun b => a.1 == b.1 || !a.2.isSession || b.2.isSearch

/-- Sessions are started and ended while no other call but searches is in progress. -/
def Exclusive (t : List (Event Kw)) : Prop := ∀ p q, t = p ++ q → (scan p).exclusive = true

/-- The insertions of the calls that did not throw, in the order of their requests -/
def accepted (t : List (Event Kw)) : List (Kw × Index) :=
  ((requests t).filter fun r => decide (Event.threw r.1 ∉ t)).map (·.2)

/-- The documents of `w` whose requests are stored, oldest first -/
def storedDocs (w : Kw) (t : List (Event Kw)) : List Index := Live.Spec.documents w (hist t) (stored t)

/-- The documents of `w` of the calls that did not throw, oldest first -/
def acceptedDocs (w : Kw) (t : List (Event Kw)) : List Index :=
  ((accepted t).filter (fun e => e.1 = w)).map (·.2)

end Verif.Runner.Sess
