import Verif.Vec.Concurrent

/-! # What is expected of concurrent appends -/

namespace Verif.Vec.Conc.Spec

open Verif Verif.Vec Verif.Vec.Conc

variable {sz : Nat}

/-- The call has ended. -/
def ended (c : Call sz) : Bool :=
  match c.pc with
  | .returned _ | .done | .threw => true
  | _ => false

/-- The value pushed by a call -/
def value (c : Call sz) : Option (Val sz) :=
  match c.job with
  | .push x | .asyncPush x => some x
  | .reserve _ => none

/-- The position returned by a call -/
def position (c : Call sz) : Option Nat :=
  match c.pc with
  | .returned p => some p
  | _ => none

/-- The values pushed by calls that returned -/
def values (cs : List (Call sz)) : List (Val sz) :=
  cs.filterMap fun c => if (position c).isSome then value c else none

/-- **The property**: when the calls are over and the vector is committed, the positions returned are those from 0
on, each once, and at each is the value pushed by the call that returned it. -/
def Right (s : State sz) : Prop :=
  (s.calls.filterMap position).Perm (List.range s.vec.size) ∧
  ∀ c ∈ s.calls, ∀ p x, position c = some p → value c = some x → s.vec.commit.get p = .ok x

/-- The calls that begin -/
def jobs (acts : List (Act sz)) : List (Job sz) :=
  acts.filterMap fun a => match a with | .call j => some j | _ => none

/-- `commit` is not called. -/
def NoCommit (acts : List (Act sz)) : Prop := ∀ a ∈ acts, a ≠ .commit

/-- Only `async_push_back` is called. -/
def OnlyAsync (acts : List (Act sz)) : Prop := ∀ j ∈ jobs acts, ∃ x, j = .asyncPush x

/-- Only `push_back` is called. -/
def OnlyPush (acts : List (Act sz)) : Prop := ∀ j ∈ jobs acts, ∃ x, j = .push x

/-- Only `push_back` and `reserve` are called. -/
def OnlySync (acts : List (Act sz)) : Prop := ∀ j ∈ jobs acts, ∀ x, j ≠ .asyncPush x

/-- At any time, at most one call is in progress. -/
def OneAtATime (sched direct : Bool) (acts : List (Act sz)) : Prop :=
  ∀ l, l <+: acts → (((State.init sz sched direct).run l).calls.filter (fun c => !ended c)).length ≤ 1

/-- All calls are over. -/
def Over (s : State sz) : Prop := ∀ c ∈ s.calls, ended c = true

end Verif.Vec.Conc.Spec
