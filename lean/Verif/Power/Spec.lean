import Verif.Power.Model

/-!
# What a user may expect after a loss of power

Written over the insertions only: no counter, token or database.
-/

namespace Verif.Power.Spec

open Verif Verif.Power

variable {Kw : Type} [DecidableEq Kw]

/-- An insertion: whether the server still has its update, and whether the client still remembers it. -/
structure Ins (Kw : Type) where
  w : Kw
  i : Index
  stored : Bool
  known : Bool
deriving DecidableEq, Repr

/-- The client forgets the last `k` insertions it remembers (newest first). -/
def forget : Nat → List (Ins Kw) → List (Ins Kw)
  | 0, l => l
  | _, [] => []
  | k + 1, e :: l => if e.known then { e with known := false } :: forget k l else e :: forget (k + 1) l

/-- The server loses the last `k` updates it has (newest first). -/
def unstore : Nat → List (Ins Kw) → List (Ins Kw)
  | 0, l => l
  | _, [] => []
  | k + 1, e :: l => if e.stored then { e with stored := false } :: unstore k l else e :: unstore (k + 1) l

/-- One event, on the insertions so far, newest first -/
def step (l : List (Ins Kw)) : Op Kw → List (Ins Kw)
  | .insert w i delivered => ⟨w, i, delivered, true⟩ :: l
  | .clientLoss k => forget k l
  | .serverLoss k => unstore k l

/-- The insertions after a sequence of events, newest first -/
def run (ops : List (Op Kw)) : List (Ins Kw) := ops.foldl step []

/-- The documents of `w` whose update the server still has, oldest first -/
def stored (ops : List (Op Kw)) (w : Kw) : List Index :=
  (((run ops).reverse).filter (fun e => e.w = w ∧ e.stored)).map (·.i)

/-- Of these, the documents that the client remembers -/
def remembered (ops : List (Op Kw)) (w : Kw) : List Index :=
  (((run ops).reverse).filter (fun e => e.w = w ∧ e.stored ∧ e.known)).map (·.i)

/-- The documents ever inserted for `w` -/
def inserted (ops : List (Op Kw)) (w : Kw) : List Index :=
  ops.filterMap (fun o => match o with | .insert v i _ => if v = w then some i else none | _ => none)

/-- The client loses nothing. -/
def NoClientLoss (ops : List (Op Kw)) : Prop := ∀ k, .clientLoss k ∉ ops

/-- The server loses nothing. -/
def NoServerLoss (ops : List (Op Kw)) : Prop := ∀ k, .serverLoss k ∉ ops

/-- Every update reaches the server. -/
def AllDelivered (ops : List (Op Kw)) : Prop := ∀ w i, .insert w i false ∉ ops

/-! ## What the code does

Each keyword has numbered slots on the server. -/

/-- `ups`: the keywords whose counter was increased, newest first; `writes`: the slots written, newest
first -/
structure Slots (Kw : Type) where
  ups : List Kw
  writes : List (Kw × Nat × Index)

/-- The content of slot `a` of `w` -/
def slot (writes : List (Kw × Nat × Index)) (w : Kw) (a : Nat) : Option Index :=
  (writes.find? (fun e => e.1 = w ∧ e.2.1 = a)).map (·.2.2)

/-- One event.  An insertion takes the slot after those the client knows of, used or not. -/
def Slots.step (s : Slots Kw) : Op Kw → Slots Kw
  | .insert w i delivered =>
    { ups := w :: s.ups, writes := if delivered then (w, s.ups.count w, i) :: s.writes else s.writes }
  | .clientLoss k => { s with ups := s.ups.drop k }
  | .serverLoss k => { s with writes := s.writes.drop k }

/-- A sequence of events -/
def Slots.run (ops : List (Op Kw)) : Slots Kw := ops.foldl Slots.step ⟨[], []⟩

/-- A search visits the slots the client knows of, oldest first. -/
def Slots.search (s : Slots Kw) (w : Kw) : List Index :=
  (List.range (s.ups.count w)).filterMap (slot s.writes w)

end Verif.Power.Spec
