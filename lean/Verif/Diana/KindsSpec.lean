import Verif.Diana.Kinds

/-! # Specification of Diana with all kinds of searches -/

namespace Verif.Diana.Kinds.Spec

variable {Kw V : Type} [DecidableEq Kw]

/-- The number of positions used by each keyword, and the documents at the positions -/
structure State (Kw V : Type) where
  count : Kw → Nat
  doc : Kw → Nat → Option V

/-- Nothing inserted -/
def State.init : State Kw V := ⟨fun _ => 0, fun _ _ => none⟩

/-- What a search for `w` reads, position by position -/
def State.seen (S : State Kw V) (F : Fates) (w : Kw) : List (Option V) :=
  (List.range (S.count w)).map (fun i => if (F i).get then none else S.doc w i)

/-- The results of a search that reads `l` -/
def Results (zero : V) (l : List (Option V)) (out : List V) : Kind V → Prop
  | .sequential => out = l.filterMap id
  | .list _ => out = l.filterMap id
  | .callback _ => out.Perm (l.filterMap id)
  | .vector _ given =>
      out.length = max given.length l.length ∧
      (∀ i, i < l.length → out[i]? = some ((l[i]?).join.getD (given.getD i zero))) ∧
      ∀ i, l.length ≤ i → out[i]? = given[i]?

/-- The state after an operation -/
def State.next (S : State Kw V) : Op Kw V → State Kw V
  | .insert w i delivered =>
    ⟨fun v => if v = w then S.count w + 1 else S.count v,
     fun v a => if delivered = true ∧ v = w ∧ a = S.count w then some i else S.doc v a⟩
  | .search w _ del F =>
    ⟨S.count, fun v a =>
      if del = true ∧ v = w ∧ a < S.count w ∧ (F a).get = false ∧ (F a).delete = false then none else S.doc v a⟩
  | .forget w => ⟨fun v => if v = w then 0 else S.count v, S.doc⟩

/-- The state after a history -/
def State.after (S : State Kw V) (ops : List (Op Kw V)) : State Kw V := ops.foldl State.next S

/-- These are results of the searches of a history. -/
def Answers (zero : V) : State Kw V → List (Op Kw V) → List (List V) → Prop
  | _, [], outs => outs = []
  | S, .search w k del F :: ops, outs =>
    ∃ o os, outs = o :: os ∧ Results zero (S.seen F w) o k ∧ Answers zero (S.next (.search w k del F)) ops os
  | S, op :: ops, outs => Answers zero (S.next op) ops outs

/-- The number of insertions for `w` -/
def insertions (w : Kw) (ops : List (Op Kw V)) : Nat :=
  ops.countP (fun op => match op with | .insert v _ _ => v = w | _ => false)

/-- `op` concerns the keyword. -/
def On (w : Kw) : Op Kw V → Prop
  | .insert v _ _ => v = w
  | .search v _ _ _ => v = w
  | .forget v => v = w

/-- No call fails. -/
def Healthy (F : Fates) : Prop := ∀ i, (F i).get = false ∧ (F i).delete = false

/-- A multimap: what was inserted under the keyword after the last deleting search -/
def store (w : Kw) (ops : List (Op Kw V)) : List V :=
  ops.foldl (fun l op => match op with
    | .insert v i _ => if v = w then l ++ [i] else l
    | .search v _ del _ => if v = w ∧ del = true then [] else l
    | .forget _ => l) []

/-- The number of documents deleted since the keyword was last forgotten -/
def gaps (w : Kw) (ops : List (Op Kw V)) : Nat :=
  (ops.foldl (fun (p : Nat × Nat) op => match op with
    | .insert v _ _ => if v = w then (p.1, p.2 + 1) else p
    | .search v _ del _ => if v = w ∧ del = true then (p.1 + p.2, 0) else p
    | .forget v => if v = w then (0, 0) else p) (0, 0)).1

/-- No call fails, all insertions are delivered, and a keyword is only forgotten when nothing is stored under
it. -/
def Clean (ops : List (Op Kw V)) : Prop :=
  ∀ pre op post, ops = pre ++ op :: post → match op with
    | .insert _ _ delivered => delivered = true
    | .search _ _ _ F => Healthy F
    | .forget w => store w pre = []

end Verif.Diana.Kinds.Spec
