import Verif.Janus.Faults
import Verif.Janus.Spec
import Verif.Faults.Spec

/-!
# What a user of Janus may expect when RocksDB fails, and what happens
-/

namespace Verif.Janus.Faults

open Verif

variable {PK KS CT Rand : Type}

namespace Spec

/-- The observations are right: an update that returned normally counts, one that threw does not, and
every search that returns normally returns exactly the documents inserted and not removed since,
oldest first. -/
def Honest : Janus.Spec.Store → List (Op Rand) → List Out → Prop
  | _, [], [] => True
  | S, .insert w i _ _ :: ops, .acked :: outs => Honest (S.set w (S w ++ [i])) ops outs
  | S, .insert _ _ _ _ :: ops, .error :: outs => Honest S ops outs
  | S, .remove w i _ :: ops, .acked :: outs => Honest (S.set w ((S w).filter (· ≠ i))) ops outs
  | S, .remove _ _ _ :: ops, .error :: outs => Honest S ops outs
  | S, .search w _ :: ops, .results l :: outs => l = S w ∧ Honest S ops outs
  | _, _, _ => False

/-- The failures that the code tolerates: any failure of the `Put` of an insertion at the client, a
failure of the `Put` of a removal at the client that was not applied, any failure of a `Delete`, and
a failed `Put` of the search counter if all the `Delete` of the search are applied. -/
def tolerable : Op Rand → Prop
  | .insert _ _ _ f => f.scGet = true ∧ f.getOk = true ∧ f.srvPut = true
  | .remove _ _ f => f.scGet = true ∧ f.getOk = true ∧ f.srvPut = true ∧
      f.putRes ≠ .storedButFailed
  | .search _ f => f.scGet = true ∧ f.insGet = true ∧ f.delGet = true ∧ f.cacheGet = true ∧
      f.cachePut = true ∧ (∀ p, f.badIns p = false) ∧ (∀ p, f.badDel p = false) ∧
      (f.scPut = true ∨ (f.insDel = true ∧ f.delDel = true ∧ (∀ p, f.keepIns p = false) ∧
        ∀ p, f.keepDel p = false))

/-- The operation without the failures, if it is one that counts. -/
def counted : Op Rand → List (Janus.Op Rand)
  | .insert w i r f => if f.putRes = .ok then [.insert w i r] else []
  | .remove w i f => if f.putRes = .ok then [.remove w i] else []
  | .search w _ => [.search w]

/-! ## What the code does

A machine with numbered slots for each keyword and epoch. -/

open Verif.Faults.Spec (Slots)

/-- Epochs, inserted documents, punctures with their numbers, results of past searches. -/
structure Machine (Rand : Type) where
  epoch : Str → Nat
  ins : Slots (Str × Nat) (Index × Rand)
  del : Slots (Str × Nat) (Nat × Index)
  cache : Str → List Index

def Machine.init : Machine Rand := ⟨fun _ => 0, Slots.init, Slots.init, fun _ => []⟩

/-- The slots read by a search of the first `n`. -/
def fetch {V : Type} (S : Slots (Str × Nat) V) (k : Str × Nat) (n : Nat) (bad : Nat → Bool) : List V :=
  (List.range n).filterMap (fun p => if bad p then none else S.slot k p)

/-- The slots after a search of the first `n`, which empties what it has read unless `keep`. -/
def clear {V : Type} (S : Slots (Str × Nat) V) (k : Str × Nat) (n : Nat) (bad keep : Nat → Bool) :
    Slots (Str × Nat) V :=
  { S with slot := fun k' p =>
      if k' = k ∧ p < n ∧ bad p = false ∧ keep p = false then none else S.slot k' p }

/-- The epoch in which an operation takes place. -/
def Machine.epochOf (M : Machine Rand) (ok : Bool) (w : Str) : Nat := if ok then M.epoch w else 0

/-- The update counted or not. -/
def outOf {V : Type} : Verif.Faults.Out V → Out
  | .acked => .acked
  | _ => .error

/-- The number of the puncture made by a removal, `n` removals counted. -/
def punctureNumber (ok : Bool) (n : Nat) : Nat := if ok = true ∧ n ≠ 0 then n else 1

/-- The numbers of insertions and removals that a search asks for. -/
def Machine.counts (M : Machine Rand) (w : Str) (f : SearchF) : Nat × Nat :=
  (if f.insGet then M.ins.n (w, M.epochOf f.scGet w) else 0,
    if f.delGet then M.del.n (w, M.epochOf f.scGet w) else 0)

/-- What a search reads. -/
def Machine.fetched (M : Machine Rand) (w : Str) (f : SearchF) : List (Index × Rand) × List (Nat × Index) :=
  (fetch M.ins (w, M.epochOf f.scGet w) (M.counts w f).1 f.badIns,
    fetch M.del (w, M.epochOf f.scGet w) (M.counts w f).2 f.badDel)

/-- What a search returns. -/
def Machine.found (M : Machine Rand) (w : Str) (f : SearchF) : List Index :=
  let removed := (M.fetched w f).2.map (·.2)
  ((if f.cacheGet then M.cache w else []) ++ (M.fetched w f).1.map (·.1)).filter
    (fun i => !removed.contains i)

/-- One operation. -/
def Machine.step (M : Machine Rand) : Op Rand → Machine Rand × Out
  | .insert w i r f =>
    let x := M.ins.step Verif.Faults.Spec.oldestFirst
      (.insert (w, M.epochOf f.scGet w) (i, r) f.getOk f.putRes (if f.srvPut then .ok else .failed))
    ({ M with ins := x.1 }, outOf x.2)
  | .remove w i f =>
    let k := (w, M.epochOf f.scGet w)
    let x := M.del.step Verif.Faults.Spec.oldestFirst
      (.insert k (punctureNumber f.numGet (M.del.n k), i) f.getOk f.putRes
        (if f.srvPut then .ok else .failed))
    ({ M with del := x.1 }, outOf x.2)
  | .search w f =>
    let e := M.epochOf f.scGet w
    let ni := (M.counts w f).1
    let nd := (M.counts w f).2
    let ins := clear M.ins (w, e) ni f.badIns f.keepIns
    let del := clear M.del (w, e) nd f.badDel f.keepDel
    ({ epoch := fun v => if v = w ∧ (0 < ni ∨ 0 < nd) ∧ f.scPut = true then e + 1 else M.epoch v
       ins := if 0 < ni ∧ f.insDel = true then ins.setN (w, e) 0 else ins
       del := if 0 < nd ∧ f.delDel = true then del.setN (w, e) 0 else del
       cache := fun v => if v = w ∧ f.cachePut = true then M.found w f else M.cache v },
      .results (M.found w f))

def Machine.run : Machine Rand → List (Op Rand) → List Out
  | _, [] => []
  | M, op :: ops => (M.step op).2 :: Machine.run (M.step op).1 ops

/-- The key used by a search is a punctured key: the punctures are numbered 1, 2, … and all are there. -/
def Machine.keyOk (M : Machine Rand) : Op Rand → Bool
  | .search w f =>
    (M.fetched w f).1.isEmpty ||
      (decide ((M.fetched w f).2.length = (M.counts w f).2) &&
        decide ((M.fetched w f).2.map (·.1) = List.range' 1 (M.counts w f).2))
  | _ => true

/-- All searches that have something to decrypt have a punctured key. -/
def Machine.keysOk : Machine Rand → List (Op Rand) → Bool
  | _, [] => true
  | M, op :: ops => M.keyOk op && Machine.keysOk (M.step op).1 ops

def Op.kw : Op Rand → Str
  | .insert w _ _ _ => w
  | .remove w _ _ => w
  | .search w _ => w

def Op.docs : Op Rand → List Index
  | .insert _ i _ _ => [i]
  | .remove _ i _ => [i]
  | .search _ _ => []

end Spec

/-- No collision on the points used by a history. -/
def NoCollisionFor (c : Crypto PK KS CT Rand) (ops : List (Op Rand)) : Prop :=
  NoCollision c (ops.map Spec.Op.kw) (ops.flatMap Spec.Op.docs) ops.length

end Verif.Janus.Faults
