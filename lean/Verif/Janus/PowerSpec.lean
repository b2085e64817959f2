import Verif.Janus.Power
import Verif.Janus.CrashSpec

/-!
# What a user of Janus may expect after a loss of power, and what happens
-/

namespace Verif.Janus.Power

open Verif
open Verif.Power (Db)

variable {PK KS CT Rand : Type}

namespace Spec

/-! ## Losses at the server of updates made since the last search or flush

They are to be the same as updates that were never delivered. -/

/-- The last `a` delivered insertions and the last `b` delivered removals count as not delivered (newest
first). -/
def undeliver : Nat → Nat → List (Crash.Ev Rand) → List (Crash.Ev Rand)
  | a + 1, b, .insert w i r true :: l => .insert w i r false :: undeliver a b l
  | a, b + 1, .remove w i true :: l => .remove w i false :: undeliver a b l
  | a, b, e :: l => e :: undeliver a b l
  | _, _, [] => []

/-- The delivered insertions -/
def insertions : List (Crash.Ev Rand) → Nat
  | .insert _ _ _ true :: l => insertions l + 1
  | _ :: l => insertions l
  | [] => 0

/-- The delivered removals -/
def removals : List (Crash.Ev Rand) → Nat
  | .remove _ _ true :: l => removals l + 1
  | _ :: l => removals l
  | [] => 0

/-- The history without the losses (newest first): `pending` since the last search or flush, `before` until
then.  `none`: there is a loss at the client, a loss of the cache, or a loss of more than the updates since
the last search or flush. -/
def asUndelivered : (pending before : List (Crash.Ev Rand)) → List (Op Rand) → Option (List (Crash.Ev Rand))
  | pending, before, [] => some (pending ++ before)
  | pending, before, .insert w i r d :: ops => asUndelivered (.insert w i r d :: pending) before ops
  | pending, before, .remove w i d :: ops => asUndelivered (.remove w i d :: pending) before ops
  | pending, before, .search w d :: ops =>
    asUndelivered [] (.search w (if d then .completed else .requestLost) :: (pending ++ before)) ops
  | pending, before, .serverLoss a b 0 :: ops =>
    if a ≤ insertions pending ∧ b ≤ removals pending then asUndelivered (undeliver a b pending) before ops
    else none
  | pending, before, .flush :: ops => asUndelivered [] (pending ++ before) ops
  | _, _, _ :: _ => none

/-- The documents ever inserted for `w` -/
def inserted (ops : List (Op Rand)) (w : Str) : List Index :=
  ops.filterMap (fun o => match o with | .insert v i _ _ => if v = w then some i else none | _ => none)

/-- The documents ever removed for `w` -/
def removed (ops : List (Op Rand)) (w : Str) : List Index :=
  ops.filterMap (fun o => match o with | .remove v i _ => if v = w then some i else none | _ => none)

/-- The cache loses nothing. -/
def NoCacheLoss (ops : List (Op Rand)) : Prop := ∀ a b d, .serverLoss a b (d + 1) ∉ ops

/-! ## What the code does

Each keyword has epochs, and each epoch has numbered slots for insertions and removals. -/

/-- Epochs; numbers of slots in use, as the client knows them; contents of the slots: documents, and punctures
with their numbers; results of past searches. -/
structure Machine (Rand : Type) where
  epoch : Db (Str → Nat)
  insN : Db (Str × Nat → Nat)
  delN : Db (Str × Nat → Nat)
  ins : Db (Str × Nat → Nat → Option (Index × Rand))
  del : Db (Str × Nat → Nat → Option (Nat × Index))
  cache : Db (Str → List Index)

def Machine.init : Machine Rand :=
  ⟨⟨[], fun _ => 0⟩, ⟨[], fun _ => 0⟩, ⟨[], fun _ => 0⟩, ⟨[], fun _ _ => none⟩, ⟨[], fun _ _ => none⟩,
    ⟨[], fun _ => []⟩⟩

/-- Change one value. -/
def set {K V : Type} [DecidableEq K] (f : K → V) (k : K) (v : V) : K → V := fun x => if x = k then v else f x

/-- Change the content of a slot. -/
def setSlot {V : Type} (f : Str × Nat → Nat → Option V) (k : Str × Nat) (p : Nat) (v : Option V) :
    Str × Nat → Nat → Option V := fun x q => if x = k ∧ q = p then v else f x q

/-- The slots after each time one of the given slots is emptied. -/
def empties {V : Type} (k : Str × Nat) :
    (Str × Nat → Nat → Option V) → List Nat → List (Str × Nat → Nat → Option V)
  | _, [] => []
  | f, p :: ps =>
    match f k p with
    | some _ => setSlot f k p none :: empties k (setSlot f k p none) ps
    | none => empties k f ps

/-- What a search reads of the first `n` slots. -/
def fetch {V : Type} (f : Str × Nat → Nat → Option V) (k : Str × Nat) (n : Nat) : List V :=
  (List.range n).filterMap (f k)

/-- The current epoch -/
def Machine.key (M : Machine Rand) (w : Str) : Str × Nat := (w, M.epoch.cur w)

/-- The insertions that a search reads -/
def Machine.insertions (M : Machine Rand) (w : Str) : List (Index × Rand) :=
  fetch M.ins.cur (M.key w) (M.insN.cur (M.key w))

/-- The punctures that a search reads -/
def Machine.punctures (M : Machine Rand) (w : Str) : List (Nat × Index) :=
  fetch M.del.cur (M.key w) (M.delN.cur (M.key w))

/-- What a search returns -/
def Machine.found (M : Machine Rand) (w : Str) : List Index :=
  (M.cache.cur w ++ (M.insertions w).map (·.1)).filter (fun i => !((M.punctures w).map (·.2)).contains i)

/-- The client after a search -/
def Machine.clientSearch (M : Machine Rand) (w : Str) : Machine Rand :=
  let ni := M.insN.cur (M.key w)
  let nd := M.delN.cur (M.key w)
  { M with
    epoch := if 0 < ni ∨ 0 < nd then M.epoch.write (set M.epoch.cur w (M.epoch.cur w + 1)) else M.epoch
    insN := if 0 < ni then M.insN.write (set M.insN.cur (M.key w) 0) else M.insN
    delN := if 0 < nd then M.delN.write (set M.delN.cur (M.key w) 0) else M.delN }

/-- One event.  The punctures of an epoch are numbered 1, 1, 2, 3, … (see C13). -/
def Machine.step (M : Machine Rand) : Op Rand → Machine Rand × List (List Index)
  | .insert w i r d =>
    let n := M.insN.cur (M.key w)
    ({ M with
      insN := M.insN.write (set M.insN.cur (M.key w) (n + 1))
      ins := if d then M.ins.write (setSlot M.ins.cur (M.key w) n (some (i, r))) else M.ins }, [])
  | .remove w i d =>
    let n := M.delN.cur (M.key w)
    ({ M with
      delN := M.delN.write (set M.delN.cur (M.key w) (n + 1))
      del := if d then M.del.write (setSlot M.del.cur (M.key w) n (some (if n = 0 then 1 else n, i)))
        else M.del }, [])
  | .search w d =>
    if d then
      ({ M.clientSearch w with
        ins := writes M.ins (empties (M.key w) M.ins.cur (List.range (M.insN.cur (M.key w))))
        del := writes M.del (empties (M.key w) M.del.cur (List.range (M.delN.cur (M.key w))))
        cache := M.cache.write (set M.cache.cur w (M.found w)) }, [M.found w])
    else (M.clientSearch w, [])
  | .clientLoss a b d =>
    ({ M with epoch := M.epoch.lose a, insN := M.insN.lose b, delN := M.delN.lose d }, [])
  | .serverLoss a b d =>
    ({ M with ins := M.ins.lose a, del := M.del.lose b, cache := M.cache.lose d }, [])
  | .flush => ({ M with ins := Power.flush M.ins, del := Power.flush M.del }, [])

def Machine.run : Machine Rand → List (Op Rand) → List (List Index)
  | _, [] => []
  | M, op :: ops => (M.step op).2 ++ Machine.run (M.step op).1 ops

/-- The key used by a search is a punctured key: the punctures are numbered 1, 2, … and all are there. -/
def Machine.keyOk (M : Machine Rand) : Op Rand → Bool
  | .search w true =>
    (M.insertions w).isEmpty ||
      decide ((M.punctures w).map (·.1) = List.range' 1 (M.delN.cur (M.key w)))
  | _ => true

/-- All searches that have something to decrypt have a punctured key. -/
def Machine.keysOk : Machine Rand → List (Op Rand) → Bool
  | _, [] => true
  | M, op :: ops => M.keyOk op && Machine.keysOk (M.step op).1 ops

def Op.kws : Op Rand → List Str
  | .insert w _ _ _ => [w]
  | .remove w _ _ => [w]
  | .search w _ => [w]
  | _ => []

def Op.docs : Op Rand → List Index
  | .insert _ i _ _ => [i]
  | .remove _ i _ => [i]
  | _ => []

end Spec

/-- No collision on the points used by a history. -/
def NoCollisionFor (c : Crypto PK KS CT Rand) (ops : List (Op Rand)) : Prop :=
  NoCollision c (ops.flatMap Spec.Op.kws) (ops.flatMap Spec.Op.docs) ops.length

end Verif.Janus.Power
