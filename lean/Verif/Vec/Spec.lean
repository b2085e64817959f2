import Verif.Vec.Model

/-!
# Specification of the on-disk vector
-/

namespace Verif.Vec.Spec

variable {sz : Nat}

/-- The values that the vector has to contain: those pushed before the first `commit`. Without a
scheduler, asynchronous pushes are rejected. -/
def pushed (sched : Bool) : List (Op sz) → List (Val sz)
  | [] => []
  | .commit :: _ => []
  | .push x :: ops => x :: pushed sched ops
  | .pushFail _ _ :: ops => pushed sched ops
  | .asyncPush x :: ops => if sched then x :: pushed sched ops else pushed sched ops
  | .reserve _ :: ops => pushed sched ops
  | .complete _ :: ops => pushed sched ops
  | .setDirect _ :: ops => pushed sched ops

/-- The uses of the vector that preserve its content: only one kind of push; no failed write; the access
mode is not changed between synchronous pushes; no asynchronous push after `commit`. The first flag
is true for synchronous pushes, the second one when the vector is committed. -/
def Clean (sync : Bool) : Bool → List (Op sz) → Prop
  | _, [] => True
  | _, .commit :: ops => Clean sync true ops
  | c, .push _ :: ops => (sync = true ∨ c = true) ∧ Clean sync c ops
  | c, .pushFail _ _ :: ops => c = true ∧ Clean sync c ops
  | c, .asyncPush _ :: ops => (sync = false ∧ c = false) ∧ Clean sync c ops
  | c, .reserve _ :: ops => Clean sync c ops
  | c, .complete _ :: ops => Clean sync c ops
  | c, .setDirect _ :: ops => (sync = false ∨ c = true) ∧ Clean sync c ops

instance decClean (sync : Bool) : (c : Bool) → (ops : List (Op sz)) → Decidable (Clean sync c ops)
  | _, [] => isTrue trivial
  | _, .commit :: ops => decClean sync true ops
  | c, .push _ :: ops => @instDecidableAnd _ _ _ (decClean sync c ops)
  | c, .pushFail _ _ :: ops => @instDecidableAnd _ _ _ (decClean sync c ops)
  | c, .asyncPush _ :: ops => @instDecidableAnd _ _ _ (decClean sync c ops)
  | c, .reserve _ :: ops => decClean sync c ops
  | c, .complete _ :: ops => decClean sync c ops
  | c, .setDirect _ :: ops => @instDecidableAnd _ _ _ (decClean sync c ops)

/-- Whether `commit` was called -/
def hasCommit : List (Op sz) → Bool
  | [] => false
  | .commit :: _ => true
  | _ :: ops => hasCommit ops

/-- Whether space was reserved -/
def hasReserve : List (Op sz) → Bool
  | [] => false
  | .reserve _ :: _ => true
  | _ :: ops => hasReserve ops

end Verif.Vec.Spec
