import Verif.Janus.Model
import Verif.Diana.Spec

/-! # Specification of Janus: a multimap with removal -/

namespace Verif.Janus

open Verif

variable {PK KS CT Rand : Type}

namespace Spec

/-- Documents under each keyword, oldest first. -/
abbrev Store := Str → List Index

/-- Replace the list of one keyword. -/
def Store.set (S : Store) (w : Str) (l : List Index) : Store := fun v => if v = w then l else S v

/-- The abstract execution: insertion appends, removal removes all copies of the document, search
returns the current list. -/
def run : Store → List (Op Rand) → List (List Index)
  | _, [] => []
  | S, .insert w i _ :: ops => run (S.set w (S w ++ [i])) ops
  | S, .remove w i :: ops => run (S.set w ((S w).filter (· ≠ i))) ops
  | S, .search w :: ops => S w :: run S ops

def empty : Store := fun _ => []

/-- What happened to a keyword since its last search: documents inserted, documents removed. -/
structure Pending where
  inserted : List Index
  removed : List Index
  deriving DecidableEq

/-- Histories in which, between two searches of a keyword, no document is re-inserted after its
removal, and there is at most one removal unless nothing was inserted. -/
def admissible : (Str → Pending) → List (Op Rand) → Bool
  | _, [] => true
  | P, .insert w i _ :: ops =>
    (!(P w).removed.contains i) &&
      admissible (fun v => if v = w then ⟨(P w).inserted ++ [i], (P w).removed⟩ else P v) ops
  | P, .remove w i :: ops =>
    admissible (fun v => if v = w then ⟨(P w).inserted, (P w).removed ++ [i]⟩ else P v) ops
  | P, .search w :: ops =>
    ((P w).inserted.isEmpty || decide ((P w).removed.length ≤ 1)) &&
      admissible (fun v => if v = w then ⟨[], []⟩ else P v) ops

/-- Number of removals of `w` since its last search. -/
def removalsSince (w : Str) : Nat → List (Op Rand) → Nat
  | n, [] => n
  | n, .insert _ _ _ :: ops => removalsSince w n ops
  | n, .remove v _ :: ops => removalsSince w (if v = w then n + 1 else n) ops
  | n, .search v :: ops => removalsSince w (if v = w then 0 else n) ops

/-- The keyword of an operation. -/
def Op.kw : Op Rand → Str
  | .insert w _ _ => w
  | .remove w _ => w
  | .search w => w

/-- The documents of an operation. -/
def Op.docs : Op Rand → List Index
  | .insert _ i _ => [i]
  | .remove _ i => [i]
  | .search _ => []

/-- Change of the epoch of a keyword -/
def setEpoch (E : Str → Nat × Bool) (w : Str) (e : Nat × Bool) : Str → Nat × Bool := fun v => if v = w then e else E v

/-- The meta keywords of the insertions of a history, one after the other. `E` is the number of the epoch of each keyword, and whether it was
updated in this epoch; a search of an updated keyword begins a new epoch. -/
def insertMetas : (Str → Nat × Bool) → List (Op Rand) → List Str
  | _, [] => []
  | E, .insert w _ _ :: ops => (hexFixed 8 (E w).1 ++ w) :: insertMetas (setEpoch E w ((E w).1, true)) ops
  | E, .remove w _ :: ops => insertMetas (setEpoch E w ((E w).1, true)) ops
  | E, .search w :: ops => insertMetas (setEpoch E w ((E w).1 + if (E w).2 then 1 else 0, false)) ops

/-- The meta keywords of the removals of a history -/
def removeMetas : (Str → Nat × Bool) → List (Op Rand) → List Str
  | _, [] => []
  | E, .insert w _ _ :: ops => removeMetas (setEpoch E w ((E w).1, true)) ops
  | E, .remove w _ :: ops => (hexFixed 8 (E w).1 ++ w) :: removeMetas (setEpoch E w ((E w).1, true)) ops
  | E, .search w :: ops => removeMetas (setEpoch E w ((E w).1 + if (E w).2 then 1 else 0, false)) ops

/-- The documents inserted or removed for a keyword -/
def docsOf (w : Str) (ops : List (Op Rand)) : List Index := (ops.filter (fun op => Op.kw op = w)).flatMap Op.docs

end Spec

/-! ## Collision-freeness on the points used by a history -/

/-- The meta keywords of the keywords `K` for the epochs up to `n`. -/
def metas (K : List Str) (n : Nat) : List Str :=
  K.flatMap (fun w => (List.range (n + 1)).map (fun e => hexFixed 8 e ++ w))

/-- The positions used under each meta keyword by `n` operations on the keywords `K`. -/
def bound (K : List Str) (n : Nat) (mk : Str) : Nat := if mk ∈ metas K n then n else 0

/-- No collision of update tokens, keyword tokens and tags for `n` operations on the keywords `K`
and documents `D`. -/
structure NoCollision (c : Crypto PK KS CT Rand) (K : List Str) (D : List Index) (n : Nat) :
    Prop where
  ins : Diana.NoCollision c.ins (bound K n)
  del : Diana.NoCollision c.del (bound K n)
  kw : ∀ v ∈ K, ∀ w ∈ K, c.kwToken v = c.kwToken w → v = w
  tags : ∀ w ∈ K, ∀ i ∈ D, ∀ j ∈ D, docTag c w i = docTag c w j → i = j

/-- No collision on the keywords, documents and number of operations of a history; this allows for more points than the history uses. -/
def NoCollisionFor (c : Crypto PK KS CT Rand) (ops : List (Op Rand)) : Prop :=
  NoCollision c (ops.map Spec.Op.kw) (ops.flatMap Spec.Op.docs) ops.length

/-- No collision on the points used by a history: as many positions under a meta keyword as there are insertions, respectively removals, and
the tags of the documents of a keyword. -/
structure NoCollisionAt (c : Crypto PK KS CT Rand) (ops : List (Op Rand)) : Prop where
  ins : Diana.NoCollision c.ins (fun mk => (Spec.insertMetas (fun _ => (0, false)) ops).count mk)
  del : Diana.NoCollision c.del (fun mk => (Spec.removeMetas (fun _ => (0, false)) ops).count mk)
  kw : ∀ v ∈ ops.map Spec.Op.kw, ∀ w ∈ ops.map Spec.Op.kw, c.kwToken v = c.kwToken w → v = w
  tags : ∀ w, ∀ i ∈ Spec.docsOf w ops, ∀ j ∈ Spec.docsOf w ops, docTag c w i = docTag c w j → i = j

/-- The keys shares of a key punctured on the tags `ts`, numbered as the puncturable encryption
prescribes: 1, 2, 3, … -/
def properShares (c : Crypto PK KS CT Rand) (pk : PK) (ts : List Tag) : List KS :=
  c.initialKeyshare pk (UInt32.ofNat ts.length) ::
    ts.zipIdx.map (fun e => c.incPuncture pk (UInt32.ofNat (e.2 + 1)) e.1)

/-- The contract of puncturable encryption: with a properly punctured key, exactly the ciphertexts
whose tag was not punctured can be decrypted. -/
structure PunctLaws (c : Crypto PK KS CT Rand) : Prop where
  decrypts : ∀ pk ts r i t, ts.length < 2 ^ 32 → t ∉ ts →
    c.decrypt (properShares c pk ts) (c.encrypt pk r i t) = some i
  refuses : ∀ pk ts r i t, ts.length < 2 ^ 32 → t ∈ ts →
    c.decrypt (properShares c pk ts) (c.encrypt pk r i t) = none

end Verif.Janus
