import Verif.Common.XorMask
import Verif.Sophos.Model

/-!
# Specification of Sophos

Written over plain histories (lists of insertions), with no reference to counters, tokens or
the encrypted database.
-/

namespace Verif.Sophos.Spec

open Verif

variable {Kw : Type} [DecidableEq Kw]

/-- The documents inserted under `w`, oldest first, with multiplicity. -/
def docs (w : Kw) (H : List (Kw × Index)) : List Index :=
  (H.filter (fun e => e.1 = w)).map (·.2)

/-- What a search for `w` must return: newest first. -/
def expected (w : Kw) (H : List (Kw × Index)) : List Index := (docs w H).reverse

/-- What a search must return when only the insertions at positions `k ∈ D` of the history have
reached the server. -/
def expectedDelivered (w : Kw) (H : List (Kw × Index)) (D : List Nat) : List Index :=
  ((H.zipIdx.filter (fun e => e.1.1 = w ∧ e.2 ∈ D)).map (fun e => e.1.2)).reverse

/-- Abstract execution of a history of operations: a multimap from keywords to documents. -/
def run : List (Kw × Index) → List (Op Kw) → List (List Index)
  | _, [] => []
  | H, .insert w i :: ops => run (H ++ [(w, i)]) ops
  | H, .search w :: ops => expected w H :: run H ops

/-- The insertions of a list of operations. -/
def insertions : List (Op Kw) → List (Kw × Index)
  | [] => []
  | .insert w i :: ops => (w, i) :: insertions ops
  | .search _ :: ops => insertions ops

end Verif.Sophos.Spec

namespace Verif.Sophos

variable {Kw Seed ST DK : Type} [DecidableEq Kw]

/-- The update token the cryptography assigns to the `a`-th insertion of `w`. -/
def updateToken (c : Crypto Kw Seed ST DK) (w : Kw) (a : Nat) : Token :=
  c.prf (c.dkey (c.hash w)) (c.inv^[a] (c.gen (c.hash w))) false

/-- The pseudorandom function has no collision on the points used by history `H`: the
`a`-th insertion of `w` and the `b`-th insertion of `v` have different tokens.  (Never assumed for
points which are not used: a 16-byte output cannot be globally injective.) -/
def NoCollision (c : Crypto Kw Seed ST DK) (H : List (Kw × Index)) : Prop :=
  ∀ w a v b, a < (Spec.docs w H).length → b < (Spec.docs v H).length →
    updateToken c w a = updateToken c v b → w = v ∧ a = b

/-- Fewer than 2^32 insertions per keyword. -/
def Fits (H : List (Kw × Index)) : Prop := ∀ w : Kw, (Spec.docs w H).length < 2 ^ 32

end Verif.Sophos
