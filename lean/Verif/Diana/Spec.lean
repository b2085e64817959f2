import Verif.Diana.Model

/-! # Specification of Diana: a multimap from keywords to lists of values -/

namespace Verif.Diana

open Verif

namespace Spec

variable {Kw V : Type} [DecidableEq Kw]

/-- What is stored under each keyword, oldest first. -/
abbrev Store (Kw V : Type) := Kw → List V

/-- Replace the list of one keyword. -/
def Store.set (S : Store Kw V) (w : Kw) (l : List V) : Store Kw V :=
  fun v => if v = w then l else S v

/-- Abstract execution: search results in order. -/
def run : Store Kw V → List (Op Kw V) → List (List V)
  | _, [] => []
  | S, .insert w i :: ops => run (S.set w (S w ++ [i])) ops
  | S, .lost _ _ :: ops => run S ops
  | S, .search w :: ops => S w :: run S ops
  | S, .searchDelete w :: ops => S w :: run (S.set w []) ops
  | S, .searchForget w :: ops => S w :: run (S.set w []) ops

/-- Nothing stored. -/
def empty : Store Kw V := fun _ => []

/-- Number of insertions requested for `w` in a history (delivered or not). -/
def insertions (w : Kw) : List (Op Kw V) → Nat
  | [] => 0
  | .insert v _ :: ops => (if v = w then 1 else 0) + insertions w ops
  | .lost v _ :: ops => (if v = w then 1 else 0) + insertions w ops
  | .search _ :: ops => insertions w ops
  | .searchDelete _ :: ops => insertions w ops
  | .searchForget _ :: ops => insertions w ops

/-- The values inserted under `w` by a history without deletion. -/
def docs (w : Kw) (H : List (Kw × V)) : List V := (H.filter (fun e => e.1 = w)).map (·.2)

end Spec

variable {Kw V : Type} [DecidableEq Kw]

/-- The update token of the insertion of `w` numbered `a`. -/
def updateToken (c : Crypto Kw V) (w : Kw) (a : Nat) : Token :=
  c.token (c.eval (c.root (c.hash w)) a)

/-- No collision among the tokens numbered below `B`. -/
def NoCollision (c : Crypto Kw V) (B : Kw → Nat) : Prop :=
  ∀ w a v b, a < B w → b < B v → updateToken c w a = updateToken c v b → w = v ∧ a = b

end Verif.Diana
