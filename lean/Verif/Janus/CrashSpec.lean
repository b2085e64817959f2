import Verif.Janus.Crash
import Verif.Janus.Spec

/-!
# What Janus does when messages are lost and searches interrupted

The abstract state of a keyword is the list of its documents and the list it had at its last completed
search.
-/

namespace Verif.Janus.Crash

open Verif

variable {PK KS CT Rand : Type}

namespace Spec

/-- The documents of a keyword now, and when its last completed search was answered. -/
structure Docs where
  now : List Index
  base : List Index

abbrev Store := Str → Docs

def Store.set (S : Store) (w : Str) (d : Docs) : Store := fun v => if v = w then d else S v

def empty : Store := fun _ => ⟨[], []⟩

/-- The documents when updates not delivered do not count and interrupted searches change nothing:
what a user expects. -/
def wanted : Store → List (Ev Rand) → List (List Index)
  | _, [] => []
  | S, .insert w i _ d :: evs =>
    wanted (S.set w ⟨if d then (S w).now ++ [i] else (S w).now, []⟩) evs
  | S, .remove w i d :: evs =>
    wanted (S.set w ⟨if d then (S w).now.filter (· ≠ i) else (S w).now, []⟩) evs
  | S, .search w .completed :: evs => (S w).now :: wanted S evs
  | S, .search w .repeated :: evs => (S w).now :: (S w).now :: wanted S evs
  | S, .search _ (.clientStopped _) :: evs => wanted S evs
  | S, .search _ .requestLost :: evs => wanted S evs
  | S, .search _ (.serverStopped _) :: evs => wanted S evs

/-- What happens: an interrupted search takes the keyword back to its last completed search. -/
def run : Store → List (Ev Rand) → List (List Index)
  | _, [] => []
  | S, .insert w i _ d :: evs =>
    run (S.set w ⟨if d then (S w).now ++ [i] else (S w).now, (S w).base⟩) evs
  | S, .remove w i d :: evs =>
    run (S.set w ⟨if d then (S w).now.filter (· ≠ i) else (S w).now, (S w).base⟩) evs
  | S, .search w .completed :: evs => (S w).now :: run (S.set w ⟨(S w).now, (S w).now⟩) evs
  | S, .search w .repeated :: evs =>
    (S w).now :: (S w).now :: run (S.set w ⟨(S w).now, (S w).now⟩) evs
  | S, .search _ (.clientStopped 0) :: evs => run S evs
  | S, .search w (.clientStopped (_ + 1)) :: evs => run (S.set w ⟨(S w).base, (S w).base⟩) evs
  | S, .search w .requestLost :: evs => run (S.set w ⟨(S w).base, (S w).base⟩) evs
  | S, .search w (.serverStopped _) :: evs => run (S.set w ⟨(S w).base, (S w).base⟩) evs

/-- What happened to a keyword since its last search: documents inserted and removed, removals that
were not delivered. -/
structure Pending where
  inserted : List Index
  removed : List Index
  lostRemovals : Nat

/-- The search decrypts entries with a properly punctured key (see C12 and C13): nothing was inserted, or
there was at most one removal and none was lost. -/
def Pending.ok (p : Pending) : Bool :=
  p.inserted.isEmpty || (decide (p.removed.length ≤ 1) && decide (p.lostRemovals = 0))

/-- The fate of the search makes the server answer. -/
def Fate.answers : Fate → Bool
  | .completed => true
  | .repeated => true
  | _ => false

/-- The search has no effect at all. -/
def Fate.nothing : Fate → Bool
  | .clientStopped 0 => true
  | _ => false

/-- Histories for which C12 would hold without interruptions: between two searches of a keyword, no
document is inserted again after its removal, and searches that are answered have a proper key. -/
def admissible : (Str → Pending) → List (Ev Rand) → Bool
  | _, [] => true
  | P, .insert w i _ d :: evs =>
    (!d || !(P w).removed.contains i) &&
      admissible (fun v => if v = w then
        ⟨if d then (P w).inserted ++ [i] else (P w).inserted, (P w).removed, (P w).lostRemovals⟩
        else P v) evs
  | P, .remove w i d :: evs =>
    admissible (fun v => if v = w then
      ⟨(P w).inserted, if d then (P w).removed ++ [i] else (P w).removed,
        if d then (P w).lostRemovals else (P w).lostRemovals + 1⟩
      else P v) evs
  | P, .search w f :: evs =>
    (!Fate.answers f || (P w).ok) &&
      admissible (fun v => if v = w ∧ Fate.nothing f = false then ⟨[], [], 0⟩ else P v) evs

/-- No search is interrupted once it has started. -/
def uninterrupted : List (Ev Rand) → Bool
  | [] => true
  | .search _ f :: evs => (Fate.answers f || Fate.nothing f) && uninterrupted evs
  | _ :: evs => uninterrupted evs

def Ev.kw : Ev Rand → Str
  | .insert w _ _ _ => w
  | .remove w _ _ => w
  | .search w _ => w

def Ev.docs : Ev Rand → List Index
  | .insert _ i _ _ => [i]
  | .remove _ i _ => [i]
  | .search _ _ => []

end Spec

/-- No collision on the points used by a history. -/
def NoCollisionFor (c : Crypto PK KS CT Rand) (evs : List (Ev Rand)) : Prop :=
  NoCollision c (evs.map Spec.Ev.kw) (evs.flatMap Spec.Ev.docs) evs.length

end Verif.Janus.Crash
