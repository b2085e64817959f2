import Verif.Runner.Restart

/-!
# Specification of clients and services with restarts

No reference to files, keys, messages or counters: a log of the insertions requested while the client was running,
each with the information whether the service stored it.
-/

namespace Verif.Runner.RestartSpec

variable {Kw : Type} [DecidableEq Kw]

/-- A requested insertion, and whether it was delivered -/
abbrev Log (Kw : Type) := List (Kw × Index × Bool)

/-- The entries of the log for a keyword, oldest first -/
def Log.entries (L : Log Kw) (w : Kw) : List (Index × Bool) := (L.filter (fun e => e.1 = w)).map (·.2)

/-- The documents delivered for a keyword, oldest first -/
def Log.delivered (L : Log Kw) (w : Kw) : List Index := ((L.entries w).filter (·.2)).map (·.1)

/-- A world: are client and service running, and the log -/
structure World (Kw : Type) where
  client : Bool
  server : Bool
  log : Log Kw

/-- The effect of an event -/
def World.next (s : World Kw) : Event Kw → World Kw
  | .insert w i => if s.client then { s with log := s.log ++ [(w, i, s.server)] } else s
  | .cut w i stored ck sk =>
    if s.client then ⟨s.client && !ck, s.server && !sk, s.log ++ [(w, i, stored && s.server)]⟩ else s
  | .search _ => s
  | .startClient => { s with client := true }
  | .stopClient => { s with client := false }
  | .startServer => { s with server := true }
  | .stopServer => { s with server := false }

/-- The worlds in which the events happen -/
def worlds (s : World Kw) : List (Event Kw) → List (World Kw × Event Kw)
  | [] => []
  | e :: es => (s, e) :: worlds (s.next e) es

/-- The last world -/
def final (s : World Kw) (es : List (Event Kw)) : World Kw := es.foldl World.next s

/-- Everything is running, nothing has been inserted. -/
def World.init : World Kw := ⟨true, true, []⟩

/-- What an event of Sophos may result in: a search when both are running gives the delivered documents, once each, in
some order. -/
def SophosOk (s : World Kw) (e : Event Kw) (o : Option (List Index)) : Prop :=
  match e, o with
  | .search w, some res => s.client = true ∧ s.server = true ∧ res.Perm (s.log.delivered w)
  | .search _, none => ¬ (s.client = true ∧ s.server = true)
  | _, o => o = none

/-- What an event of Diana may result in: the client does not call the service for a keyword never inserted; an
asynchronous search gives the delivered documents, in some order; a synchronous search gives the documents in
order with document 0 in place of those whose update was lost (see C09). -/
def DianaOk (async : Bool) (s : World Kw) (e : Event Kw) (o : Option (List Index)) : Prop :=
  match e, o with
  | .search w, some res =>
    s.client = true ∧ (s.server = true ∨ s.log.entries w = []) ∧
      if async then res.Perm (s.log.delivered w)
      else res = (s.log.entries w).map (fun e => if e.2 then e.1 else 0)
  | .search w, none => ¬ (s.client = true ∧ (s.server = true ∨ s.log.entries w = []))
  | _, o => o = none

/-- The insertions of a log, without the information on delivery -/
def Log.requests (L : Log Kw) : List (Kw × Index) := L.map (fun e => (e.1, e.2.1))

end Verif.Runner.RestartSpec
