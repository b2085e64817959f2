import Verif.Janus.FaultsSpec
import Verif.Janus.Mixed
import Verif.Diana.Kinds

/-!
# Janus with sequential and parallel searches when calls of RocksDB fail

`Janus/Faults.lean` has the sequential search only.  Here every search is made in one of the three ways
of `Janus/Mixed.lean`, and the same calls may fail.  A parallel search
(`/repo/lib/janus/janus_server.cpp` L163-292) makes the calls for the key shares in several threads, in
any order; it never deletes the insertions it has read (L282-283), so `SearchF.keepIns` has no meaning
for it.
-/

namespace Verif.Janus.Faults.Mixed

open Verif
open Verif.Janus.Mixed (Mode)

variable {PK KS CT Rand : Type}

/-- The operations of a user, with the fate of the calls made for them. -/
inductive Op (Rand : Type) where
  | insert (w : Str) (i : Index) (r : Rand) (f : InsertF)
  | remove (w : Str) (i : Index) (f : RemoveF)
  | search (w : Str) (mode : Mode) (f : SearchF)

def Op.ok : Op Rand → Bool
  | .search _ mode _ => mode.ok
  | _ => true

/-- The same operation with a sequential search: the insertions are not deleted if the search was a
parallel one. -/
def Op.plain : Op Rand → Faults.Op Rand
  | .insert w i r f => .insert w i r f
  | .remove w i f => .remove w i f
  | .search w .sequential f => .search w f
  | .search w _ f => .search w { f with keepIns := fun _ => true }

/-- What `search_parallel` does once the key shares were retrieved (janus_server.cpp L193-292), see
`Janus.afterShares`. -/
def afterShares (c : Crypto PK KS CT Rand) (srv : Server KS CT) (req : SearchReq c) (f : SearchF)
    (keyShares : List KS) : Except Fault (List Index × List Index × Server KS CT) := do
  let removedTags := keyShares.map c.ksTag
  let cached ← if f.cacheGet then readCache srv.cache req.kwToken else .ok []
  let filtered := filterCache removedTags cached
  let (insertions, insEdb) ← ofOption
    (Diana.Kinds.search c.ins (fun p => ⟨f.badIns p, f.keepIns p⟩) srv.insEdb req.ins false)
  let fresh := decryptAll c (req.firstKeyShare :: keyShares) insertions
  return (filtered.map (·.1), fresh.map (·.1),
    { insEdb := insEdb, delEdb := srv.delEdb,
      cache := if f.cachePut then writeCache srv.cache req.kwToken (fresh ++ filtered)
        else srv.cache })

/-- A complete run of `JanusServer::search_parallel` (janus_server.cpp L163-292), see
`Janus.SearchParallelRun`. -/
def SearchParallelRun (c : Crypto PK KS CT Rand) (srv : Server KS CT) (req : SearchReq c) (f : SearchF)
    (threads : UInt8) (reported listed : List Index) (srv' : Server KS CT) : Prop :=
  ∃ trace delEdb cached fresh,
    Diana.Kinds.Parallel c.del (fun p => ⟨f.badDel p, f.keepDel p⟩) srv.delEdb req.del threads true
      trace delEdb ∧
    afterShares c { srv with delEdb := delEdb } req f (Diana.listResult threads trace) =
      .ok (cached, fresh, srv') ∧
    reported = cached ++ fresh ∧ listed = fresh ++ cached

/-- A search by the server in the given manner may return `res` and leave the server `srv'`. -/
def ServerSearch (c : Crypto PK KS CT Rand) (srv : Server KS CT) (req : SearchReq c) (f : SearchF)
    (mode : Mode) (res : List Index) (srv' : Server KS CT) : Prop :=
  match mode with
  | .sequential => Faults.search c srv req f = .ok (res, srv')
  | .parallelList t => ∃ reported, SearchParallelRun c srv req f t reported res srv'
  | .parallelCallback t => ∃ listed, SearchParallelRun c srv req f t res listed srv'

/-- One operation may lead from `s` to `s'` with the observation `out`. -/
inductive Step (c : Crypto PK KS CT Rand) (s : Sys KS CT) : Op Rand → Sys KS CT → Out → Prop
  | insert (w : Str) (i : Index) (r : Rand) (f : InsertF) (s' : Sys KS CT) (out : Out) :
    Faults.step c s (.insert w i r f) = .ok (s', out) → Step c s (.insert w i r f) s' out
  | remove (w : Str) (i : Index) (f : RemoveF) (s' : Sys KS CT) (out : Out) :
    Faults.step c s (.remove w i f) = .ok (s', out) → Step c s (.remove w i f) s' out
  | search (w : Str) (mode : Mode) (f : SearchF) (res : List Index) (srv' : Server KS CT) :
    ServerSearch c s.server (searchRequest c s.client w f).1 f mode res srv' →
    Step c s (.search w mode f) ⟨(searchRequest c s.client w f).2, srv'⟩ (.results res)

/-- A history may lead from the first to the second state, with the given observations. -/
inductive Run (c : Crypto PK KS CT Rand) :
    Sys KS CT → List (Op Rand) → Sys KS CT → List Out → Prop
  | nil (s : Sys KS CT) : Run c s [] s []
  | cons {s s' s'' : Sys KS CT} {op : Op Rand} {ops : List (Op Rand)} {out : Out} {outs : List Out} :
    Step c s op s' out → Run c s' ops s'' outs → Run c s (op :: ops) s'' (out :: outs)

/-- The same observation up to the order of the results. -/
def Same : Out → Out → Prop
  | .acked, .acked => True
  | .error, .error => True
  | .results l, .results l' => l.Perm l'
  | _, _ => False

namespace Spec

/-- `Faults.Spec.Honest` for the plain operations, up to the order of the results. -/
def Honest : Janus.Spec.Store → List (Op Rand) → List Out → Prop
  | _, [], [] => True
  | S, .insert w i _ _ :: ops, .acked :: outs => Honest (S.set w (S w ++ [i])) ops outs
  | S, .insert _ _ _ _ :: ops, .error :: outs => Honest S ops outs
  | S, .remove w i _ :: ops, .acked :: outs => Honest (S.set w ((S w).filter (· ≠ i))) ops outs
  | S, .remove _ _ _ :: ops, .error :: outs => Honest S ops outs
  | S, .search w _ _ :: ops, .results l :: outs => l.Perm (S w) ∧ Honest S ops outs
  | _, _, _ => False

/-- The failures that the code tolerates: as `Faults.Spec.tolerable`, but a parallel search does not
delete the insertions it has read, so the `Put` of its search counter must not fail. -/
def tolerable : Op Rand → Prop
  | .insert _ _ _ f => f.scGet = true ∧ f.getOk = true ∧ f.srvPut = true
  | .remove _ _ f => f.scGet = true ∧ f.getOk = true ∧ f.srvPut = true ∧
      f.putRes ≠ .storedButFailed
  | .search _ mode f => f.scGet = true ∧ f.insGet = true ∧ f.delGet = true ∧ f.cacheGet = true ∧
      f.cachePut = true ∧ (∀ p, f.badIns p = false) ∧ (∀ p, f.badDel p = false) ∧
      (f.scPut = true ∨ (mode = .sequential ∧ f.insDel = true ∧ f.delDel = true ∧
        (∀ p, f.keepIns p = false) ∧ ∀ p, f.keepDel p = false))

/-- The operation without the failures, if it is one that counts. -/
def counted : Op Rand → List (Janus.Op Rand)
  | .insert w i r f => if f.putRes = .ok then [.insert w i r] else []
  | .remove w i f => if f.putRes = .ok then [.remove w i] else []
  | .search w _ _ => [.search w]

end Spec

end Verif.Janus.Faults.Mixed
