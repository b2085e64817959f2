import Verif.Janus.Model

/-!
# Searches of the Janus server for requests that no client made

`JanusServer::search` (`/repo/lib/janus/janus_server.cpp` L95-161) for any request and any contents of the databases, with the state that
it leaves behind when it fails. A failed search of a Diana server has removed what it found before the exception
(`/repo/lib/include/sse/schemes/diana/diana_server.hpp` L83-93, L172-182).
-/

namespace Verif.Janus

variable {PK KS CT Rand V : Type}

/-- The leaves that a search of a Diana server handles before its exception: the first `k` of those that can be evaluated. The library
may look at the whole range first (`k = 0`). -/
def handled (c : Diana.Crypto Str V) (ck : c.CK) (k : Nat) : List (Nat × Diana.Leaf) :=
  ((((List.range (c.maxLeaf ck + 1)).map (fun i => (c.ceval ck i).map (fun l => (i, l)))).takeWhile Option.isSome).filterMap id).take k

/-- `JanusServer::search` (janus_server.cpp L95-161) with the state of the server after it, also when it fails; an exception comes after
`k` leaves. -/
def searchState (c : Crypto PK KS CT Rand) (k : Nat) (srv : Server KS CT) (req : SearchReq c) :
    Except Fault (List Index) × Server KS CT :=
  match Diana.search c.ins srv.insEdb req.ins true with
  | none => (.error .exception, { srv with insEdb := (Diana.searchLoop c.ins true srv.insEdb (handled c.ins req.ins.rcprf k)).2 })
  | some (insertions, insEdb) =>
    match Diana.search c.del srv.delEdb req.del true with
    | none => (.error .exception,
        { srv with
          insEdb := insEdb
          delEdb := (Diana.searchLoop c.del true srv.delEdb (handled c.del req.del.rcprf k)).2 })
    | some (keyShares, delEdb) =>
      match readCache srv.cache req.kwToken with
      | .error e => (.error e, { srv with insEdb := insEdb, delEdb := delEdb })
      | .ok cached =>
        let filtered := filterCache (keyShares.map c.ksTag) cached
        let fresh := decryptAll c (req.firstKeyShare :: keyShares) insertions
        (.ok (filtered.map (·.1) ++ fresh.map (·.1)),
          { insEdb := insEdb, delEdb := delEdb, cache := writeCache srv.cache req.kwToken (filtered ++ fresh) })

namespace Spec

/-- The key of a request can be evaluated at all of its leaves, or no result is expected. -/
def usable (c : Diana.Crypto Str V) (r : Diana.SearchReq c) : Prop :=
  r.addCount = 0 ∨ ∀ i ≤ c.maxLeaf r.rcprf, c.ceval r.rcprf i ≠ none

/-- `t` is the update token of one of the first `k` leaves of a key, and there is none before it that cannot be evaluated. -/
def reached (c : Diana.Crypto Str V) (ck : c.CK) (k : Nat) (t : Diana.Token) : Prop :=
  ∃ i < k, i ≤ c.maxLeaf ck ∧ (∀ j ≤ i, c.ceval ck j ≠ none) ∧ (c.ceval ck i).map c.token = some t

/-- A database from which some entries were removed, and nothing else -/
def without (edb edb' : Diana.Edb V) (gone : Diana.Token → Prop) : Prop :=
  ∀ t, (gone t → edb' t = none) ∧ (¬ gone t → edb' t = edb t)

/-- The number of bytes of a cache entry -/
def cacheSize (srv : Server KS CT) (k : Vector UInt8 16) : Nat := ((srv.cache k).getD []).length

end Spec

end Verif.Janus
