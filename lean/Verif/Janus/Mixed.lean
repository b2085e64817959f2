import Verif.Janus.Model

/-!
# Histories of Janus with sequential and parallel searches

The server offers three ways to search, which the user may choose freely for each search: `search`
(`/repo/lib/janus/janus_server.cpp` L95-161), `search_parallel` returning a list (L163-182), and
`search_parallel` with a callback (L184-292).  The three leave different databases behind: only the
first deletes the insertions it has read (L97-98 against L284-285), and the parallel ones store the new
results before the old ones in the cache (L224, L288-291), the sequential one after them (L132-157).
-/

namespace Verif.Janus.Mixed

open Verif

variable {PK KS CT Rand : Type}

/-- How a search is made; the parallel variants have a number of threads. -/
inductive Mode where
  | sequential
  | parallelList (threads : UInt8)
  | parallelCallback (threads : UInt8)
  deriving DecidableEq

/-- The thread count is not 0 (an `assert` of the code, diana_server.hpp L191, L261). -/
def Mode.ok : Mode → Bool
  | .sequential => true
  | .parallelList t => decide (t ≠ 0)
  | .parallelCallback t => decide (t ≠ 0)

/-- The operations of a user. -/
inductive Op (Rand : Type) where
  | insert (w : Str) (i : Index) (r : Rand)
  | remove (w : Str) (i : Index)
  | search (w : Str) (mode : Mode)

/-- The operation without the manner of searching. -/
def Op.plain : Op Rand → Janus.Op Rand
  | .insert w i r => .insert w i r
  | .remove w i => .remove w i
  | .search w _ => .search w

def Op.ok : Op Rand → Bool
  | .search _ mode => mode.ok
  | _ => true

/-- A search by the server in the given manner may return `res` and leave the server `srv'`.  The
schedule of the threads decides. -/
def ServerSearch (c : Crypto PK KS CT Rand) (srv : Server KS CT) (req : SearchReq c) (mode : Mode)
    (res : List Index) (srv' : Server KS CT) : Prop :=
  match mode with
  | .sequential => Janus.search c srv req = .ok (res, srv')
  | .parallelList t => ∃ reported, SearchParallelRun c srv req t reported res srv'
  | .parallelCallback t => ∃ listed, SearchParallelRun c srv req t res listed srv'

/-- One operation may lead from `s` to `s'` with the result `out`. -/
inductive Step (c : Crypto PK KS CT Rand) (s : Sys KS CT) :
    Op Rand → Sys KS CT → Option (List Index) → Prop
  | insert (w : Str) (i : Index) (r : Rand) :
    Step c s (.insert w i r)
      ⟨(insertionRequest c s.client w i r).2,
        Janus.insert s.server (insertionRequest c s.client w i r).1⟩ none
  | remove (w : Str) (i : Index) :
    Step c s (.remove w i)
      ⟨(removalRequest c s.client w i).2,
        Janus.remove s.server (removalRequest c s.client w i).1⟩ none
  | search (w : Str) (mode : Mode) (res : List Index) (srv' : Server KS CT) :
    ServerSearch c s.server (searchRequest c s.client w).1 mode res srv' →
    Step c s (.search w mode) ⟨(searchRequest c s.client w).2, srv'⟩ (some res)

/-- A history may lead from the first to the second state, with the given results of its searches. -/
inductive Run (c : Crypto PK KS CT Rand) :
    Sys KS CT → List (Op Rand) → Sys KS CT → List (List Index) → Prop
  | nil (s : Sys KS CT) : Run c s [] s []
  | cons {s s' s'' : Sys KS CT} {op : Op Rand} {ops : List (Op Rand)} {out : Option (List Index)}
    {outs : List (List Index)} : Step c s op s' out → Run c s' ops s'' outs →
    Run c s (op :: ops) s'' (out.toList ++ outs)

end Verif.Janus.Mixed
