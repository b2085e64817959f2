import Verif.Diana.Model

/-!
# Diana: all kinds of searches in one history, with calls of RocksDB that fail

`DianaServer` (`/repo/lib/include/sse/schemes/diana/diana_server.hpp`) has a sequential search and four parallel
ones, each with or without deletion of the entries found.  Here the calls of RocksDB made by a search may fail:
`retrieve_entry` (L83-93) treats a `Get` that fails as an absent entry (rocksdb_wrapper.hpp L148-162) and does
not look at the result of `remove` (L203-211).
-/

namespace Verif.Diana.Kinds

open Verif

variable {Kw V : Type} [DecidableEq Kw]

/-- What happens to the calls for a position: the `Get` fails, the `Delete` does not remove the entry -/
structure Fate where
  get : Bool
  delete : Bool

/-- The fates of the positions of one search; every position is looked up once. -/
abbrev Fates := Nat → Fate

/-- `DianaServer::get_unmask` and `retrieve_entry` (L83-93, L110-144) at position `i`. -/
def getUnmask (c : Crypto Kw V) (F : Fates) (del : Bool) (edb : Edb V) (i : Nat) (leaf : Leaf) :
    Option V × Edb V :=
  if (F i).get then (none, edb)
  else match edb (c.token leaf) with
    | none => (none, edb)
    | some v => (some (c.xor v (c.mask leaf)),
        if del && !(F i).delete then edb.erase (c.token leaf) else edb)

/-- The calls of `eval_callback` in `search` (L172-180). -/
def searchLoop (c : Crypto Kw V) (F : Fates) (del : Bool) : Edb V → List (Nat × Leaf) → List V × Edb V
  | edb, [] => ([], edb)
  | edb, (i, leaf) :: rest =>
    let r := getUnmask c F del edb i leaf
    let q := searchLoop c F del r.2 rest
    (r.1.toList ++ q.1, q.2)

/-- `DianaServer::search` (L146-183, both overloads). `none`: an exception. -/
def search (c : Crypto Kw V) (F : Fates) (edb : Edb V) (req : SearchReq c) (del : Bool) :
    Option (List V × Edb V) :=
  if req.addCount = 0 then some ([], edb)
  else (evalRange c req.rcprf 0 (c.maxLeaf req.rcprf)).map (fun leaves => searchLoop c F del edb leaves)

/-- One atomic step of a thread of `search_parallel` (L267-284): a `Get`, or the `Delete` that follows; then the
callback is called. -/
inductive Step (c : Crypto Kw V) (F : Fates) (del : Bool) : ScanSys V → ScanSys V → Prop
  /-- `edb_.get` fails. -/
  | failed {s : ScanSys V} (t i : Nat) (leaf : Leaf) (rest : List (Nat × Leaf))
      (h : s.workers[t]? = some ⟨(i, leaf) :: rest, none⟩) (hf : (F i).get = true) :
      Step c F del s { s with workers := s.workers.set t ⟨rest, none⟩ }
  /-- `edb_.get` finds nothing. -/
  | miss {s : ScanSys V} (t i : Nat) (leaf : Leaf) (rest : List (Nat × Leaf))
      (h : s.workers[t]? = some ⟨(i, leaf) :: rest, none⟩) (hf : (F i).get = false)
      (hm : s.edb (c.token leaf) = none) :
      Step c F del s { s with workers := s.workers.set t ⟨rest, none⟩ }
  /-- `edb_.get` finds an entry, no deletion is requested: the callback is called. -/
  | hit {s : ScanSys V} (t i : Nat) (leaf : Leaf) (rest : List (Nat × Leaf)) (v : V)
      (h : s.workers[t]? = some ⟨(i, leaf) :: rest, none⟩) (hf : (F i).get = false)
      (hm : s.edb (c.token leaf) = some v) (hd : del = false) :
      Step c F del s { s with
        workers := s.workers.set t ⟨rest, none⟩
        trace := s.trace ++ [(i, c.xor v (c.mask leaf), t)] }
  /-- `edb_.get` finds an entry that is to be removed. -/
  | found {s : ScanSys V} (t i : Nat) (leaf : Leaf) (rest : List (Nat × Leaf)) (v : V)
      (h : s.workers[t]? = some ⟨(i, leaf) :: rest, none⟩) (hf : (F i).get = false)
      (hm : s.edb (c.token leaf) = some v) (hd : del = true) :
      Step c F del s { s with
        workers := s.workers.set t ⟨rest, some (i, c.xor v (c.mask leaf), c.token leaf)⟩ }
  /-- `edb_.remove`, which may fail; then the callback. -/
  | remove {s : ScanSys V} (t i : Nat) (v : V) (key : Token) (rest : List (Nat × Leaf))
      (h : s.workers[t]? = some ⟨rest, some (i, v, key)⟩) :
      Step c F del s
        { edb := if (F i).delete then s.edb else s.edb.erase key
          workers := s.workers.set t ⟨rest, none⟩
          trace := s.trace ++ [(i, v, t)] }

/-- A complete run of `search_parallel(req, tl_callback, threads_count, delete_results)` (L255-313). -/
def Parallel (c : Crypto Kw V) (F : Fates) (edb : Edb V) (req : SearchReq c) (threads : UInt8) (del : Bool)
    (trace : List (Nat × V × Nat)) (edb' : Edb V) : Prop :=
  ∃ Ls s, jobs c req threads = some Ls ∧
    Relation.ReflTransGen (Step c F del) (ScanSys.init edb Ls) s ∧ s.Done ∧
    trace = s.trace ∧ edb' = s.edb

/-- The searches of the server: `search` (L146-183) and `search_parallel` that returns a list (L185-218), calls a
callback (L242-253) or fills the vector it is given (L220-240). -/
inductive Kind (V : Type) where
  | sequential
  | list (threads : UInt8)
  | callback (threads : UInt8)
  | vector (threads : UInt8) (given : List V)

/-- The number of threads is not 0 (`assert` L263). -/
def Kind.Ok : Kind V → Prop
  | .sequential => True
  | .list t => t ≠ 0
  | .callback t => t ≠ 0
  | .vector t _ => t ≠ 0

/-- A search of the server, with its result: the list, the arguments of the calls of the callback in their order,
or the vector. `zero` is the value of new elements of a vector. -/
def Search (c : Crypto Kw V) (zero : V) (F : Fates) (edb : Edb V) (req : SearchReq c) (del : Bool) (out : List V)
    (edb' : Edb V) : Kind V → Prop
  | .sequential => search c F edb req del = some (out, edb')
  | .list t => ∃ trace, Parallel c F edb req t del trace edb' ∧ out = listResult t trace
  | .callback t => ∃ trace, Parallel c F edb req t del trace edb' ∧ out = callbackResult trace
  | .vector t given => ∃ trace, Parallel c F edb req t del trace edb' ∧
      out = vectorResult zero req.addCount given trace

/-- An operation -/
inductive Op (Kw V : Type) where
  /-- an insertion; `delivered`: it reaches the server and is stored -/
  | insert (w : Kw) (i : V) (delivered : Bool)
  /-- a search -/
  | search (w : Kw) (kind : Kind V) (del : Bool) (F : Fates)
  /-- `DianaClient::remove_keyword` (diana_client.hpp L280-284) -/
  | forget (w : Kw)

/-- The operations that can be executed -/
def Op.Ok : Op Kw V → Prop
  | .search _ k _ _ => k.Ok
  | _ => True

/-- Execution of an operation: the results of a search are added. -/
inductive Exec (c : Crypto Kw V) (zero : V) : Sys Kw V → Op Kw V → Sys Kw V → Option (List V) → Prop
  | insert (s : Sys Kw V) (w : Kw) (i : V) (delivered : Bool) :
      Exec c zero s (.insert w i delivered)
        { counters := (insertionRequest c s.counters w i).2
          edb := if delivered then serverInsert s.edb (insertionRequest c s.counters w i).1 else s.edb } none
  | search (s : Sys Kw V) (w : Kw) (kind : Kind V) (del : Bool) (F : Fates) (out : List V) (edb' : Edb V)
      (h : Search c zero F s.edb (searchRequest c s.counters w) del out edb' kind) :
      Exec c zero s (.search w kind del F) { s with edb := edb' } (some out)
  | forget (s : Sys Kw V) (w : Kw) :
      Exec c zero s (.forget w) { s with counters := removeKeyword s.counters w } none

/-- Execution of a history -/
inductive Run (c : Crypto Kw V) (zero : V) : Sys Kw V → List (Op Kw V) → Sys Kw V → List (List V) → Prop
  | nil (s : Sys Kw V) : Run c zero s [] s []
  | cons {s s' s'' : Sys Kw V} {op : Op Kw V} {ops : List (Op Kw V)} {o : Option (List V)} {outs : List (List V)}
      (h : Exec c zero s op s' o) (t : Run c zero s' ops s'' outs) :
      Run c zero s (op :: ops) s'' (o.toList ++ outs)

end Verif.Diana.Kinds
