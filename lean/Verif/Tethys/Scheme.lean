import Verif.Tethys.Store

/-!
# The Tethys scheme

Model of `lib/include/sse/schemes/tethys/tethys_builder.hpp`, `tethys_client.hpp`,
`tethys_server.hpp` and `details/tethys_utils.hpp`. The pseudo-random function and the hash function
are parameters; the counter database is a map.
-/

namespace Verif.Tethys

/-- `search_token_type` (types.hpp L20-21) -/
abbrev Token := Vector UInt8 16

/-- `derive_core_key(token, block_count)` (details/tethys_utils.hpp L12-29) -/
def deriveCoreKey (H : List UInt8 → CoreKey) (token : Token) (block : Nat) : CoreKey :=
  H (token.toList ++ leBytes 8 block)

/-- `GenericTethysBuilder` (tethys_builder.hpp L23-49) over keywords of type `W` -/
structure SchemeBuilder (W : Type) where
  store : Builder
  counters : Map W UInt32

/-- The loop of `insert_list` over the indexes (tethys_builder.hpp L92-112): `block` is the current
block and `c` the block counter. `kMaxListSize` is `kBucketSize - 6` (tethys_store_builder.hpp L49-56).
-/
def insertLoop (max : Nat) (key : Nat → CoreKey) :
    List Index → List Index → Nat → Builder → Builder × Except Fault (List Index × Nat)
  | [], block, c, b => (b, .ok (block, c))
  | id :: ids, block, c, b =>
    let block := block ++ [id]
    if block.length = max then
      match b.insertList (key c) block with
      | (b, .error f) => (b, .error f)
      | (b, .ok ()) => insertLoop max key ids [] (c + 1) b
    else insertLoop max key ids block c b

/-- `GenericTethysBuilder::insert_list` (tethys_builder.hpp L79-125): an exception of the store builder
goes through, without update of the counter. -/
def SchemeBuilder.insertList {W : Type} [DecidableEq W] (prf : W → Token) (H : List UInt8 → CoreKey)
    (b : SchemeBuilder W) (w : W) (ids : List Index) : SchemeBuilder W × Except Fault Unit :=
  let key := deriveCoreKey H (prf w)
  match insertLoop (b.store.page / 8 - 6) key ids [] 0 b.store with
  | (s, .error f) => ({ b with store := s }, .error f)
  | (s, .ok (block, c)) => match s.insertList (key c) block with
    | (s, .error f) => ({ b with store := s }, .error f)
    | (s, .ok ()) => (⟨s, b.counters.put w (UInt32.ofNat (c + 1))⟩, .ok ())

/-- Insertion of a whole index, stopping at the first exception (`load_inverted_index`,
tethys_builder.hpp L210-256) -/
def SchemeBuilder.insertIndex {W : Type} [DecidableEq W] (prf : W → Token) (H : List UInt8 → CoreKey)
    (b : SchemeBuilder W) : List (W × List Index) → SchemeBuilder W × Except Fault Unit
  | [] => (b, .ok ())
  | x :: xs => match b.insertList prf H x.1 x.2 with
    | (b, .error f) => (b, .error f)
    | (b, .ok ()) => b.insertIndex prf H xs

/-- `SearchRequest` (types.hpp L27-31) -/
structure SearchRequest where
  token : Token
  blocks : UInt32

/-- `TethysClient` (tethys_client.hpp L71-79) -/
structure Client (W : Type) where
  stash : Map CoreKey (List Index)
  counters : Map W UInt32
  prf : W → Token
  enc : ValueEncoder

/-- `TethysClient(counter_db_path, stash_path, master_key, decryption_key)` (tethys_client.hpp
L82-116) -/
def Client.open {W : Type} (prf : W → Token) (enc : ValueEncoder) (counters : Map W UInt32)
    (stash : Option (List UInt8)) : Except Fault (Client W) :=
  match loadStash stash with
  | .error f => .error f
  | .ok m => .ok ⟨m, counters, prf, enc⟩

/-- `search_request` (tethys_client.hpp L118-139) -/
def Client.searchRequest {W : Type} (c : Client W) (w : W) : SearchRequest :=
  ⟨c.prf w, (c.counters w).getD 0⟩

/-- The loop of `TethysServer::search` (tethys_server.hpp L57-69) on the given block numbers -/
def serverLoop (H : List UInt8 → CoreKey) (s : Store) (token : Token) :
    List Nat → Except Fault (List (CoreKey × BucketPair))
  | [] => .ok []
  | i :: is =>
    let key := deriveCoreKey H token i
    match s.getBuckets key with
    | .error f => .error f
    | .ok p => match serverLoop H s token is with
      | .error f => .error f
      | .ok ps => .ok ((key, p) :: ps)

/-- `TethysServer::search` (tethys_server.hpp L48-73) -/
def serverSearch (H : List UInt8 → CoreKey) (s : Store) (r : SearchRequest) :
    Except Fault (List (CoreKey × BucketPair)) :=
  serverLoop H s r.token (List.range r.blocks.toNat)

/-- `decode_search_results` (tethys_client.hpp L150-182) -/
def Client.decodeResults {W : Type} (c : Client W) :
    List (CoreKey × BucketPair) → Except Fault (List Index)
  | [] => .ok []
  | (key, p) :: ps => match c.enc.decode key p.b0 p.i0 p.b1 p.i1 with
    | .error f => .error f
    | .ok r => match c.decodeResults ps with
      | .error f => .error f
      | .ok rs => .ok (r ++ (c.stash key).getD [] ++ rs)

/-- The whole construction, by `TethysBuilder` (tethys_builder.hpp L128-207): the files, and the
counter database -/
def schemeBuild {W : Type} [DecidableEq W] (page n : Nat) (hash : CoreKey → UInt64 × UInt64)
    (prf : W → Token) (H : List UInt8 → CoreKey) (enc : ValueEncoder) (index : List (W × List Index))
    (old : Option (List UInt8)) : Except Fault (Files × Map W UInt32) :=
  match Builder.new page n hash with
  | .error f => .error f
  | .ok b => match (SchemeBuilder.mk b Map.empty).insertIndex prf H index with
    | (_, .error f) => .error f
    | (b, .ok ()) => match b.store.build enc old with
      | .error f => .error f
      | .ok fs => .ok (fs, b.counters)

/-- A search, end to end: the client, then the server, which has no stash (tethys_server.hpp L41-45),
then the client -/
def schemeSearch {W : Type} (hash : CoreKey → UInt64 × UInt64) (prf : W → Token)
    (H : List UInt8 → CoreKey) (enc : ValueEncoder) (fs : Files) (counters : Map W UInt32) (w : W) :
    Except Fault (List Index) :=
  match Client.open prf enc counters fs.stash, Store.open hash ⟨fs.table, none⟩ with
  | .ok c, .ok s => match serverSearch H s (c.searchRequest w) with
    | .error f => .error f
    | .ok ps => c.decodeResults ps
  | .error f, _ => .error f
  | _, .error f => .error f

end Verif.Tethys
