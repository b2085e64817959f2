import Verif.Diana.Model
import Verif.Utils.ListStore

/-!
# Model of the Janus scheme (client and server)

`/repo/lib/janus/janus_client.cpp`, `/repo/lib/janus/janus_server.cpp`,
`/repo/lib/include/sse/schemes/janus/types.hpp`.  Janus runs two Diana instances (one for the
insertions, one for the removals) over *meta keywords* made of an epoch number and the keyword, and
caches past results at the server.
-/

namespace Verif.Janus

open Verif

/-- `std::string`. -/
abbrev Str := List UInt8

abbrev Tag := ListStore.Tag

/-! ## Strings -/

/-- Lower-case hexadecimal digit. -/
def hexDigit (d : Nat) : UInt8 := if d < 10 then UInt8.ofNat (48 + d) else UInt8.ofNat (87 + d)

/-- `std::hex << std::setw(k) << std::setfill('0') << n` for a number of at most `k` digits
(`/repo/lib/utils/utils.cpp` L222-234). -/
def hexFixed : Nat → Nat → Str
  | 0, _ => []
  | k + 1, n => hexFixed k (n / 16) ++ [hexDigit (n % 16)]

/-- `JanusClient::meta_keyword` (janus_client.cpp L75-79). -/
def metaKeyword (kw : Str) (searchCounter : UInt32) : Str := hexFixed 8 searchCounter.toNat ++ kw

/-- `keyword_doc_string` (janus_client.cpp L14-17). -/
def keywordDocString (kw : Str) (ind : Index) : Str := hexFixed 16 ind.toNat ++ [124, 124] ++ kw

/-! ## Cryptography -/

/-- External cryptography: two Diana instances, PRFs and puncturable encryption
(`crypto::PuncturableEncryption`, `crypto::PuncturableDecryption`).  `Rand` is the randomness of an
encryption. -/
structure Crypto (PK KS CT Rand : Type) where
  ins : Diana.Crypto Str CT
  del : Diana.Crypto Str KS
  /-- `kw_token_prf_.prf` (16 bytes) -/
  kwToken : Str → Vector UInt8 16
  /-- `tag_prf_.prf` -/
  tagPrf : Str → Tag
  /-- `PuncturableEncryption(punct_enc_master_prf_.derive_key(m_kw))` -/
  derive : Str → PK
  initialKeyshare : PK → UInt32 → KS
  incPuncture : PK → UInt32 → Tag → KS
  encrypt : PK → Rand → Index → Tag → CT
  /-- `PuncturableDecryption(key_shares).decrypt(ct, r)`; `none` is `return false` -/
  decrypt : List KS → CT → Option Index
  /-- `crypto::punct::extract_tag` of a key share -/
  ksTag : KS → Tag
  /-- `crypto::punct::extract_tag` of a ciphertext -/
  ctTag : CT → Tag
  ksTag_incPuncture : ∀ pk n t, ksTag (incPuncture pk n t) = t
  ctTag_encrypt : ∀ pk r i t, ctTag (encrypt pk r i t) = t

variable {PK KS CT Rand : Type}

/-! ## Client -/

/-- `JanusClient`: `search_counter_map_` and the counters of the two Diana clients. -/
structure Client where
  searchCtr : Map Str UInt32
  insCtr : Map Str UInt32
  delCtr : Map Str UInt32

/-- `SearchRequest` (janus/types.hpp L28-51). -/
structure SearchReq (c : Crypto PK KS CT Rand) where
  kwToken : Vector UInt8 16
  ins : Diana.SearchReq c.ins
  del : Diana.SearchReq c.del
  firstKeyShare : KS

/-- The search counter of a keyword, 0 by default (janus_client.cpp L84-87, L135-138, L156-159). -/
def searchCounter (cl : Client) (w : Str) : UInt32 :=
  match Counter.get cl.searchCtr w with
  | some v => v
  | none => 0

/-- The tag of a document under a keyword (janus_client.cpp L145-147, L168-170). -/
def docTag (c : Crypto PK KS CT Rand) (w : Str) (i : Index) : Tag :=
  c.tagPrf (keywordDocString w i)

/-- `JanusClient::search_request` (janus_client.cpp L82-130). -/
def searchRequest (c : Crypto PK KS CT Rand) (cl : Client) (w : Str) : SearchReq c × Client :=
  let sc := searchCounter cl w
  let mkw := metaKeyword w sc
  let ins := Diana.searchRequest c.ins cl.insCtr mkw
  let del := Diana.searchRequest c.del cl.delCtr mkw
  let req : SearchReq c :=
    { kwToken := c.kwToken w, ins := ins, del := del,
      firstKeyShare := c.initialKeyshare (c.derive mkw) del.addCount }
  (req,
    { searchCtr :=
        if ins.addCount > 0 || del.addCount > 0 then Counter.set cl.searchCtr w (sc + 1)
        else cl.searchCtr
      insCtr := if ins.addCount > 0 then Diana.removeKeyword cl.insCtr mkw else cl.insCtr
      delCtr := if del.addCount > 0 then Diana.removeKeyword cl.delCtr mkw else cl.delCtr })

/-- `JanusClient::insertion_request` (janus_client.cpp L132-151). -/
def insertionRequest (c : Crypto PK KS CT Rand) (cl : Client) (w : Str) (i : Index) (r : Rand) :
    Diana.UpdateReq CT × Client :=
  let mkw := metaKeyword w (searchCounter cl w)
  let ct := c.encrypt (c.derive mkw) r i (docTag c w i)
  let (req, m) := Diana.insertionRequest c.ins cl.insCtr mkw ct
  (req, { cl with insCtr := m })

/-- The key share of a removal (janus_client.cpp L161-172): the puncture number is
`get_match_count(m_kw) + 1`. -/
def removalShare (c : Crypto PK KS CT Rand) (cl : Client) (w : Str) (i : Index) : KS :=
  let mkw := metaKeyword w (searchCounter cl w)
  let nDel := Diana.getMatchCount cl.delCtr mkw
  c.incPuncture (c.derive mkw) (nDel + 1) (docTag c w i)

/-- `JanusClient::removal_request` (janus_client.cpp L153-175). -/
def removalRequest (c : Crypto PK KS CT Rand) (cl : Client) (w : Str) (i : Index) :
    Diana.UpdateReq KS × Client :=
  let mkw := metaKeyword w (searchCounter cl w)
  let (req, m) := Diana.insertionRequest c.del cl.delCtr mkw (removalShare c cl w i)
  (req, { cl with delCtr := m })

/-! ## Server -/

/-- `JanusServer`: two Diana servers and the cache of past results. -/
structure Server (KS CT : Type) where
  insEdb : Diana.Edb CT
  delEdb : Diana.Edb KS
  cache : Map (Vector UInt8 16) (List UInt8)

/-- What can go wrong at the server. -/
inductive Fault where
  /-- an exception leaves the function -/
  | exception
  /-- undefined behaviour: bytes read out of bounds -/
  | outOfBounds
  /-- infinite loop -/
  | diverges
  deriving DecidableEq

/-- Reading the cache: `cached_results_edb_.get(req.keyword_token, list)` (janus_server.cpp L128
and L248). -/
def readCache (cache : Map (Vector UInt8 16) (List UInt8)) (k : Vector UInt8 16) :
    Except Fault (List (Index × Tag)) :=
  match (ListStore.get ListStore.janusSerializer cache k).2 with
  | .ok l => .ok l
  | .outOfBounds => .error .outOfBounds
  | .diverges => .error .diverges

/-- Writing the cache (janus_server.cpp L156 and L291). -/
def writeCache (cache : Map (Vector UInt8 16) (List UInt8)) (k : Vector UInt8 16)
    (l : List (Index × Tag)) : Map (Vector UInt8 16) (List UInt8) :=
  ListStore.put ListStore.janusSerializer cache k l

/-- An exception of a Diana search. -/
def ofOption {α : Type} : Option α → Except Fault α
  | some a => .ok a
  | none => .error .exception

/-- Cached results whose tag was not removed (janus_server.cpp L131-142, L251-262). -/
def filterCache (removed : List Tag) (l : List (Index × Tag)) : List (Index × Tag) :=
  l.filter (fun e => !removed.contains e.2)

/-- Decryption of the retrieved ciphertexts (janus_server.cpp L145-152, L211-221): the results with
the tags. -/
def decryptAll (c : Crypto PK KS CT Rand) (shares : List KS) (cts : List CT) :
    List (Index × Tag) :=
  cts.filterMap (fun ct => (c.decrypt shares ct).map (fun r => (r, c.ctTag ct)))

/-- `JanusServer::search` (janus_server.cpp L95-161). -/
def search (c : Crypto PK KS CT Rand) (srv : Server KS CT) (req : SearchReq c) :
    Except Fault (List Index × Server KS CT) := do
  let (insertions, insEdb) ← ofOption (Diana.search c.ins srv.insEdb req.ins true)
  let (keyShares, delEdb) ← ofOption (Diana.search c.del srv.delEdb req.del true)
  let removedTags := keyShares.map c.ksTag
  let cached ← readCache srv.cache req.kwToken
  let filtered := filterCache removedTags cached
  let fresh := decryptAll c (req.firstKeyShare :: keyShares) insertions
  return (filtered.map (·.1) ++ fresh.map (·.1),
    { insEdb := insEdb, delEdb := delEdb,
      cache := writeCache srv.cache req.kwToken (filtered ++ fresh) })

/-- `JanusServer::insert` (janus_server.cpp L295-298). -/
def insert (srv : Server KS CT) (r : Diana.UpdateReq CT) : Server KS CT :=
  { srv with insEdb := Diana.serverInsert srv.insEdb r }

/-- `JanusServer::remove` (janus_server.cpp L300-303). -/
def remove (srv : Server KS CT) (r : Diana.UpdateReq KS) : Server KS CT :=
  { srv with delEdb := Diana.serverInsert srv.delEdb r }

/-! ## Parallel search -/

/-- What `search_parallel` does once the key shares were retrieved (janus_server.cpp L193-292): the
results reported for the cache, those reported for the insertions, and the new cache and insertion
database. The thread filtering the cache is joined before the insertions are searched, so there is
nothing to interleave; the insertion entries are *not* deleted (L282-283, default argument). The
key shares are moved into the decryptor before the cache thread reads their tags; moving the
elements (`std::array`) copies them. -/
def afterShares (c : Crypto PK KS CT Rand) (srv : Server KS CT) (req : SearchReq c)
    (keyShares : List KS) : Except Fault (List Index × List Index × Server KS CT) := do
  let removedTags := keyShares.map c.ksTag
  let cached ← readCache srv.cache req.kwToken
  let filtered := filterCache removedTags cached
  let (insertions, insEdb) ← ofOption (Diana.search c.ins srv.insEdb req.ins false)
  let fresh := decryptAll c (req.firstKeyShare :: keyShares) insertions
  return (filtered.map (·.1), fresh.map (·.1),
    { insEdb := insEdb, delEdb := srv.delEdb,
      cache := writeCache srv.cache req.kwToken (fresh ++ filtered) })

/-- A complete run of `JanusServer::search_parallel` (janus_server.cpp L163-292) with the given
thread count: sequence of results reported to the basic callback variant, result of the variant
returning a list, and final server. The list variant gives list 0 to the insertions and list
`threads` to the cache, and splices the lists in order (L163-182). -/
def SearchParallelRun (c : Crypto PK KS CT Rand) (srv : Server KS CT) (req : SearchReq c)
    (threads : UInt8) (reported listed : List Index) (srv' : Server KS CT) : Prop :=
  ∃ trace delEdb cached fresh,
    Diana.ParallelRun c.del srv.delEdb req.del threads true trace delEdb ∧
    afterShares c { srv with delEdb := delEdb } req (Diana.listResult threads trace) =
      .ok (cached, fresh, srv') ∧
    reported = cached ++ fresh ∧ listed = fresh ++ cached

/-! ## Histories -/

/-- Operations; insertions carry the randomness of their encryption. -/
inductive Op (Rand : Type) where
  | insert (w : Str) (i : Index) (r : Rand)
  | remove (w : Str) (i : Index)
  | search (w : Str)

/-- Client and server. -/
structure Sys (KS CT : Type) where
  client : Client
  server : Server KS CT

/-- Fresh client and server. -/
def Sys.init : Sys KS CT :=
  { client := { searchCtr := Map.empty, insCtr := Map.empty, delCtr := Map.empty }
    server := { insEdb := Map.empty, delEdb := Map.empty, cache := Map.empty } }

/-- One operation. -/
def step (c : Crypto PK KS CT Rand) (s : Sys KS CT) :
    Op Rand → Except Fault (Sys KS CT × Option (List Index))
  | .insert w i r =>
    let (req, cl) := insertionRequest c s.client w i r
    .ok ({ client := cl, server := insert s.server req }, none)
  | .remove w i =>
    let (req, cl) := removalRequest c s.client w i
    .ok ({ client := cl, server := remove s.server req }, none)
  | .search w =>
    let (req, cl) := searchRequest c s.client w
    match search c s.server req with
    | .ok (res, srv) => .ok ({ client := cl, server := srv }, some res)
    | .error e => .error e

/-- A history: final state and results of the searches in order. -/
def run (c : Crypto PK KS CT Rand) :
    Sys KS CT → List (Op Rand) → Except Fault (Sys KS CT × List (List Index))
  | s, [] => .ok (s, [])
  | s, op :: ops =>
    match step c s op with
    | .error e => .error e
    | .ok (s', out) =>
      match run c s' ops with
      | .error e => .error e
      | .ok (s'', outs) => .ok (s'', out.toList ++ outs)

end Verif.Janus
