import Verif.Tethys.Files

/-!
# The stash file as a stream

Model of how `lib/include/sse/schemes/abstractio/kv_serializer.hpp` and the encoders of Tethys write and read
the stash file, with the states of the streams: none of the calls looks at the state of the stream after a write
or after a read. A variable that is not initialised holds arbitrary bytes (`Memory`); a read that fails, or
that finds fewer bytes than asked for, leaves the rest of the variable as it was.

Not modelled: exhaustion of the memory. The compiler is assumed not to use that reading an indeterminate
`uint64_t` is undefined behaviour.
-/

namespace Verif.Tethys.Stream

/-- The content of the variables that are not initialised: byte `j` of the `k`-th one -/
abbrev Memory := Nat → Nat → UInt8

/-- How a call may end other than by returning: `std::length_error` of `reserve`, or one of the faults -/
inductive Failure where
  | lengthError
  | fault (f : Fault)
  deriving DecidableEq

/-- A `std::ifstream`: what is still to be read, and the bits `eofbit` and `failbit` of its state -/
structure In where
  rest : List UInt8
  eof : Bool
  fail : Bool

/-- `input_stream.open(path)` on an existing file (tethys_store.hpp L153, tethys_client.hpp L107) -/
def In.open (b : List UInt8) : In := ⟨b, false, false⟩

/-- `in.read(&var, n)` (encode_separate.hpp L338, L341, L347): the variable and the stream after the call -/
def In.read (s : In) (n : Nat) (var : List UInt8) : List UInt8 × In :=
  if s.eof || s.fail then (var, { s with fail := true })
  else if s.rest.length < n then (s.rest ++ var.drop s.rest.length, ⟨[], true, true⟩)
  else (s.rest.take n, { s with rest := s.rest.drop n })

/-- `input_stream && input_stream.peek() != EOF` (kv_serializer.hpp L81) -/
def In.more (s : In) : Bool × In :=
  if s.fail then (false, s)
  else if s.eof then (false, { s with fail := true })
  else if s.rest = [] then (false, { s with eof := true })
  else (true, s)

/-- The bytes of a variable of `n` bytes that was not initialised -/
def fresh (J : Memory) (k n : Nat) : List UInt8 := (List.range n).map (J k)

/-- The key in 16 bytes -/
def toKey (l : List UInt8) : CoreKey := Vector.ofFn (fun i => l.getD i.val 0)

/-- The loop of `deserialize_key_value` (encode_separate.hpp L345-349, encode_encrypt.hpp L211-215); `k` is the
number of the variable `elt`. -/
def readElts (J : Memory) : Nat → Nat → In → List Index × Nat × In
  | 0, k, s => ([], k, s)
  | n + 1, k, s =>
    let r := s.read 8 (fresh J k 8)
    let q := readElts J n (k + 1) r.2
    (bytesIndex r.1 :: q.1, q.2)

/-- `deserialize_key_value` (encode_separate.hpp L331-352, encode_encrypt.hpp L197-218): `k` is not initialised
and `v_size` is 0. `reserve` throws for more than `max_size() = 2^60 - 1` elements. -/
def readKV (J : Memory) (k : Nat) (s : In) : Except Failure ((CoreKey × List Index) × Nat × In) :=
  let r := s.read 16 (fresh J k 16)
  let q := r.2.read 8 (List.replicate 8 0)
  let size := ofLeBytes q.1
  if 2 ^ 60 ≤ size then .error .lengthError
  else
    let e := readElts J size (k + 1) q.2
    .ok ((toKey r.1, e.1), e.2)

/-- `deserialize_map` (kv_serializer.hpp L76-85, L95-107) -/
def readMap (J : Memory) : Nat → Nat → In → Map CoreKey (List Index) →
    Except Failure (Map CoreKey (List Index))
  | 0, _, _, _ => .error (.fault .diverge)
  | fuel + 1, k, s, m =>
    let r := s.more
    if r.1 then
      match readKV J k r.2 with
      | .error f => .error f
      | .ok (kv, k', s') => readMap J fuel k' s' (m.put kv.1 kv.2)
    else .ok m

/-- `load_stash` (tethys_store.hpp L146-160, tethys_client.hpp L99-116) -/
def load (J : Memory) : Option (List UInt8) → Except Failure (Map CoreKey (List Index))
  | none => .ok Map.empty
  | some b => readMap J (b.length + 1) 0 (In.open b) Map.empty

/-- A search, end to end, by a client that opens the stash file (tethys_client.hpp L82-116, L118-182,
tethys_server.hpp L41-73) -/
def schemeSearch {W : Type} (J : Memory) (hash : CoreKey → UInt64 × UInt64) (prf : W → Token)
    (H : List UInt8 → CoreKey) (enc : ValueEncoder) (fs : Files) (counters : Map W UInt32) (w : W) :
    Except Failure (List Index) :=
  match load J fs.stash with
  | .error f => .error f
  | .ok m =>
    let c : Client W := ⟨m, counters, prf, enc⟩
    match serverSearch H ⟨fs.table, hash, Map.empty⟩ (c.searchRequest w) with
    | .error f => .error (.fault f)
    | .ok ps => match c.decodeResults ps with
      | .error f => .error (.fault f)
      | .ok r => .ok r

/-- A search by a client and a server that open these files (tethys_store.hpp L57-59, L128-130) -/
def search {W : Type} (J : Memory) (P : Params W) (d : Disk W) (w : W) : Except Failure (List Index) :=
  if d.table = [] then .error (.fault .runtimeError)
  else schemeSearch J P.hash P.prf P.H P.enc ⟨pagesOf P.page d.table, d.stash⟩ d.counters w

/-- What happens to the stash file: it cannot be opened for writing, or `n` bytes can be written -/
inductive Medium where
  | closed
  | room (n : Nat)

/-- The stash file after `open`, the writes of `bytes` and `close` (tethys_store_builder.hpp L282-305): after a
failed `open` or a failed write the stream does nothing any more, and no state is looked at. -/
def Medium.store (M : Medium) (old : Option (List UInt8)) (bytes : List UInt8) : Option (List UInt8) :=
  match M with
  | .closed => old
  | .room n => some (bytes.take n)

/-- `TethysStoreBuilder::build` (tethys_store_builder.hpp L161-310) with such a medium for the stash file -/
def buildFiles (M : Medium) (b : Builder) (enc : ValueEncoder) (file : List UInt8)
    (stash : Option (List UInt8)) : Builder × (List UInt8 × Option (List UInt8)) × Except Fault Unit :=
  if b.built then (b, (file, stash), .error .runtimeError)
  else
    let t := b.tableFile file
    match b.alloc.allocate with
    | .error f => (b, (t.destroy, stash), .error f)
    | .ok a =>
      let b' := { b with alloc := a }
      match pushPages enc b.page a.graph b.data (List.range b.size) t with
      | (t, .error f) => (b', (t.destroy, stash), .error f)
      | (t, .ok ()) =>
        if a.stashed = [] then ({ b' with built := true }, (t.commit.destroy, stash), .ok ())
        else match serializeStash a.graph.edges b.data (setOrder a.graph.edges a.stashed) with
          | .error f => (b', (t.commit.destroy, M.store stash []), .error f)
          | .ok s => ({ b' with built := true }, (t.commit.destroy, M.store stash s), .ok ())

variable {W : Type} [DecidableEq W]

/-- One event as in `Sys.step`, with such a medium for the stash file -/
def step (M : Medium) (P : Params W) (s : Sys W) : Ev W → Sys W × Except Fault Unit
  | .build => match s.builder with
    | none => (s, .ok ())
    | some b =>
      let r := buildFiles M b P.enc s.disk.table s.disk.stash
      (⟨⟨r.2.1.1, r.2.1.2, s.disk.counters⟩, some r.1⟩, r.2.2)
  | e => s.step P e

/-- Events, and their outcomes -/
def run (M : Medium) (P : Params W) : Sys W → List (Ev W) → Sys W × List (Except Fault Unit)
  | s, [] => (s, [])
  | s, e :: es =>
    let r := step M P s e
    let q := run M P r.1 es
    (q.1, r.2 :: q.2)

end Verif.Tethys.Stream
