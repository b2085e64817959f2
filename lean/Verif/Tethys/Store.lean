import Verif.Tethys.Encoder

/-!
# The store of Tethys

Model of `lib/include/sse/schemes/tethys/tethys_store_builder.hpp` and `tethys_store.hpp`. The
on-disk vector holding the table is a list of pages here (its own model is in `Verif.Vec`, see `C34_table`);
`graph_size`, computed with floating point numbers, is a parameter.
-/

namespace Verif.Tethys

/-- `TethysStoreBuilder` (tethys_store_builder.hpp L31-80) -/
structure Builder where
  /-- `PAGE_SIZE`, in bytes -/
  page : Nat
  /-- `params.graph_size(kBucketSize)` -/
  size : Nat
  hash : CoreKey → UInt64 × UInt64
  alloc : Allocator
  data : List (CoreKey × List Index)
  built : Bool

/-- `TethysStoreBuilder(p)` (tethys_store_builder.hpp L82-97) with `kBucketSize = PAGE_SIZE / 8`
(L49) -/
def Builder.new (page size : Nat) (hash : CoreKey → UInt64 × UInt64) : Except Fault Builder :=
  match Allocator.new size (UInt64.ofNat (page / 8)) with
  | .error f => .error f
  | .ok a => .ok ⟨page, size, hash, a, [], false⟩

/-- `TethysStoreBuilder::insert_list` (tethys_store_builder.hpp L99-140): the builder afterwards, and
the outcome. The data is recorded before the allocator may reject the list. -/
def Builder.insertList (b : Builder) (key : CoreKey) (vals : List Index) :
    Builder × Except Fault Unit :=
  if b.built then (b, .error .runtimeError)
  else
    let b := { b with data := b.data ++ [(key, vals)] }
    let half := b.size / 2
    let remaining := b.size - half
    if half = 0 ∨ remaining = 0 then (b, .error .divByZero)
    else
      let l : ListInfo := ⟨(b.hash key).1.toNat % half, half + (b.hash key).2.toNat % remaining,
        UInt64.ofNat vals.length + 6, UInt64.ofNat (b.data.length - 1)⟩
      match b.alloc.insert l with
      | .error f => (b, .error f)
      | .ok a => ({ b with alloc := a }, .ok ())

/-- Insertions in order; the caller goes on after an exception. -/
def Builder.insertAll (b : Builder) : List (CoreKey × List Index) → Builder
  | [] => b
  | x :: xs => (b.insertList x.1 x.2).1.insertAll xs

/-- One of the two loops of `build` over the edges of a vertex (tethys_store_builder.hpp L205-227,
L230-250): the payload and `written_bytes` -/
def encodeEdges (edges : List Edge) (data : List (CoreKey × List Index)) (o : Orientation) :
    List EdgePtr → List UInt8 × Nat → Except Fault (List UInt8 × Nat)
  | [], st => .ok st
  | p :: ps, st =>
    match edges[p.index]? with
    | none => .error .outOfBounds
    | some e =>
      if e.valueIndex = emptyIndex then encodeEdges edges data o ps st
      else match data[e.valueIndex.toNat]? with
        | none => .error .outOfBounds
        | some d => match encode d.1 d.2 (AssignInfo.of e o) with
          | .error f => .error f
          | .ok bs => match writeAt st.1 st.2 bs with
            | .error f => .error f
            | .ok payload =>
              if st.2 + bs.length > payload.length then .error .outOfRange
              else encodeEdges edges data o ps (payload, st.2 + bs.length)

/-- The page of a vertex (tethys_store_builder.hpp L192-261) -/
def encodeBucket (enc : ValueEncoder) (page : Nat) (g : Graph) (data : List (CoreKey × List Index))
    (v : Nat) : Except Fault (List UInt8) :=
  match g.vertices[v]? with
  | none => .error .outOfBounds
  | some vx =>
    match encodeEdges g.edges data .incoming vx.inEdges (List.replicate page 255, 0) with
    | .error f => .error f
    | .ok st => match encodeEdges g.edges data .outgoing vx.outEdges st with
      | .error f => .error f
      | .ok st => match enc.finish st.1 v st.2 (st.1.length - st.2) with
        | .error f => .error f
        | .ok (payload, w) =>
          if st.2 + w > payload.length then .error .outOfRange else .ok payload

/-- The pages of a list of vertices (tethys_store_builder.hpp L192-269) -/
def encodeBuckets (enc : ValueEncoder) (page : Nat) (g : Graph) (data : List (CoreKey × List Index)) :
    List Nat → Except Fault (List (List UInt8))
  | [] => .ok []
  | v :: vs => match encodeBucket enc page g data v with
    | .error f => .error f
    | .ok p => match encodeBuckets enc page g data vs with
      | .error f => .error f
      | .ok ps => .ok (p :: ps)

/-- The loop over the stashed edges (tethys_store_builder.hpp L286-300) -/
def serializeStash (edges : List Edge) (data : List (CoreKey × List Index)) :
    List EdgePtr → Except Fault (List UInt8)
  | [] => .ok []
  | p :: ps =>
    match edges[p.index]? with
    | none => .error .outOfBounds
    | some e =>
      if e.valueIndex = emptyIndex then serializeStash edges data ps
      else match data[e.valueIndex.toNat]? with
        | none => .error .outOfBounds
        | some d => match serializeKV d.1 d.2 (AssignInfo.of e .incoming) with
          | .error f => .error f
          | .ok bs => match serializeStash edges data ps with
            | .error f => .error f
            | .ok rest => .ok (bs ++ rest)

/-- Iteration over the `std::set<EdgePtr>`: by increasing index, without repetition (tethys_graph.hpp
L76-80; the stashed pointers are never reciprocal) -/
def setOrder (edges : List Edge) (s : List EdgePtr) : List EdgePtr :=
  ((List.range edges.length).filter (fun i => s.any (fun p => p.index == i))).map (fun i => ⟨false, i⟩)

/-- The two files of a store -/
structure Files where
  table : List (List UInt8)
  stash : Option (List UInt8)

/-- `TethysStoreBuilder::build` (tethys_store_builder.hpp L161-310). `old` is the stash file before
the call, if any: without stashed edge the file is not opened. -/
def Builder.build (b : Builder) (enc : ValueEncoder) (old : Option (List UInt8)) : Except Fault Files :=
  if b.built then .error .runtimeError
  else match b.alloc.allocate with
    | .error f => .error f
    | .ok a => match encodeBuckets enc b.page a.graph b.data (List.range b.size) with
      | .error f => .error f
      | .ok table =>
        if a.stashed = [] then .ok ⟨table, old⟩
        else match serializeStash a.graph.edges b.data (setOrder a.graph.edges a.stashed) with
          | .error f => .error f
          | .ok s => .ok ⟨table, some s⟩

/-- `TethysStore` (tethys_store.hpp L24-114) -/
structure Store where
  table : List (List UInt8)
  hash : CoreKey → UInt64 × UInt64
  stash : Map CoreKey (List Index)

/-- `TethysStore(table_path, stash_path)` (tethys_store.hpp L49-65, L121-138) on a committed table -/
def Store.open (hash : CoreKey → UInt64 × UInt64) (f : Files) : Except Fault Store :=
  match loadStash f.stash with
  | .error e => .error e
  | .ok m => .ok ⟨f.table, hash, m⟩

/-- `BucketPair` (types.hpp L31-38) -/
structure BucketPair where
  i0 : Nat
  i1 : Nat
  b0 : List UInt8
  b1 : List UInt8

/-- `TethysStore::get_buckets` (tethys_store.hpp L226-247) -/
def Store.getBuckets (s : Store) (key : CoreKey) : Except Fault BucketPair :=
  let half := s.table.length / 2
  let remaining := s.table.length - half
  if half = 0 ∨ remaining = 0 then .error .divByZero
  else
    let i0 := (s.hash key).1.toNat % half
    let i1 := half + (s.hash key).2.toNat % remaining
    match s.table[i0]?, s.table[i1]? with
    | some b0, some b1 => .ok ⟨i0, i1, b0, b1⟩
    | _, _ => .error .outOfBounds

/-- `TethysStore::get_list` (tethys_store.hpp L254-289) -/
def Store.getList (s : Store) (enc : ValueEncoder) (key : CoreKey) : Except Fault (List Index) :=
  let stashRes := (s.stash key).getD []
  match s.getBuckets key with
  | .error f => .error f
  | .ok p => match enc.decode key p.b0 p.i0 p.b1 p.i1 with
    | .error f => .error f
    | .ok r => .ok (r ++ stashRes)

end Verif.Tethys
