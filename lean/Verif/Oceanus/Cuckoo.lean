import Verif.Common.Bytes

/-!
# The cuckoo hash table

Model of `lib/oceanus/cuckoo.cpp` and of `lib/include/sse/schemes/oceanus/cuckoo.hpp`,
`details/cuckoo.hpp`. The on-disk vectors are lists of payloads (see `Verif.Vec`, `C34_table`). The size of
the tables, computed with floating point numbers (details/cuckoo.hpp L15-18), is a parameter. Keys are
arrays of 16 bytes (types.hpp L22-23), values are arrays of `n` bytes, and the hasher is any function.
-/

namespace Verif.Oceanus

/-- Exceptions, and the division by zero -/
inductive Fault where
  | invalidArgument
  | runtimeError
  | outOfRange
  | outOfBounds
  | divByZero
deriving DecidableEq, Repr

/-- `key_type` (types.hpp L23) -/
abbrev Key := Vector UInt8 16

/-- `CuckooKey` (types.hpp L60-71) -/
structure CKey where
  h0 : UInt64
  h1 : UInt64
deriving DecidableEq, Repr

/-- `h[t]` -/
def CKey.h (k : CKey) (t : Bool) : UInt64 := if t then k.h1 else k.h0

/-- `~0UL` -/
def emptyIndex : UInt64 := 0xFFFFFFFFFFFFFFFF

/-- `CuckooValue` (details/cuckoo.hpp L37-41) -/
structure Cell where
  key : CKey
  index : UInt64
deriving DecidableEq, Repr

/-- A default constructed `CuckooValue` -/
def Cell.empty : Cell := ⟨⟨emptyIndex, emptyIndex⟩, emptyIndex⟩

/-- `is_empty_placeholder(value_index)` (details/cuckoo.hpp L59-62) is false. -/
def Cell.full (c : Cell) : Bool := c.index != emptyIndex

/-- `CuckooAllocator` (details/cuckoo.hpp L34-88) -/
structure Alloc where
  size : Nat
  depth : Nat
  t0 : List Cell
  t1 : List Cell

/-- `CuckooAllocator(table_size, max_search_depth)` (details/cuckoo.hpp L47-51) -/
def Alloc.new (size depth : Nat) : Alloc :=
  ⟨size, depth, List.replicate size Cell.empty, List.replicate size Cell.empty⟩

/-- `*tables[t]` -/
def Alloc.table (a : Alloc) (t : Bool) : List Cell := if t then a.t1 else a.t0

/-- Writing in `*tables[t]` -/
def Alloc.put (a : Alloc) (t : Bool) (loc : Nat) (c : Cell) : Alloc :=
  if t then { a with t1 := a.t1.set loc c } else { a with t0 := a.t0.set loc c }

/-- The loop of `CuckooAllocator::insert` (cuckoo.cpp L28-40): `d` iterations remain. The result has
the value that is not placed. -/
def Alloc.insertLoop (a : Alloc) (v : Cell) (t : Bool) : Nat → Except Fault (Alloc × Cell)
  | 0 => .ok (a, v)
  | d + 1 =>
    if v.full = false then .ok (a, v)
    else if a.size = 0 then .error .divByZero
    else
      let loc := (v.key.h t).toNat % a.size
      match (a.table t)[loc]? with
      | none => .error .outOfBounds
      | some old => (a.put t loc v).insertLoop old (!t) d

/-- `CuckooAllocator::insert` (cuckoo.cpp L10-44): the allocator and the returned index -/
def Alloc.insert (a : Alloc) (key : CKey) (index : UInt64) : Except Fault (Alloc × UInt64) :=
  if index = emptyIndex then .error .invalidArgument
  else match a.insertLoop ⟨key, index⟩ false a.depth with
    | .error f => .error f
    | .ok (a', v) => .ok (a', v.index)

/-- A payload: the key and the value (cuckoo.hpp L159-166) -/
abbrev Payload (n : Nat) := Vector UInt8 (16 + n)

/-- `CuckooBuilder` (cuckoo.hpp L31-69) -/
structure Builder (n : Nat) where
  hash : Key → CKey
  alloc : Alloc
  data : List (Payload n)
  spilled : List UInt64
  committed : Bool

variable {n : Nat}

/-- `CuckooBuilder(p)` (cuckoo.hpp L117-124) on a new data file -/
def Builder.new (n size depth : Nat) (hash : Key → CKey) : Builder n :=
  ⟨hash, Alloc.new size depth, [], [], false⟩

/-- `CuckooBuilder::insert` (cuckoo.hpp L147-178) -/
def Builder.insert (b : Builder n) (key : Key) (val : Vector UInt8 n) : Except Fault (Builder n) :=
  if b.committed then .error .runtimeError
  else
    let data := b.data ++ [key ++ val]
    match b.alloc.insert (b.hash key) (UInt64.ofNat b.data.length) with
    | .error f => .error f
    | .ok (a, spill) =>
      let sp := if spill = emptyIndex then b.spilled else b.spilled ++ [spill]
      .ok { b with alloc := a, data := data, spilled := sp }

/-- Insertions in order -/
def Builder.insertAll (b : Builder n) : List (Key × Vector UInt8 n) → Except Fault (Builder n)
  | [] => .ok b
  | x :: xs => match b.insert x.1 x.2 with
    | .error f => .error f
    | .ok b' => b'.insertAll xs

/-- The cells of a table, in the file (cuckoo.hpp L217-227, L228-238) -/
def writeTable (data : List (Payload n)) : List Cell → Except Fault (List (Payload n))
  | [] => .ok []
  | c :: cs =>
    match (if c.full = false then some (Vector.replicate (16 + n) 255) else data[c.index.toNat]?) with
    | none => .error .runtimeError
    | some p => match writeTable data cs with
      | .error f => .error f
      | .ok ps => .ok (p :: ps)

/-- `CuckooBuilder::commit` (cuckoo.hpp L186-243): the content of the table file -/
def Builder.commit (b : Builder n) : Except Fault (List (Payload n)) :=
  writeTable b.data (b.alloc.t0 ++ b.alloc.t1)

/-- The table file when the process stops in `commit` after `reserve` (cuckoo.hpp L212) and `k` calls of
`push_back`: the reserved cells contain zeros (see `Verif.Vec`). -/
def Builder.crash (b : Builder n) (k : Nat) : Except Fault (List (Payload n)) :=
  match writeTable b.data ((b.alloc.t0 ++ b.alloc.t1).take k) with
  | .error f => .error f
  | .ok ps => .ok (ps ++ List.replicate (2 * b.alloc.size - ps.length) (Vector.replicate (16 + n) 0))

/-- `match_key` (details/cuckoo.hpp L20-32) -/
def matchKey (p : Payload n) (key : Key) : Bool := p.toList.take 16 == key.toList

/-- `deserialize(payload + kKeySize)` -/
def valueOf (p : Payload n) : Vector UInt8 n :=
  Vector.ofFn (fun i => p[16 + i.val])

/-- `CuckooHashTable` (cuckoo.hpp L251-301) -/
structure Table (n : Nat) where
  hash : Key → CKey
  table : List (Payload n)
  size : Nat

/-- `CuckooHashTable(path)` (cuckoo.hpp L309-330): an empty file is not committed. -/
def Table.open (hash : Key → CKey) (file : List (Payload n)) : Except Fault (Table n) :=
  if file = [] then .error .runtimeError
  else if file.length % 2 ≠ 0 then .error .runtimeError
  else .ok ⟨hash, file, file.length / 2⟩

/-- `CuckooHashTable::get` (cuckoo.hpp L339-367): `outOfRange` is `Key not found`. -/
def Table.get (t : Table n) (key : Key) : Except Fault (Vector UInt8 n) :=
  if t.size = 0 then .error .divByZero
  else match t.table[(t.hash key).h0.toNat % t.size]? with
    | none => .error .runtimeError
    | some p0 =>
      if matchKey p0 key then .ok (valueOf p0)
      else match t.table[(t.hash key).h1.toNat % t.size + t.size]? with
        | none => .error .runtimeError
        | some p1 => if matchKey p1 key then .ok (valueOf p1) else .error .outOfRange

/-- The hasher of Oceanus (oceanus.hpp L33-45): the two halves of the key, as little-endian integers -/
def oceanusHash (k : Key) : CKey :=
  ⟨UInt64.ofNat (ofLeBytes (k.toList.take 8)), UInt64.ofNat (ofLeBytes (k.toList.drop 8))⟩

/-- The program considered: insertions in a new builder, `commit`, opening of the table -/
def build (size depth : Nat) (hash : Key → CKey) (ins : List (Key × Vector UInt8 n)) :
    Except Fault (Table n) :=
  match (Builder.new n size depth hash).insertAll ins with
  | .error f => .error f
  | .ok b => match b.commit with
    | .error f => .error f
    | .ok file => Table.open hash file

/-- The indexes of the values that were spilled: they are recorded, and not used. -/
def spilled (size depth : Nat) (hash : Key → CKey) (ins : List (Key × Vector UInt8 n)) : List UInt64 :=
  match (Builder.new n size depth hash).insertAll ins with
  | .error _ => []
  | .ok b => b.spilled

end Verif.Oceanus
