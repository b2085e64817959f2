import Verif.Tethys.Encoder

/-!
# The encoder of Tethys for arbitrary types of keys and values

`EncodeSeparateEncoder<Key, T, PAGESIZE>` and its decoder
(`lib/include/sse/schemes/tethys/encoders/encode_separate.hpp`) are templates. `Verif.Tethys.Encoder` models them
for the types of the scheme; here the sizes of `Key` and `T` are parameters, and keys and values are their bytes.
-/

namespace Verif.Tethys.Generic

/-- `sizeof(Key)`, `sizeof(T)` and `PAGESIZE`. -/
structure Sizes where
  key : Nat
  val : Nat
  page : Nat

/-- Number of entries of size `t` for `n` bytes. -/
def entries (n t : Nat) : Nat := n / t + if n % t = 0 then 0 else 1

/-- `kAdditionalKeyEntriesPerList` (L29-30). -/
def Sizes.addKey (S : Sizes) : Nat := entries S.key S.val

/-- `kListLengthEntriesNumber` (L32-35). -/
def Sizes.lenEntries (S : Sizes) : Nat := entries 8 S.val

/-- `kAdditionalKeyEntriesPerList + kListLengthEntriesNumber`. -/
def Sizes.head (S : Sizes) : Nat := S.addKey + S.lenEntries

/-- `kListControlValues` (L37-38). -/
def Sizes.control (S : Sizes) : Nat := 2 * S.head

/-- `std::fill(buffer + a, buffer + b, x)` for an offset `o` of the buffer in the page: `b < a` is not a range,
and the bounds of the page are checked. -/
def fillAt (buf : List UInt8) (o a b : Nat) (x : UInt8) : Except Fault (List UInt8) :=
  if b < a then .error .outOfBounds else writeAt buf (o + a) (List.replicate (b - a) x)

/-- The part of the list that goes to the bucket (L80-94). -/
def subValues (values : List (List UInt8)) (k : Nat) : Orientation → List (List UInt8)
  | .incoming => values.take k
  | .outgoing => values.drop (values.length - k)

/-- `encode` (L49-152) with `buffer` at offset `o` of the page: the page and the number of bytes returned. -/
def encode (S : Sizes) (page : List UInt8) (o : Nat) (key : List UInt8) (values : List (List UInt8))
    (i : AssignInfo) : Except Fault (List UInt8 × Nat) :=
  if i.assigned ≤ UInt64.ofNat S.head then .ok (page, 0)
  else
    let original := i.listLength - UInt64.ofNat S.control
    let k := stdMin (i.assigned - UInt64.ofNat S.head) original
    if values.length < k.toNat then .error .outOfBounds
    else
      let sub := subValues values k.toNat i.orientation
      -- the length of the list (L99-104)
      match writeAt page o (leBytes 8 k.toNat) with
      | .error f => .error f
      | .ok page =>
        -- dummy bytes (L107-112)
        match (if 8 < S.lenEntries * S.val then fillAt page o 8 (S.addKey * S.val) 0x11 else .ok page) with
        | .error f => .error f
        | .ok page =>
          let offset := if 8 < S.lenEntries * S.val then S.lenEntries * S.val else 8
          -- the key (L115-118)
          match writeAt page (o + offset) key with
          | .error f => .error f
          | .ok page =>
            let offset := offset + S.key
            -- dummy bytes (L122-128)
            match (if offset < S.head * S.val then fillAt page o offset (S.control * S.val) 0x22
                else .ok page) with
            | .error f => .error f
            | .ok page =>
              let offset := if offset < S.head * S.val then S.head * S.val else offset
              -- the values (L130-137)
              match writeAt page (o + offset) sub.flatten with
              | .error f => .error f
              | .ok page => .ok (page, offset + S.val * sub.length)

/-- A list given to a bucket: its key, its values and how it is assigned. -/
structure Part where
  key : List UInt8
  values : List (List UInt8)
  info : AssignInfo

/-- The loops of the builder over the edges of a vertex (`tethys_store_builder.hpp` L205-250), from the offset
`written` on. -/
def encodeParts (S : Sizes) : List Part → List UInt8 → Nat → Except Fault (List UInt8 × Nat)
  | [], page, written => .ok (page, written)
  | p :: ps, page, written =>
    match encode S page written p.key p.values p.info with
    | .error f => .error f
    | .ok (page, n) =>
      if S.page < written + n then .error .outOfBounds
      else encodeParts S ps page (written + n)

/-- One bucket: filled with `0xFF`, the lists, `finish_block_encoding` (`tethys_store_builder.hpp` L198-262,
L154-167). -/
def bucket (S : Sizes) (ps : List Part) : Except Fault (List UInt8) :=
  match encodeParts S ps (List.replicate S.page 0xFF) 0 with
  | .error f => .error f
  | .ok (page, written) =>
    if S.page - written = 0 then .ok page
    else writeAt page written (List.replicate (S.page - written) 0)

/-- The loop L303-309. -/
def readValues (t : Nat) : Nat → List UInt8 → Except Fault (List (List UInt8))
  | 0, _ => .ok []
  | n + 1, b =>
    if b.length < t then .error .outOfBounds
    else match readValues t n (b.drop t) with
      | .error f => .error f
      | .ok vs => .ok (b.take t :: vs)

/-- The loop of `decode_single_bucket` (L276-316); `b` is the array from the current offset on. A read past the
end of the array is undefined behaviour, also when `0 < b.length < 8`. Simplification: a jump (L314) so long that
the offset would wrap around is a fault. -/
def decodeLoop (S : Sizes) (key : List UInt8) : Nat → List UInt8 → Except Fault (List (List UInt8))
  | 0, _ => .error .diverge
  | fuel + 1, b =>
    if b.length = 0 then .ok []
    else if b.length < 8 then .error .outOfBounds
    else
      let len := ofLeBytes (b.take 8)
      if len = 0 then .ok []
      else if b.length < 8 + S.key then .error .outOfBounds
      else if (b.drop 8).take S.key = key then readValues S.val len (b.drop (8 + S.key))
      else if 2 ^ 64 ≤ 8 + S.key + S.val * len then .error .outOfBounds
      else decodeLoop S key fuel (b.drop (8 + S.key + S.val * len))

/-- `decode_single_bucket` (L276-316). -/
def decode (S : Sizes) (key b : List UInt8) : Except Fault (List (List UInt8)) :=
  decodeLoop S key (b.length + 1) b

/-- `serialize_key_value` (L171-239). -/
def serializeKV (S : Sizes) (key : List UInt8) (values : List (List UInt8)) (i : AssignInfo) :
    Except Fault (List UInt8) :=
  let head := UInt64.ofNat S.head
  let e1 := if i.assigned ≤ head then 0 else i.assigned - head
  let e2 := if i.dual ≤ head then 0 else i.dual - head
  let original := i.listLength - UInt64.ofNat S.control
  let e1 := stdMin e1 original
  let e2 := stdMin e2 original
  let vSize := i.listLength - UInt64.ofNat S.control - e1 - e2
  if vSize = 0 then .ok []
  else
    let stop := (UInt64.ofNat values.length - e2).toNat
    if e1.toNat < stop ∧ values.length < stop then .error .outOfBounds
    else .ok (key ++ leBytes 8 vSize.toNat ++ ((values.take stop).drop e1.toNat).flatten)

/-- `deserialize_key_value` (L331-352): the pair and the rest of the stream. -/
def deserializeKV (S : Sizes) (b : List UInt8) :
    Except Fault ((List UInt8 × List (List UInt8)) × List UInt8) :=
  if b.length < S.key + 8 then .error .outOfBounds
  else
    let len := ofLeBytes ((b.drop S.key).take 8)
    match readValues S.val len (b.drop (S.key + 8)) with
    | .error f => .error f
    | .ok vs => .ok ((b.take S.key, vs), b.drop (S.key + 8 + S.val * len))

end Verif.Tethys.Generic
