import Verif.Tethys.Allocator
import Verif.Common.Bytes
import Verif.Common.Map

/-!
# Encoding of the buckets and of the stash of Tethys

Model of `lib/include/sse/schemes/tethys/encoders/encode_separate.hpp`,
`encoders/encode_encrypt.hpp` and `lib/include/sse/schemes/abstractio/kv_serializer.hpp`, for the
types of the scheme: keys of 16 bytes (`tethys_core_key_type`) and values of 8 bytes (`index_type`).
Then `kAdditionalKeyEntriesPerList = 2`, `kListLengthEntriesNumber = 1`, `kListControlValues = 6`,
and the two branches that fill with dummy bytes (encode_separate.hpp L107-112, L122-128) are not
taken.
-/

namespace Verif.Tethys

/-- `tethys_core_key_type` (types.hpp L12-14) -/
abbrev CoreKey := Vector UInt8 16

/-- `TethysAssignmentEdgeOrientation` (core_types.hpp L9-13) -/
inductive Orientation where
  | incoming
  | outgoing
deriving DecidableEq, Repr

/-- `TethysAssignmentInfo` (core_types.hpp L15-20) -/
structure AssignInfo where
  listLength : UInt64
  assigned : UInt64
  dual : UInt64
  orientation : Orientation

/-- `TethysAssignmentInfo(e, o)` (core_types.hpp L22-33) -/
def AssignInfo.of (e : Edge) : Orientation → AssignInfo
  | .outgoing => ⟨e.capacity, e.flow, e.recFlow, .outgoing⟩
  | .incoming => ⟨e.capacity, e.recFlow, e.flow, .incoming⟩

/-- The bytes written by `EncodeSeparateEncoder::encode` (encode_separate.hpp L49-152) at its
argument `buffer`. The iterators `values.begin() + encoded_list_size` and
`values.end() - encoded_list_size` must stay within the vector. -/
def encode (key : CoreKey) (values : List Index) (i : AssignInfo) : Except Fault (List UInt8) :=
  if i.assigned ≤ 3 then .ok []
  else
    let original := i.listLength - 6
    let k := stdMin (i.assigned - 3) original
    if values.length < k.toNat then .error .outOfBounds
    else
      let sub := match i.orientation with
        | .incoming => values.take k.toNat
        | .outgoing => values.drop (values.length - k.toNat)
      .ok (leBytes 8 k.toNat ++ key.toList ++ sub.flatMap indexBytes)

/-- A write at an offset of a buffer -/
def writeAt (buf : List UInt8) (off : Nat) (bs : List UInt8) : Except Fault (List UInt8) :=
  if off + bs.length ≤ buf.length then .ok (buf.take off ++ bs ++ buf.drop (off + bs.length))
  else .error .outOfBounds

/-- The keystream of ChaCha20 (libsodium's `crypto_stream_chacha20`): a byte for every key, nonce and
position -/
abbrev Cipher := Vector UInt8 32 → Nat → Nat → UInt8

/-- The two encoders: `EncodeSeparateEncoder`, and `EncryptEncoder` on top of it with its key -/
inductive ValueEncoder where
  | separate
  | encrypt (c : Cipher) (key : Vector UInt8 32)

/-- `EncodeSeparateEncoder::finish_block_encoding` (encode_separate.hpp L154-167): the payload and
the returned number of bytes -/
def finishSeparate (payload : List UInt8) (written remaining : Nat) :
    Except Fault (List UInt8 × Nat) :=
  if remaining = 0 then .ok (payload, 0)
  else match writeAt payload written (List.replicate remaining 0) with
    | .error f => .error f
    | .ok p => .ok (p, remaining)

/-- `crypto_stream_chacha20_xor` and the loops of `DecryptDecoder` (encode_encrypt.hpp L76-81,
L160-186): the bytes are xored with the keystream of the nonce `table_index`. -/
def xorStream (c : Cipher) (key : Vector UInt8 32) (tableIndex : Nat) (p : List UInt8) : List UInt8 :=
  p.mapIdx (fun i b => b ^^^ c key tableIndex i)

/-- `finish_block_encoding` of the encoders (encode_separate.hpp L154-167, encode_encrypt.hpp
L61-91) -/
def ValueEncoder.finish (enc : ValueEncoder) (payload : List UInt8) (tableIndex written remaining : Nat) :
    Except Fault (List UInt8 × Nat) :=
  match enc with
  | .separate => finishSeparate payload written remaining
  | .encrypt c key => match finishSeparate payload written remaining with
    | .error f => .error f
    | .ok (p, _) => .ok (xorStream c key tableIndex p, payload.length - written)

/-! ## Decoding -/

/-- The loop L303-309 of `decode_single_bucket` on the bytes from the current offset on: reading past
the end of the array is undefined behaviour. -/
def readValues : Nat → List UInt8 → Except Fault (List Index)
  | 0, _ => .ok []
  | n + 1, b =>
    if b.length < 8 then .error .outOfBounds
    else match readValues n (b.drop 8) with
      | .error f => .error f
      | .ok vs => .ok (bytesIndex (b.take 8) :: vs)

/-- The loop of `EncodeSeparateDecoder::decode_single_bucket` (encode_separate.hpp L276-316); `b` is
the array from the current offset on. Simplification: a jump (L314) so long that the offset would wrap
around is a fault. -/
def decodeLoop (key : CoreKey) : Nat → List UInt8 → Except Fault (List Index)
  | 0, _ => .error .diverge
  | fuel + 1, b =>
    if b.length = 0 then .ok []
    else if b.length < 8 then .error .outOfBounds
    else
      let len := ofLeBytes (b.take 8)
      if len = 0 then .ok []
      else if b.length < 24 then .error .outOfBounds
      else if (b.drop 8).take 16 = key.toList then readValues len (b.drop 24)
      else if 2 ^ 60 ≤ len then .error .outOfBounds
      else decodeLoop key fuel (b.drop (24 + 8 * len))

/-- `decode_single_bucket` (encode_separate.hpp L276-316), the values it appends -/
def decodeSingle (key : CoreKey) (b : List UInt8) : Except Fault (List Index) :=
  decodeLoop key (b.length + 1) b

/-- `EncodeSeparateDecoder::decode_buckets` (encode_separate.hpp L318-329) -/
def decodeBuckets (key : CoreKey) (b0 b1 : List UInt8) : Except Fault (List Index) :=
  match decodeSingle key b0 with
  | .error f => .error f
  | .ok r0 => match decodeSingle key b1 with
    | .error f => .error f
    | .ok r1 => .ok (r0 ++ r1)

/-- `decode_buckets` of the decoder matching an encoder (encode_separate.hpp L318-329,
encode_encrypt.hpp L145-195) -/
def ValueEncoder.decode (enc : ValueEncoder) (key : CoreKey) (b0 : List UInt8) (i0 : Nat)
    (b1 : List UInt8) (i1 : Nat) : Except Fault (List Index) :=
  match enc with
  | .separate => decodeBuckets key b0 b1
  | .encrypt c k => decodeBuckets key (xorStream c k i0 b0) (xorStream c k i1 b1)

/-! ## The stash -/

/-- The bytes written by `serialize_key_value` (encode_separate.hpp L171-239) -/
def serializeKV (key : CoreKey) (values : List Index) (i : AssignInfo) : Except Fault (List UInt8) :=
  let e1 := if i.assigned ≤ 3 then 0 else i.assigned - 3
  let e2 := if i.dual ≤ 3 then 0 else i.dual - 3
  let original := i.listLength - 6
  let e1 := stdMin e1 original
  let e2 := stdMin e2 original
  let vSize := i.listLength - 6 - e1 - e2
  if vSize = 0 then .ok []
  else
    let stop := (UInt64.ofNat values.length - e2).toNat
    if e1.toNat < stop ∧ values.length < stop then .error .outOfBounds
    else .ok (key.toList ++ leBytes 8 vSize.toNat ++
      ((values.take stop).drop e1.toNat).flatMap indexBytes)

/-- `deserialize_key_value` (encode_separate.hpp L331-352, encode_encrypt.hpp L197-219): the pair and
the rest of the stream. Reading past the end of the stream leaves indeterminate values in the
variables and is a fault. -/
def deserializeKV (b : List UInt8) : Except Fault ((CoreKey × List Index) × List UInt8) :=
  if h : b.length < 24 then .error .outOfBounds
  else
    let len := ofLeBytes ((b.drop 16).take 8)
    match readValues len (b.drop 24) with
    | .error f => .error f
    | .ok vs => .ok ((⟨(b.take 16).toArray, by simp; omega⟩, vs), b.drop (24 + 8 * len))

/-- `deserialize_map` (kv_serializer.hpp L76-113): a later pair replaces an earlier one with the same
key. -/
def deserializeMap : Nat → List UInt8 → Map CoreKey (List Index) →
    Except Fault (Map CoreKey (List Index))
  | 0, _, _ => .error .diverge
  | fuel + 1, b, m =>
    if b.length = 0 then .ok m
    else match deserializeKV b with
      | .error f => .error f
      | .ok ((k, v), rest) => deserializeMap fuel rest (m.put k v)

/-- `load_stash` (tethys_store.hpp L146-160, tethys_client.hpp L99-116): nothing when there is no
file -/
def loadStash : Option (List UInt8) → Except Fault (Map CoreKey (List Index))
  | none => .ok Map.empty
  | some b => deserializeMap (b.length + 1) b Map.empty

end Verif.Tethys
