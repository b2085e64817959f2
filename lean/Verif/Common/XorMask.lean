/-!
# Masking of document indexes

`utility::xor_mask`, `/repo/lib/include/sse/schemes/utils/utils.hpp` L35-49, and the
byte-wise `diana::xor_mask`, `/repo/lib/include/sse/schemes/diana/types.hpp` L79-120.
-/

namespace Verif

/-- `uint64_t` document index. -/
abbrev Index := BitVec 64

/-- `static_cast<uint64_t>(mask[j])`. -/
def byte64 (b : UInt8) : BitVec 64 := b.toBitVec.setWidth 64

/-- `utility::xor_mask<N>` (utils.hpp L35-49); the `static_assert(N >= 8)` of L38 is the
hypothesis `hN`. -/
def xorMask {N : Nat} (hN : 8 ≤ N) (x : Index) (m : Vector UInt8 N) : Index :=
  x ^^^ (byte64 m[0] <<< 56)
    ^^^ (byte64 m[1] <<< 48)
    ^^^ (byte64 m[2] <<< 40)
    ^^^ (byte64 m[3] <<< 32)
    ^^^ (byte64 m[4] <<< 24)
    ^^^ (byte64 m[5] <<< 16)
    ^^^ (byte64 m[6] <<< 8)
    ^^^ (byte64 m[7])

/-- `diana::xor_mask` on byte arrays (diana/types.hpp L110-120); the scalar overload L94-108
does the same on the bytes of the scalar. -/
def xorBytes {N : Nat} (x m : Vector UInt8 N) : Vector UInt8 N :=
  Vector.zipWith (· ^^^ ·) x m

/-- The 64-bit word by which `xorMask` masks. -/
def maskWord {N : Nat} (hN : 8 ≤ N) (m : Vector UInt8 N) : Index := xorMask hN 0#64 m

theorem xorMask_eq {N : Nat} (hN : 8 ≤ N) (x : Index) (m : Vector UInt8 N) :
    xorMask hN x m = x ^^^ maskWord hN m := by
  simp [maskWord, xorMask, BitVec.xor_assoc]

theorem xorMask_xorMask {N : Nat} (hN : 8 ≤ N) (x : Index) (m : Vector UInt8 N) :
    xorMask hN (xorMask hN x m) m = x := by
  simp [xorMask_eq, BitVec.xor_assoc]

theorem xorMask_injective {N : Nat} (hN : 8 ≤ N) (m : Vector UInt8 N) {x y : Index}
    (h : xorMask hN x m = xorMask hN y m) : x = y := by
  have := congrArg (fun z => xorMask hN z m) h
  simpa [xorMask_xorMask] using this

theorem xorBytes_xorBytes {N : Nat} (x m : Vector UInt8 N) : xorBytes (xorBytes x m) m = x := by
  apply Vector.ext
  intro i hi
  simp [xorBytes, UInt8.xor_assoc]

theorem xorBytes_injective {N : Nat} (m : Vector UInt8 N) {x y : Vector UInt8 N}
    (h : xorBytes x m = xorBytes y m) : x = y := by
  have := congrArg (fun z => xorBytes z m) h
  simpa [xorBytes_xorBytes] using this

end Verif
