import Verif.Common.XorMask

/-!
# C39: masking a document index is reversible

The specification is stated bit by bit / byte by byte, independently of the shifting code.
-/

namespace Verif.Utils

open Verif

/-- Byte `j` (0 = most significant) of a 64-bit word. -/
def bigEndianByte (x : Index) (j : Nat) : BitVec 8 := x.extractLsb' (56 - 8 * j) 8

/-- C39 (a): masking twice with the same mask is the identity. -/
theorem C39_mask_involutive {N : Nat} (hN : 8 ≤ N) (x : Index) (m : Vector UInt8 N) :
    xorMask hN (xorMask hN x m) m = x := xorMask_xorMask hN x m

/-- C39 (b): different indexes have different masked values. -/
theorem C39_mask_injective {N : Nat} (hN : 8 ≤ N) (m : Vector UInt8 N) (x y : Index) (h : x ≠ y) :
    xorMask hN x m ≠ xorMask hN y m := fun e => h (xorMask_injective hN m e)

/-- C39 (c): byte `j` of the mask is applied to byte `j` of the index, most significant byte
first, for all eight bytes of the index. -/
theorem C39_mask_positions {N : Nat} (hN : 8 ≤ N) (x : Index) (m : Vector UInt8 N) (j : Nat)
    (hj : j < 8) :
    bigEndianByte (xorMask hN x m) j = bigEndianByte x j ^^^ (m[j]'(by omega)).toBitVec := by
  apply BitVec.eq_of_getLsbD_eq
  intro i hi
  have : j = 0 ∨ j = 1 ∨ j = 2 ∨ j = 3 ∨ j = 4 ∨ j = 5 ∨ j = 6 ∨ j = 7 := by omega
  rcases this with h | h | h | h | h | h | h | h <;> subst h <;>
  · simp only [bigEndianByte, xorMask, byte64, BitVec.getLsbD_extractLsb', BitVec.getLsbD_xor,
      BitVec.getLsbD_shiftLeft, BitVec.getLsbD_setWidth]
    have : i = 0 ∨ i = 1 ∨ i = 2 ∨ i = 3 ∨ i = 4 ∨ i = 5 ∨ i = 6 ∨ i = 7 := by omega
    rcases this with h | h | h | h | h | h | h | h <;> subst h <;>
      simp

/-- C39 (d): only the first eight mask bytes matter. -/
theorem C39_mask_only_first_eight {N : Nat} (hN : 8 ≤ N) (x : Index) (m m' : Vector UInt8 N)
    (h : ∀ j (hj : j < 8), m[j]'(by omega) = m'[j]'(by omega)) :
    xorMask hN x m = xorMask hN x m' := by
  simp only [xorMask, h 0 (by decide), h 1 (by decide), h 2 (by decide), h 3 (by decide),
    h 4 (by decide), h 5 (by decide), h 6 (by decide), h 7 (by decide)]

/-- C39 for the byte-wise overloads used by Diana: involutive. -/
theorem C39_bytes_involutive {N : Nat} (x m : Vector UInt8 N) : xorBytes (xorBytes x m) m = x :=
  xorBytes_xorBytes x m

/-- C39 for the byte-wise overloads: injective. -/
theorem C39_bytes_injective {N : Nat} (m x y : Vector UInt8 N) (h : x ≠ y) :
    xorBytes x m ≠ xorBytes y m := fun e => h (xorBytes_injective m e)

/-- C39 for the byte-wise overloads: positions. -/
theorem C39_bytes_positions {N : Nat} (x m : Vector UInt8 N) (j : Nat) (hj : j < N) :
    (xorBytes x m)[j] = x[j] ^^^ m[j] := by
  simp [xorBytes]

/-- Non-vacuity: a concrete 16-byte mask. -/
example : xorMask (N := 16) (by decide) 0x0102030405060708#64
    (Vector.ofFn fun i => UInt8.ofNat (i.val + 16)) = 0x111311171113111F#64 := by
  decide

end Verif.Utils
