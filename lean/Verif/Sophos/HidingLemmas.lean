import Verif.Common.XorMask
import Mathlib.Logic.Function.Basic

/-! # Masks that differ by a given word -/

namespace Verif

/-- The byte of `d` in position `t`, most significant first -/
def wordByte (d : Index) (t : Nat) : UInt8 := UInt8.ofBitVec ((d >>> (56 - 8 * t)).setWidth 8)

/-- The mask with the first eight bytes changed by the bytes of `d` -/
def shiftMask {N : Nat} (d : Index) (m : Vector UInt8 N) : Vector UInt8 N :=
  Vector.ofFn (fun t => if t.val < 8 then m[t] ^^^ wordByte d t.val else m[t])

theorem byte64_xor (a b : UInt8) : byte64 (a ^^^ b) = byte64 a ^^^ byte64 b := by
  simp [byte64, UInt8.toBitVec_xor]

theorem byteShift_xor (a b : UInt8) (s : Nat) : byte64 (a ^^^ b) <<< s = (byte64 a <<< s) ^^^ (byte64 b <<< s) := by
  rw [byte64_xor, BitVec.shiftLeft_xor_distrib]

theorem xor_sixteen (x a0 a1 a2 a3 a4 a5 a6 a7 b0 b1 b2 b3 b4 b5 b6 b7 : Index) :
    x ^^^ (a0 ^^^ b0) ^^^ (a1 ^^^ b1) ^^^ (a2 ^^^ b2) ^^^ (a3 ^^^ b3) ^^^ (a4 ^^^ b4) ^^^ (a5 ^^^ b5) ^^^ (a6 ^^^ b6)
      ^^^ (a7 ^^^ b7) = (x ^^^ a0 ^^^ a1 ^^^ a2 ^^^ a3 ^^^ a4 ^^^ a5 ^^^ a6 ^^^ a7) ^^^
        (b0 ^^^ b1 ^^^ b2 ^^^ b3 ^^^ b4 ^^^ b5 ^^^ b6 ^^^ b7) := by
  ac_rfl

theorem wordByte_bit (d : Index) (s i : Nat) (h2 : i < 64) :
    (byte64 (UInt8.ofBitVec ((d >>> s).setWidth 8)) <<< s).getLsbD i = (decide (s ≤ i ∧ i < s + 8) && d.getLsbD i) := by
  unfold byte64
  simp only [BitVec.getLsbD_shiftLeft, BitVec.getLsbD_setWidth, BitVec.getLsbD_ushiftRight]
  by_cases h1 : s ≤ i
  · rw [show s + (i - s) = i by omega]
    by_cases h3 : i < s + 8
    · have h4 : i - s < 8 := by omega
      have h5 : i - s < 64 := by omega
      simp [h1, h2, h3, h4, h5]
    · have h4 : ¬ i - s < 8 := by omega
      simp [h1, h2, h3, h4]
  · have h5 : i < s := by omega
    simp [h1, h5]

theorem word_of_bytes (d : Index) :
    (byte64 (wordByte d 0) <<< 56) ^^^ (byte64 (wordByte d 1) <<< 48) ^^^ (byte64 (wordByte d 2) <<< 40)
      ^^^ (byte64 (wordByte d 3) <<< 32) ^^^ (byte64 (wordByte d 4) <<< 24) ^^^ (byte64 (wordByte d 5) <<< 16)
      ^^^ (byte64 (wordByte d 6) <<< 8) ^^^ byte64 (wordByte d 7) = d := by
  apply BitVec.eq_of_getLsbD_eq
  intro i hi
  have h0 : byte64 (wordByte d 7) = byte64 (UInt8.ofBitVec ((d >>> 0).setWidth 8)) <<< 0 := by simp [wordByte]
  rw [h0]
  unfold wordByte
  simp only [BitVec.getLsbD_xor, wordByte_bit _ _ _ hi]
  have hb : ∀ s t, s = 8 * t → decide (s ≤ i ∧ i < s + 8) = decide (i / 8 = t) := by
    intro s t hs
    apply decide_eq_decide.mpr
    omega
  rw [hb (56 - 8 * 0) 7 rfl, hb (56 - 8 * 1) 6 rfl, hb (56 - 8 * 2) 5 rfl, hb (56 - 8 * 3) 4 rfl, hb (56 - 8 * 4) 3 rfl,
    hb (56 - 8 * 5) 2 rfl, hb (56 - 8 * 6) 1 rfl, hb 0 0 rfl]
  have hcase : i / 8 = 0 ∨ i / 8 = 1 ∨ i / 8 = 2 ∨ i / 8 = 3 ∨ i / 8 = 4 ∨ i / 8 = 5 ∨ i / 8 = 6 ∨ i / 8 = 7 := by omega
  rcases hcase with h | h | h | h | h | h | h | h <;> rw [h] <;> simp

theorem shiftMask_get {N : Nat} (d : Index) (m : Vector UInt8 N) (t : Nat) (ht : t < 8) (hN : t < N) :
    (shiftMask d m)[t] = m[t] ^^^ wordByte d t := by
  simp [shiftMask, ht]

theorem xorMask_shiftMask {N : Nat} (hN : 8 ≤ N) (x d : Index) (m : Vector UInt8 N) :
    xorMask hN x (shiftMask d m) = xorMask hN x m ^^^ d := by
  conv => rhs; rw [← word_of_bytes d]
  unfold xorMask
  rw [shiftMask_get d m 0 (by omega) (by omega), shiftMask_get d m 1 (by omega) (by omega),
    shiftMask_get d m 2 (by omega) (by omega), shiftMask_get d m 3 (by omega) (by omega),
    shiftMask_get d m 4 (by omega) (by omega), shiftMask_get d m 5 (by omega) (by omega),
    shiftMask_get d m 6 (by omega) (by omega), shiftMask_get d m 7 (by omega) (by omega)]
  rw [byteShift_xor, byteShift_xor, byteShift_xor, byteShift_xor, byteShift_xor, byteShift_xor, byteShift_xor, byte64_xor,
    xor_sixteen]

theorem shiftMask_shiftMask {N : Nat} (d : Index) (m : Vector UInt8 N) : shiftMask d (shiftMask d m) = m := by
  apply Vector.ext
  intro t ht
  by_cases h : t < 8
  · rw [shiftMask_get _ _ _ h ht, shiftMask_get _ _ _ h ht, UInt8.xor_assoc]
    simp
  · simp [shiftMask, h]

theorem shiftMask_zero {N : Nat} (m : Vector UInt8 N) : shiftMask 0 m = m := by
  apply Vector.ext
  intro t ht
  by_cases h : t < 8
  · rw [shiftMask_get _ _ _ h ht]
    simp [wordByte]
  · simp [shiftMask, h]

/-- The change of masks that turns the document `j` into `i` -/
def changeMask (i j : Index) (m : Vector UInt8 16) : Vector UInt8 16 := shiftMask (i ^^^ j) m

theorem changeMask_bijective (i j : Index) : Function.Bijective (changeMask i j) := by
  constructor
  · intro a b h
    have := congrArg (changeMask i j) h
    simpa [changeMask, shiftMask_shiftMask] using this
  · intro a
    exact ⟨changeMask i j a, shiftMask_shiftMask _ _⟩

end Verif
