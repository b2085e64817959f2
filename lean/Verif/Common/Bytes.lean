import Verif.Common.XorMask

/-!
# Byte representation of integers

`reinterpret_cast<const char*>(&x)` of an unsigned integer on a little-endian machine (the only
ones the schemes run on: `/repo/lib/abstractio` and the RocksDB code copy integers byte by byte).
-/

namespace Verif

/-- The `n` low bytes of `x`, little endian. -/
def leBytes : Nat → Nat → List UInt8
  | 0, _ => []
  | n + 1, x => UInt8.ofNat (x % 256) :: leBytes n (x / 256)

/-- The number written in a list of bytes, little endian. -/
def ofLeBytes : List UInt8 → Nat
  | [] => 0
  | b :: bs => b.toNat + 256 * ofLeBytes bs

@[simp] theorem leBytes_length (n x : Nat) : (leBytes n x).length = n := by
  induction n generalizing x with
  | zero => rfl
  | succ n ih => simp [leBytes, ih]

theorem ofLeBytes_leBytes (n x : Nat) (h : x < 256 ^ n) : ofLeBytes (leBytes n x) = x := by
  induction n generalizing x with
  | zero => simp at h; subst h; rfl
  | succ n ih =>
    have h1 : x / 256 < 256 ^ n := by
      rw [Nat.pow_succ] at h
      exact Nat.div_lt_of_lt_mul (by omega)
    rw [leBytes, ofLeBytes, ih _ h1]
    have h2 : (UInt8.ofNat (x % 256)).toNat = x % 256 := by simp
    omega

theorem ofLeBytes_lt (l : List UInt8) : ofLeBytes l < 256 ^ l.length := by
  induction l with
  | nil => simp [ofLeBytes]
  | cons b l ih =>
    have := b.toNat_lt
    rw [ofLeBytes, List.length_cons, Nat.pow_succ]
    omega

theorem leBytes_ofLeBytes (l : List UInt8) : leBytes l.length (ofLeBytes l) = l := by
  induction l with
  | nil => rfl
  | cons b l ih =>
    have h1 := b.toNat_lt
    have h2 : (b.toNat + 256 * ofLeBytes l) % 256 = b.toNat := by omega
    have h3 : (b.toNat + 256 * ofLeBytes l) / 256 = ofLeBytes l := by omega
    rw [List.length_cons, leBytes, ofLeBytes, h2, h3, ih]
    simp

theorem leBytes_injective {n x y : Nat} (hx : x < 256 ^ n) (hy : y < 256 ^ n)
    (h : leBytes n x = leBytes n y) : x = y := by
  rw [← ofLeBytes_leBytes n x hx, ← ofLeBytes_leBytes n y hy, h]

/-- The 8 bytes of a `uint64_t`. -/
def indexBytes (i : Index) : List UInt8 := leBytes 8 i.toNat

/-- The `uint64_t` held by 8 bytes. -/
def bytesIndex (l : List UInt8) : Index := BitVec.ofNat 64 (ofLeBytes l)

@[simp] theorem indexBytes_length (i : Index) : (indexBytes i).length = 8 := leBytes_length _ _

@[simp] theorem bytesIndex_indexBytes (i : Index) : bytesIndex (indexBytes i) = i := by
  unfold bytesIndex indexBytes
  rw [ofLeBytes_leBytes _ _ (by have := i.isLt; omega)]
  simp

end Verif
