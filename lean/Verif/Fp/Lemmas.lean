import Verif.Fp.Model
import Mathlib.Tactic.Linarith
import Mathlib.Tactic.Positivity
import Mathlib.Tactic.FieldSimp
import Mathlib.Tactic.Ring
import Mathlib.Tactic.NormNum
import Mathlib.Data.Nat.Log

/-! # Lemmas on rounding -/

namespace Verif.Fp

/-! ## The power of two below a number -/

theorem two_zpow_pos (k : ℤ) : (0 : ℚ) < 2 ^ k := zpow_pos (by norm_num) k

theorem ilog_spec {x : ℚ} (h : 0 < x) : (2 : ℚ) ^ ilog x ≤ x ∧ x < 2 ^ (ilog x + 1) := by
  have hnum : 0 < x.num := Rat.num_pos.mpr h
  have hden : 0 < x.den := x.pos
  obtain ⟨a, ha⟩ : ∃ a : ℕ, x.num = a := ⟨x.num.toNat, by omega⟩
  have ha0 : a ≠ 0 := by omega
  have hx : x = (a : ℚ) / x.den := by
    conv => lhs; rw [← Rat.num_div_den x]
    rw [ha]; simp
  have a1 : ((2 : ℚ) ^ (Nat.log2 a : ℤ)) ≤ a := by
    rw [zpow_natCast]; exact_mod_cast Nat.log2_self_le ha0
  have a2 : (a : ℚ) < (2 : ℚ) ^ ((Nat.log2 a : ℤ) + 1) := by
    have : ((Nat.log2 a : ℤ) + 1) = ((Nat.log2 a + 1 : ℕ) : ℤ) := by push_cast; rfl
    rw [this, zpow_natCast]; exact_mod_cast Nat.lt_log2_self
  have b1 : ((2 : ℚ) ^ (Nat.log2 x.den : ℤ)) ≤ x.den := by
    rw [zpow_natCast]; exact_mod_cast Nat.log2_self_le (by omega)
  have b2 : (x.den : ℚ) < (2 : ℚ) ^ ((Nat.log2 x.den : ℤ) + 1) := by
    have : ((Nat.log2 x.den : ℤ) + 1) = ((Nat.log2 x.den + 1 : ℕ) : ℤ) := by push_cast; rfl
    rw [this, zpow_natCast]; exact_mod_cast Nat.lt_log2_self
  have hd : (0 : ℚ) < x.den := by exact_mod_cast hden
  have two : (2 : ℚ) ≠ 0 := by norm_num
  unfold ilog
  rw [ha]
  simp only [Int.toNat_natCast]
  generalize (Nat.log2 a : ℤ) = la at a1 a2 ⊢
  generalize (Nat.log2 x.den : ℤ) = ld at b1 b2 ⊢
  generalize (x.den : ℚ) = d at hx hd b1 b2
  split
  · rename_i hle
    refine ⟨hle, ?_⟩
    rw [hx, div_lt_iff₀ hd]
    calc (a : ℚ) < 2 ^ (la + 1) := a2
      _ = 2 ^ (la - ld + 1) * 2 ^ ld := by
        rw [← zpow_add₀ two]; congr 1; ring
      _ ≤ _ := mul_le_mul_of_nonneg_left b1 (two_zpow_pos _).le
  · rename_i hlt
    refine ⟨?_, by rw [sub_add_cancel]; exact not_le.mp hlt⟩
    rw [hx, le_div_iff₀ hd]
    calc (2 : ℚ) ^ (la - ld - 1) * d
        ≤ 2 ^ (la - ld - 1) * 2 ^ (ld + 1) := mul_le_mul_of_nonneg_left b2.le (two_zpow_pos _).le
      _ = 2 ^ la := by rw [← zpow_add₀ two]; congr 1; ring
      _ ≤ a := a1

theorem ilog_unique {x : ℚ} (h : 0 < x) {k : ℤ} (h1 : (2 : ℚ) ^ k ≤ x) (h2 : x < 2 ^ (k + 1)) :
    ilog x = k := by
  obtain ⟨a1, a2⟩ := ilog_spec h
  have two : (1 : ℚ) < 2 := by norm_num
  have e1 : k < ilog x + 1 := (zpow_lt_zpow_iff_right₀ two).mp (lt_of_le_of_lt h1 a2)
  have e2 : ilog x < k + 1 := (zpow_lt_zpow_iff_right₀ two).mp (lt_of_le_of_lt a1 h2)
  omega

theorem ilog_mono {x y : ℚ} (hx : 0 < x) (h : x ≤ y) : ilog x ≤ ilog y := by
  obtain ⟨a1, -⟩ := ilog_spec hx
  obtain ⟨-, b2⟩ := ilog_spec (lt_of_lt_of_le hx h)
  have : ilog x < ilog y + 1 :=
    (zpow_lt_zpow_iff_right₀ (by norm_num : (1 : ℚ) < 2)).mp (lt_of_le_of_lt (a1.trans h) b2)
  omega

/-! ## The nearest integer -/

theorem floor_bounds (x : ℚ) : (⌊x⌋ : ℚ) ≤ x ∧ x < ⌊x⌋ + 1 := ⟨Int.floor_le x, Int.lt_floor_add_one x⟩

theorem roundEven_bounds (x : ℚ) : ⌊x⌋ ≤ roundEven x ∧ roundEven x ≤ ⌊x⌋ + 1 := by
  unfold roundEven
  split
  · omega
  · split
    · omega
    · split <;> omega

theorem roundEven_int (k : ℤ) : roundEven k = k := by
  unfold roundEven
  rw [Int.floor_intCast, if_pos (by norm_num)]

theorem roundEven_error (x : ℚ) : |(roundEven x : ℚ) - x| ≤ 1 / 2 := by
  obtain ⟨h1, h2⟩ := floor_bounds x
  unfold roundEven
  rw [abs_le]
  split
  · constructor <;> linarith
  · split
    · push_cast; constructor <;> linarith
    · split
      · constructor <;> linarith
      · push_cast; constructor <;> linarith

theorem roundEven_mono {x y : ℚ} (h : x ≤ y) : roundEven x ≤ roundEven y := by
  have hf : ⌊x⌋ ≤ ⌊y⌋ := Int.floor_le_floor h
  rcases hf.lt_or_eq with hlt | heq
  · have := (roundEven_bounds x).2
    have := (roundEven_bounds y).1
    omega
  · unfold roundEven
    rw [← heq]
    have hr : x - (⌊x⌋ : ℚ) ≤ y - ⌊x⌋ := by linarith
    split_ifs <;> first | omega | (exfalso; linarith)

theorem le_roundEven {k : ℤ} {x : ℚ} (h : (k : ℚ) ≤ x) : k ≤ roundEven x := by
  rw [← roundEven_int k]; exact roundEven_mono h

theorem roundEven_le {k : ℤ} {x : ℚ} (h : x ≤ k) : roundEven x ≤ k := by
  rw [← roundEven_int k]; exact roundEven_mono h

/-- No integer is nearer. -/
theorem roundEven_nearest (x : ℚ) (k : ℤ) : |(roundEven x : ℚ) - x| ≤ |(k : ℚ) - x| := by
  by_contra hc
  have hc := not_le.mp hc
  have h1 := roundEven_error x
  have h2 : |(k : ℚ) - x| < 1 / 2 := lt_of_lt_of_le hc h1
  have h3 : |(roundEven x : ℚ) - k| < 1 := by
    have := abs_sub_le (roundEven x : ℚ) x k
    rw [abs_sub_comm x k] at this
    linarith
  have h4 : |roundEven x - k| < 1 := by exact_mod_cast h3
  have h5 : roundEven x = k := by have := Int.abs_lt_one_iff.mp h4; omega
  rw [h5] at hc
  exact lt_irrefl _ hc

/-! ## Rounding -/

theorem quantum_pos (p : ℕ) (x : ℚ) : 0 < quantum p x := two_zpow_pos _

theorem rnd_zero (p : ℕ) : rnd p 0 = 0 := by simp [rnd]

theorem rnd_pos_eq (p : ℕ) {x : ℚ} (h : 0 < x) :
    rnd p x = roundEven (x / quantum p x) * quantum p x := by
  rw [rnd, if_neg (not_le.mpr h)]

/-- Multiples of the quantum stay as they are. -/
theorem rnd_exact (p : ℕ) {x : ℚ} (h : 0 < x) {k : ℤ} (hk : x = k * quantum p x) : rnd p x = x := by
  have hq := (quantum_pos p x).ne'
  rw [rnd_pos_eq p h]
  have : x / quantum p x = k := by rw [div_eq_iff hq]; exact hk
  rw [this, roundEven_int]; exact hk.symm

theorem zpow_split (a b : ℤ) : (2 : ℚ) ^ (a + b) = 2 ^ a * 2 ^ b := zpow_add₀ (by norm_num) a b

/-- Bounds in units of the quantum. -/
theorem scaled_bounds (p : ℕ) (hp : 0 < p) {x : ℚ} (h : 0 < x) :
    ((2 ^ (p - 1) : ℕ) : ℚ) ≤ x / quantum p x ∧ x / quantum p x < ((2 ^ p : ℕ) : ℚ) := by
  obtain ⟨a1, a2⟩ := ilog_spec h
  have hq := quantum_pos p x
  rw [le_div_iff₀ hq, div_lt_iff₀ hq]
  unfold quantum
  have e1 : (((2 ^ (p - 1) : ℕ) : ℚ)) = 2 ^ ((p : ℤ) - 1) := by
    rw [Nat.cast_pow, ← zpow_natCast, Nat.cast_pred hp]; norm_num
  have e2 : (((2 ^ p : ℕ) : ℚ)) = 2 ^ (p : ℤ) := by rw [Nat.cast_pow, ← zpow_natCast]; norm_num
  rw [e1, e2, ← zpow_split, ← zpow_split]
  refine ⟨?_, ?_⟩
  · rw [show (p : ℤ) - 1 + (ilog x - ((p : ℤ) - 1)) = ilog x by ring]; exact a1
  · rw [show (p : ℤ) + (ilog x - ((p : ℤ) - 1)) = ilog x + 1 by ring]; exact a2

theorem rnd_bounds (p : ℕ) (hp : 0 < p) {x : ℚ} (h : 0 < x) :
    (2 : ℚ) ^ ilog x ≤ rnd p x ∧ rnd p x ≤ 2 ^ (ilog x + 1) := by
  obtain ⟨b1, b2⟩ := scaled_bounds p hp h
  have hq := quantum_pos p x
  have c1 : ((2 ^ (p - 1) : ℕ) : ℤ) ≤ roundEven (x / quantum p x) := le_roundEven (by exact_mod_cast b1)
  have c2 : roundEven (x / quantum p x) ≤ ((2 ^ p : ℕ) : ℤ) := roundEven_le (by exact_mod_cast b2.le)
  have c1' : (((2 ^ (p - 1) : ℕ)) : ℚ) ≤ roundEven (x / quantum p x) := by exact_mod_cast c1
  have c2' : (roundEven (x / quantum p x) : ℚ) ≤ (((2 ^ p : ℕ)) : ℚ) := by exact_mod_cast c2
  rw [rnd_pos_eq p h]
  have e1 : (((2 ^ (p - 1) : ℕ) : ℚ)) * quantum p x = 2 ^ ilog x := by
    rw [Nat.cast_pow, ← zpow_natCast, Nat.cast_pred hp]
    unfold quantum
    push_cast
    rw [← zpow_split, show (p : ℤ) - 1 + (ilog x - ((p : ℤ) - 1)) = ilog x by ring]
  have e2 : (((2 ^ p : ℕ) : ℚ)) * quantum p x = 2 ^ (ilog x + 1) := by
    rw [Nat.cast_pow, ← zpow_natCast]
    unfold quantum
    push_cast
    rw [← zpow_split, show (p : ℤ) + (ilog x - ((p : ℤ) - 1)) = ilog x + 1 by ring]
  rw [← e1, ← e2]
  exact ⟨mul_le_mul_of_nonneg_right c1' hq.le, mul_le_mul_of_nonneg_right c2' hq.le⟩

theorem rnd_nonneg (p : ℕ) (hp : 0 < p) (x : ℚ) : 0 ≤ rnd p x := by
  by_cases h : x ≤ 0
  · rw [rnd, if_pos h]
  · exact le_trans (two_zpow_pos _).le (rnd_bounds p hp (not_le.mp h)).1

theorem rnd_pos (p : ℕ) (hp : 0 < p) {x : ℚ} (h : 0 < x) : 0 < rnd p x :=
  lt_of_lt_of_le (two_zpow_pos _) (rnd_bounds p hp h).1

/-- Rounding keeps the order. -/
theorem rnd_mono (p : ℕ) (hp : 0 < p) {x y : ℚ} (h : x ≤ y) : rnd p x ≤ rnd p y := by
  by_cases hx : x ≤ 0
  · rw [rnd, if_pos hx]; exact rnd_nonneg p hp y
  · have hx := not_le.mp hx
    have hy := lt_of_lt_of_le hx h
    rcases (ilog_mono hx h).lt_or_eq with hlt | heq
    · refine (rnd_bounds p hp hx).2.trans (le_trans ?_ (rnd_bounds p hp hy).1)
      exact zpow_le_zpow_right₀ (by norm_num) (by omega)
    · have hq : quantum p x = quantum p y := by unfold quantum; rw [heq]
      have hqp := quantum_pos p y
      rw [rnd_pos_eq p hx, rnd_pos_eq p hy, hq]
      apply mul_le_mul_of_nonneg_right _ hqp.le
      exact_mod_cast roundEven_mono (div_le_div_of_nonneg_right h hqp.le)

/-- The rounding error. -/
theorem rnd_error (p : ℕ) (hp : 0 < p) {x : ℚ} (h : 0 ≤ x) : |rnd p x - x| ≤ x * (1 / 2 ^ p) := by
  rcases h.lt_or_eq with h | h
  · have hq := quantum_pos p x
    have he := roundEven_error (x / quantum p x)
    have h1 : |rnd p x - x| = |(roundEven (x / quantum p x) : ℚ) - x / quantum p x| * quantum p x := by
      rw [rnd_pos_eq p h]
      conv => rhs; rw [← abs_of_pos hq]
      rw [← abs_mul, sub_mul, abs_of_pos hq, div_mul_cancel₀ _ hq.ne']
    rw [h1]
    have h2 : |(roundEven (x / quantum p x) : ℚ) - x / quantum p x| * quantum p x ≤ 1 / 2 * quantum p x :=
      mul_le_mul_of_nonneg_right he hq.le
    refine h2.trans ?_
    have h3 := (scaled_bounds p hp h).1
    rw [le_div_iff₀ hq] at h3
    have e : (2 : ℚ) ^ p = 2 * ((2 ^ (p - 1) : ℕ) : ℚ) := by
      obtain ⟨k, rfl⟩ := Nat.exists_eq_add_of_lt hp
      simp [pow_succ]; ring
    rw [mul_one_div, le_div_iff₀ (by positivity), e]
    linarith
  · rw [← h, rnd_zero]; simp

/-- Numbers of `p` bits. -/
def Representable (p : ℕ) (y : ℚ) : Prop := ∃ (m : ℕ) (k : ℤ), m < 2 ^ p ∧ y = m * 2 ^ k

/-- A number of `p` bits is not changed. -/
theorem rnd_representable (p : ℕ) {y : ℚ} (hy : Representable p y) : rnd p y = y := by
  obtain ⟨m, k, hm, rfl⟩ := hy
  by_cases h0 : m = 0
  · subst h0; simp [rnd_zero]
  · have hpos : (0 : ℚ) < m * 2 ^ k := by
      have : (0 : ℚ) < m := by exact_mod_cast Nat.pos_of_ne_zero h0
      exact mul_pos this (two_zpow_pos k)
    -- the quantum is at most 2 ^ k
    have hk : ilog (m * 2 ^ k : ℚ) - ((p : ℤ) - 1) ≤ k := by
      obtain ⟨a1, -⟩ := ilog_spec hpos
      have : (2 : ℚ) ^ ilog (m * 2 ^ k : ℚ) < 2 ^ ((p : ℤ) + k) := by
        refine lt_of_le_of_lt a1 ?_
        rw [zpow_split, zpow_natCast]
        exact mul_lt_mul_of_pos_right (by exact_mod_cast hm) (two_zpow_pos k)
      have := (zpow_lt_zpow_iff_right₀ (by norm_num : (1 : ℚ) < 2)).mp this
      omega
    obtain ⟨d, hd⟩ := Int.eq_ofNat_of_zero_le (sub_nonneg.mpr hk)
    apply rnd_exact p hpos (k := (m : ℤ) * 2 ^ d)
    unfold quantum
    push_cast
    rw [mul_assoc, ← zpow_natCast, ← zpow_split, ← hd, sub_add_cancel]

theorem representable_nat (p n : ℕ) (hp : 0 < p) (h : n ≤ 2 ^ p) : Representable p n := by
  rcases h.lt_or_eq with h | h
  · exact ⟨n, 0, h, by simp⟩
  · refine ⟨1, p, Nat.one_lt_two_pow (by omega), ?_⟩
    rw [h]; simp

theorem rnd_nat (p n : ℕ) (hp : 0 < p) (h : n ≤ 2 ^ p) : rnd p n = n :=
  rnd_representable p (representable_nat p n hp h)

/-- No number of `p` bits is nearer. -/
theorem rnd_nearest (p : ℕ) (hp : 0 < p) {x y : ℚ} (hx : 0 ≤ x) (hy : Representable p y) :
    |rnd p x - x| ≤ |y - x| := by
  rcases hx.lt_or_eq with h | h
  · have hq := quantum_pos p x
    obtain ⟨a1, a2⟩ := ilog_spec h
    -- multiples of the quantum are not nearer
    have hmul : ∀ k : ℤ, |rnd p x - x| ≤ |k * quantum p x - x| := by
      intro k
      have hn := roundEven_nearest (x / quantum p x) k
      have e1 : ∀ z : ℚ, |z * quantum p x - x| = |z - x / quantum p x| * quantum p x := by
        intro z
        conv => rhs; rw [← abs_of_pos hq]
        rw [← abs_mul, sub_mul, abs_of_pos hq, div_mul_cancel₀ _ hq.ne']
      rw [rnd_pos_eq p h, e1, e1]
      exact mul_le_mul_of_nonneg_right hn hq.le
    obtain ⟨m, k, hm, rfl⟩ := hy
    by_cases hk : ilog x - ((p : ℤ) - 1) ≤ k
    · obtain ⟨d, hd⟩ := Int.eq_ofNat_of_zero_le (sub_nonneg.mpr hk)
      have := hmul ((m : ℤ) * 2 ^ d)
      have e : (((m : ℤ) * 2 ^ d : ℤ) : ℚ) * quantum p x = m * 2 ^ k := by
        unfold quantum
        push_cast
        rw [mul_assoc, ← zpow_natCast, ← zpow_split, ← hd, sub_add_cancel]
      rw [e] at this
      exact this
    · -- below the power of two
      have hlt : (m : ℚ) * 2 ^ k < 2 ^ ilog x := by
        have hm' : (m : ℚ) < 2 ^ (p : ℤ) := by rw [zpow_natCast]; exact_mod_cast hm
        calc (m : ℚ) * 2 ^ k < 2 ^ (p : ℤ) * 2 ^ k := mul_lt_mul_of_pos_right hm' (two_zpow_pos k)
          _ = 2 ^ ((p : ℤ) + k) := (zpow_split _ _).symm
          _ ≤ 2 ^ ilog x := zpow_le_zpow_right₀ (by norm_num) (by omega)
      have h1 := hmul ((2 ^ (p - 1) : ℕ) : ℤ)
      have e1 : ((((2 ^ (p - 1) : ℕ) : ℤ)) : ℚ) * quantum p x = 2 ^ ilog x := by
        push_cast
        rw [← zpow_natCast, Nat.cast_pred hp]
        unfold quantum
        rw [← zpow_split, show (p : ℤ) - 1 + (ilog x - ((p : ℤ) - 1)) = ilog x by ring]
      rw [e1] at h1
      refine h1.trans ?_
      rw [abs_of_nonpos (by linarith), abs_of_nonpos (by linarith)]
      linarith
  · rw [← h, rnd_zero]; simp

end Verif.Fp
