import Verif.Fp.Lemmas

/-!
# Lemmas on the computed sizes
-/

namespace Verif.Fp

theorem toSize_some {x : ℚ} {s : ℕ} : toSize x = some s ↔ ⌊x⌋ = s ∧ s < 2 ^ 64 := by
  unfold toSize
  split
  · rename_i h
    constructor
    · intro e
      have := Option.some.inj e
      omega
    · rintro ⟨h1, h2⟩
      rw [h1, Int.toNat_natCast]
  · rename_i h
    constructor
    · intro e; cases e
    · rintro ⟨h1, h2⟩; omega

theorem toSize_int {k : ℤ} {s : ℕ} : toSize (k : ℚ) = some s ↔ k = s ∧ s < 2 ^ 64 := by
  rw [toSize_some, Int.floor_intCast]

theorem graphSize_some {n b s : ℕ} {epsilon : ℚ} : graphSize n b epsilon = some s ↔
    2 * ⌈rnd 53 (rnd 53 (1 + epsilon) * rnd 53 (buckets n b))⌉ = s ∧ s < 2 ^ 64 := by
  unfold graphSize
  generalize rnd 53 (rnd 53 (1 + epsilon) * rnd 53 (buckets n b)) = x
  have : (2 * (⌈x⌉ : ℚ)) = ((2 * ⌈x⌉ : ℤ) : ℚ) := by push_cast; rfl
  rw [this, toSize_int]

theorem cuckooSize_some {n s : ℕ} {epsilon : ℚ} : cuckooSize n epsilon = some s ↔
    ⌈rnd 53 (rnd 53 (1 + epsilon / 2) * rnd 53 n)⌉ = s ∧ s < 2 ^ 64 := by
  unfold cuckooSize
  rw [toSize_int]

theorem le_ceil_mul {a b : ℕ} : a ≤ buckets a b * b ∨ b = 0 := by
  by_cases hb : b = 0
  · exact .inr hb
  · left
    unfold buckets
    have h1 := Nat.div_add_mod a b
    have h2 : a / b * b = b * (a / b) := Nat.mul_comm _ _
    split
    · rw [Nat.add_zero]; omega
    · have h3 := Nat.mod_lt a (Nat.pos_of_ne_zero hb)
      rw [Nat.add_mul, one_mul]; omega

theorem buckets_pos {n b : ℕ} (hn : 0 < n) : 0 < buckets n b := by
  unfold buckets
  split
  · rename_i h
    have := Nat.div_add_mod n b
    rcases Nat.eq_zero_or_pos (n / b) with h0 | h0
    · rw [h0, h] at this; simp at this; omega
    · exact h0
  · exact Nat.succ_pos _

/-- `buckets` is the ceiling of the quotient. -/
theorem buckets_eq {n b : ℕ} (hb : 0 < b) : (buckets n b : ℤ) = ⌈(n : ℚ) / b⌉ := by
  have hb' : (0 : ℚ) < b := by exact_mod_cast hb
  symm
  rw [Int.ceil_eq_iff]
  have h1 := Nat.div_add_mod n b
  have h3 := Nat.mod_lt n hb
  have e : (n : ℚ) = b * (n / b : ℕ) + (n % b : ℕ) := by exact_mod_cast h1.symm
  constructor
  · rw [lt_div_iff₀ hb']
    unfold buckets
    generalize n / b = q at *
    generalize n % b = r at *
    have hr : (0 : ℚ) ≤ r := by positivity
    split
    · push_cast; nlinarith
    · rename_i hne
      have : (0 : ℚ) < r := by exact_mod_cast Nat.pos_of_ne_zero hne
      push_cast; nlinarith
  · rw [div_le_iff₀ hb']
    rcases le_ceil_mul (a := n) (b := b) with h | h
    · exact_mod_cast h
    · omega

theorem buckets_mono {n m b : ℕ} (h : n ≤ m) : buckets n b ≤ buckets m b := by
  by_cases hb : b = 0
  · subst hb
    unfold buckets
    simp only [Nat.div_zero, Nat.mod_zero, zero_add]
    split <;> split <;> omega
  · have hb := Nat.pos_of_ne_zero hb
    have hb' : (0 : ℚ) < b := by exact_mod_cast hb
    have : (buckets n b : ℤ) ≤ buckets m b := by
      rw [buckets_eq hb, buckets_eq hb]
      exact Int.ceil_le_ceil ((div_le_div_iff_of_pos_right hb').mpr (by exact_mod_cast h))
    exact_mod_cast this

/-- The product computed by both functions. -/
def product (f : ℚ) (n : ℕ) : ℚ := rnd 53 (rnd 53 f * rnd 53 n)

theorem product_mono {f g : ℚ} {n m : ℕ} (hf : f ≤ g) (h : n ≤ m) : product f n ≤ product g m := by
  unfold product
  apply rnd_mono 53 (by norm_num)
  apply mul_le_mul (rnd_mono 53 (by norm_num) hf) (rnd_mono 53 (by norm_num) (by exact_mod_cast h))
  · exact rnd_nonneg 53 (by norm_num) _
  · exact rnd_nonneg 53 (by norm_num) _

theorem product_pos {f : ℚ} {n : ℕ} (hf : 0 < f) (h : 0 < n) : 0 < product f n :=
  rnd_pos 53 (by norm_num) (mul_pos (rnd_pos 53 (by norm_num) hf)
    (rnd_pos 53 (by norm_num) (by exact_mod_cast h)))

theorem product_zero (f : ℚ) : product f 0 = 0 := by
  unfold product
  rw [show ((0 : ℕ) : ℚ) = 0 by norm_num, rnd_zero, mul_zero, rnd_zero]

theorem le_product {f : ℚ} {n : ℕ} (hf : 1 ≤ f) (h : n ≤ 2 ^ 53) : (n : ℚ) ≤ product f n := by
  have h1 : (1 : ℚ) ≤ rnd 53 f := by
    have := rnd_mono 53 (by norm_num) hf
    rwa [show (1 : ℚ) = ((1 : ℕ) : ℚ) by norm_num, rnd_nat 53 1 (by norm_num) (by norm_num)] at this
  unfold product
  rw [rnd_nat 53 n (by norm_num) h]
  have h2 : (n : ℚ) ≤ rnd 53 f * n := le_mul_of_one_le_left (by positivity) h1
  have := rnd_mono 53 (by norm_num) h2
  rwa [rnd_nat 53 n (by norm_num) h] at this

/-- Relative error of three roundings -/
theorem product_error {f : ℚ} {n : ℕ} (hf : 0 ≤ f) :
    (1 - 1 / 2 ^ 51) * (f * n) ≤ product f n ∧ product f n ≤ (1 + 1 / 2 ^ 51) * (f * n) := by
  have hn : (0 : ℚ) ≤ n := by positivity
  have e1 := abs_le.mp (rnd_error 53 (by norm_num) hf)
  have e2 := abs_le.mp (rnd_error 53 (by norm_num) hn)
  have p1 := rnd_nonneg 53 (by norm_num) f
  have p2 := rnd_nonneg 53 (by norm_num) (n : ℚ)
  have e3 := abs_le.mp (rnd_error 53 (by norm_num) (mul_nonneg p1 p2))
  unfold product
  generalize rnd 53 (rnd 53 f * rnd 53 n) = z at *
  generalize rnd 53 f = x at *
  generalize rnd 53 (n : ℚ) = y at *
  generalize (n : ℚ) = m at *
  have u1 : (1 - 1 / 2 ^ 53) * f ≤ x := by linarith [e1.1]
  have u2 : x ≤ (1 + 1 / 2 ^ 53) * f := by linarith [e1.2]
  have v1 : (1 - 1 / 2 ^ 53) * m ≤ y := by linarith [e2.1]
  have v2 : y ≤ (1 + 1 / 2 ^ 53) * m := by linarith [e2.2]
  have w1 : (1 - 1 / 2 ^ 53) * (x * y) ≤ z := by linarith [e3.1]
  have w2 : z ≤ (1 + 1 / 2 ^ 53) * (x * y) := by linarith [e3.2]
  have xy1 : ((1 - 1 / 2 ^ 53) * f) * ((1 - 1 / 2 ^ 53) * m) ≤ x * y :=
    mul_le_mul u1 v1 (mul_nonneg (by norm_num) hn) p1
  have xy2 : x * y ≤ ((1 + 1 / 2 ^ 53) * f) * ((1 + 1 / 2 ^ 53) * m) :=
    mul_le_mul u2 v2 p2 (mul_nonneg (by norm_num) hf)
  have fm : 0 ≤ f * m := mul_nonneg hf hn
  constructor
  · calc (1 - 1 / 2 ^ 51) * (f * m) ≤ ((1 - 1 / 2 ^ 53) * (1 - 1 / 2 ^ 53) * (1 - 1 / 2 ^ 53)) * (f * m) :=
          mul_le_mul_of_nonneg_right (by norm_num) fm
      _ = (1 - 1 / 2 ^ 53) * (((1 - 1 / 2 ^ 53) * f) * ((1 - 1 / 2 ^ 53) * m)) := by ring
      _ ≤ (1 - 1 / 2 ^ 53) * (x * y) := mul_le_mul_of_nonneg_left xy1 (by norm_num)
      _ ≤ z := w1
  · calc z ≤ (1 + 1 / 2 ^ 53) * (x * y) := w2
      _ ≤ (1 + 1 / 2 ^ 53) * (((1 + 1 / 2 ^ 53) * f) * ((1 + 1 / 2 ^ 53) * m)) :=
          mul_le_mul_of_nonneg_left xy2 (by norm_num)
      _ = ((1 + 1 / 2 ^ 53) * (1 + 1 / 2 ^ 53) * (1 + 1 / 2 ^ 53)) * (f * m) := by ring
      _ ≤ (1 + 1 / 2 ^ 51) * (f * m) := mul_le_mul_of_nonneg_right (by norm_num) fm

/-- The result has `p` bits. -/
theorem representable_rnd (p : ℕ) (hp : 0 < p) (x : ℚ) : Representable p (rnd p x) := by
  by_cases h : x ≤ 0
  · rw [rnd, if_pos h]; exact ⟨0, 0, by positivity, by simp⟩
  · have h := not_le.mp h
    rw [rnd_pos_eq p h]
    obtain ⟨b1, b2⟩ := scaled_bounds p hp h
    have c1 : (0 : ℤ) ≤ roundEven (x / quantum p x) :=
      le_roundEven (by have : (0 : ℚ) ≤ ((2 ^ (p - 1) : ℕ) : ℚ) := by positivity
                       push_cast at *; linarith)
    have c2 : roundEven (x / quantum p x) ≤ ((2 ^ p : ℕ) : ℤ) := roundEven_le (by exact_mod_cast b2.le)
    obtain ⟨m, hm⟩ := Int.eq_ofNat_of_zero_le c1
    rw [hm] at c2 ⊢
    have c2 : m ≤ 2 ^ p := by exact_mod_cast c2
    rcases c2.lt_or_eq with c2 | c2
    · exact ⟨m, _, c2, by unfold quantum; push_cast; rfl⟩
    · refine ⟨1, (p : ℤ) + (ilog x - ((p : ℤ) - 1)), Nat.one_lt_two_pow (by omega), ?_⟩
      rw [c2, zpow_split]; unfold quantum; push_cast; rw [zpow_natCast, one_mul]

/-! ## Groups of the generator -/

theorem pow_53 {p : ℕ} (hp : 53 ≤ p) : (0 : ℚ) < 1 / 2 ^ p ∧ (1 : ℚ) / 2 ^ p ≤ 1 / 2 ^ 53 := by
  constructor
  · positivity
  · exact one_div_le_one_div_of_le (by positivity) (pow_le_pow_right₀ (by norm_num) hp)

theorem rnd_between {p : ℕ} (hp : 53 ≤ p) {x : ℚ} (h : 0 ≤ x) :
    (1 - 1 / 2 ^ 53) * x ≤ rnd p x ∧ rnd p x ≤ (1 + 1 / 2 ^ 53) * x := by
  obtain ⟨u1, u2⟩ := pow_53 hp
  have e := abs_le.mp (rnd_error p (by omega) h)
  have : x * (1 / 2 ^ p) ≤ x * (1 / 2 ^ 53) := mul_le_mul_of_nonneg_left u2 h
  constructor
  · linarith [e.1]
  · linarith [e.2]

theorem onePointTwo_ge : (6 / 5 : ℚ) * (1 - 1 / 2 ^ 53) ≤ onePointTwo := by
  unfold onePointTwo; norm_num

/-- The quotient is below the exact one without the factor. -/
theorem quotient_le {p : ℕ} (hp : 53 ≤ p) {f : ℚ} (hf0 : 0 ≤ f) (hf1 : f ≤ 1) (e : ℕ) {d : ℕ} (hd : 0 < d) :
    rnd p (rnd p (f * rnd p e) / rnd p (onePointTwo * rnd p d)) * d ≤ e := by
  have he : (0 : ℚ) ≤ e := by positivity
  have hd : (0 : ℚ) < d := by exact_mod_cast hd
  generalize (e : ℚ) = e at *
  generalize (d : ℚ) = d at *
  have hp0 : 0 < p := by omega
  have hc : (0 : ℚ) < onePointTwo := by unfold onePointTwo; norm_num
  have a1 := rnd_between hp he
  have a0 := rnd_nonneg p hp0 e
  have b1 := rnd_between hp hd.le
  have b0 := rnd_pos p hp0 hd
  have a2 := rnd_between hp (mul_nonneg hf0 a0)
  have b2 := rnd_between hp (mul_pos hc b0).le
  have a3 := rnd_nonneg p hp0 (f * rnd p e)
  have b3 := rnd_pos p hp0 (mul_pos hc b0)
  have q := rnd_between hp (div_nonneg a3 b3.le)
  generalize rnd p (rnd p (f * rnd p e) / rnd p (onePointTwo * rnd p d)) = z at *
  generalize rnd p (f * rnd p e) = x at *
  generalize rnd p (onePointTwo * rnd p d) = y at *
  generalize rnd p e = e' at *
  generalize rnd p d = d' at *
  have x1 : x ≤ (1 + 1 / 2 ^ 53) * ((1 + 1 / 2 ^ 53) * e) := by
    refine a2.2.trans (mul_le_mul_of_nonneg_left ?_ (by norm_num))
    calc f * e' ≤ 1 * e' := mul_le_mul_of_nonneg_right hf1 a0
      _ = e' := one_mul _
      _ ≤ _ := a1.2
  have y1 : (11 / 10 : ℚ) * d ≤ y := by
    have : (6 / 5 : ℚ) * (1 - 1 / 2 ^ 53) * ((1 - 1 / 2 ^ 53) * d) ≤ onePointTwo * d' :=
      mul_le_mul onePointTwo_ge b1.1 (mul_nonneg (by norm_num) hd.le) hc.le
    have : (1 - 1 / 2 ^ 53) * ((6 / 5 : ℚ) * (1 - 1 / 2 ^ 53) * ((1 - 1 / 2 ^ 53) * d)) ≤ y :=
      (mul_le_mul_of_nonneg_left this (by norm_num)).trans b2.1
    refine le_trans ?_ this
    rw [← mul_assoc, ← mul_assoc]
    exact mul_le_mul_of_nonneg_right (by norm_num) hd.le
  have z1 : z * y ≤ (1 + 1 / 2 ^ 53) * x := by
    have := mul_le_mul_of_nonneg_right q.2 b3.le
    rwa [mul_assoc, div_mul_cancel₀ _ b3.ne'] at this
  have z0 : 0 ≤ z := le_trans (mul_nonneg (by norm_num) (div_nonneg a3 b3.le)) q.1
  have z2 : z * ((11 / 10 : ℚ) * d) ≤ (1 + 1 / 2 ^ 53) * ((1 + 1 / 2 ^ 53) * ((1 + 1 / 2 ^ 53) * e)) :=
    (mul_le_mul_of_nonneg_left y1 z0).trans (z1.trans (mul_le_mul_of_nonneg_left x1 (by norm_num)))
  have z3 : (1 + 1 / 2 ^ 53) * ((1 + 1 / 2 ^ 53) * ((1 + 1 / 2 ^ 53) * e)) ≤ (11 / 10 : ℚ) * e := by
    rw [← mul_assoc, ← mul_assoc]
    exact mul_le_mul_of_nonneg_right (by norm_num) he
  linarith

/-- Without groups the threshold is 0. -/
theorem threshold_zero (p : ℕ) (factor : ℚ) (size step entries : ℕ) :
    threshold p factor 0 size step entries = 0 := by
  simp [threshold, rnd_zero]

theorem draw_nonneg (ind : ℕ) : 0 ≤ draw ind := rnd_nonneg 53 (by norm_num) _

/-! ## Thresholds -/

/-- `y` is `x` up to `k` roundings of relative error 2^-53, up or down. -/
def Near (k : ℕ) (x y : ℚ) : Prop := (1 - 1 / 2 ^ 53) ^ k * x ≤ y ∧ y * (1 - 1 / 2 ^ 53) ^ k ≤ x

theorem near_refl {x : ℚ} : Near 0 x x := by simp [Near]

theorem near_rnd {p : ℕ} (hp : 53 ≤ p) {k : ℕ} {x y : ℚ} (hy : 0 ≤ y) (h : Near k x y) :
    Near (k + 1) x (rnd p y) := by
  obtain ⟨h1, h2⟩ := h
  obtain ⟨e1, e2⟩ := rnd_between hp hy
  have hu : (0 : ℚ) ≤ 1 - 1 / 2 ^ 53 := by norm_num
  have hk : (0 : ℚ) ≤ (1 - 1 / 2 ^ 53) ^ k := pow_nonneg hu k
  refine ⟨?_, ?_⟩
  · calc (1 - 1 / 2 ^ 53) ^ (k + 1) * x = (1 - 1 / 2 ^ 53) * ((1 - 1 / 2 ^ 53) ^ k * x) := by rw [pow_succ]; ring
      _ ≤ (1 - 1 / 2 ^ 53) * y := mul_le_mul_of_nonneg_left h1 hu
      _ ≤ _ := e1
  · have e3 : rnd p y * (1 - 1 / 2 ^ 53) ≤ y := by
      calc rnd p y * (1 - 1 / 2 ^ 53) ≤ (1 + 1 / 2 ^ 53) * y * (1 - 1 / 2 ^ 53) := mul_le_mul_of_nonneg_right e2 hu
        _ = ((1 + 1 / 2 ^ 53) * (1 - 1 / 2 ^ 53)) * y := by ring
        _ ≤ 1 * y := mul_le_mul_of_nonneg_right (by norm_num) hy
        _ = y := one_mul y
    calc rnd p y * (1 - 1 / 2 ^ 53) ^ (k + 1) = (rnd p y * (1 - 1 / 2 ^ 53)) * (1 - 1 / 2 ^ 53) ^ k := by
          rw [pow_succ]; ring
      _ ≤ y * (1 - 1 / 2 ^ 53) ^ k := mul_le_mul_of_nonneg_right e3 hk
      _ ≤ x := h2

theorem near_mul {k l : ℕ} {x y x' y' : ℚ} (hx : 0 ≤ x) (hx' : 0 ≤ x') (hy : 0 ≤ y) (hy' : 0 ≤ y')
    (h : Near k x y) (h' : Near l x' y') : Near (k + l) (x * x') (y * y') := by
  obtain ⟨h1, h2⟩ := h
  obtain ⟨h3, h4⟩ := h'
  have hu : (0 : ℚ) ≤ 1 - 1 / 2 ^ 53 := by norm_num
  have hk : (0 : ℚ) ≤ (1 - 1 / 2 ^ 53) ^ k := pow_nonneg hu k
  have hl : (0 : ℚ) ≤ (1 - 1 / 2 ^ 53) ^ l := pow_nonneg hu l
  constructor
  · calc (1 - 1 / 2 ^ 53) ^ (k + l) * (x * x') = ((1 - 1 / 2 ^ 53) ^ k * x) * ((1 - 1 / 2 ^ 53) ^ l * x') := by
          rw [pow_add]; ring
      _ ≤ y * y' := mul_le_mul h1 h3 (mul_nonneg hl hx') hy
  · calc y * y' * (1 - 1 / 2 ^ 53) ^ (k + l) = (y * (1 - 1 / 2 ^ 53) ^ k) * (y' * (1 - 1 / 2 ^ 53) ^ l) := by
          rw [pow_add]; ring
      _ ≤ x * x' := mul_le_mul h2 h4 (mul_nonneg hy' hl) hx

theorem near_div {k l : ℕ} {x y x' y' : ℚ} (hx : 0 ≤ x) (hx' : 0 < x') (hy : 0 ≤ y) (hy' : 0 < y')
    (h : Near k x y) (h' : Near l x' y') : Near (k + l) (x / x') (y / y') := by
  have hi : Near l x'⁻¹ y'⁻¹ := by
    obtain ⟨h3, h4⟩ := h'
    constructor
    · rw [← div_eq_mul_inv, div_le_iff₀ hx', inv_mul_eq_div, le_div_iff₀ hy', mul_comm]; exact h4
    · rw [inv_mul_eq_div, div_le_iff₀ hy', inv_mul_eq_div, le_div_iff₀ hx']; exact h3
  rw [div_eq_mul_inv, div_eq_mul_inv]
  exact near_mul hx (inv_nonneg.mpr hx'.le) hy (inv_nonneg.mpr hy'.le) h hi

theorem near_nat {p : ℕ} (hp : 53 ≤ p) (n : ℕ) : Near 1 (n : ℚ) (rnd p n) :=
  near_rnd hp (by positivity) near_refl

theorem near_threshold {p : ℕ} (hp : 53 ≤ p) {c f : ℚ} (hc : 0 < c) (hf : 0 < f) (hn : Near 1 c f)
    (g s k : ℕ) {e : ℕ} (he : 0 < e) : Near 9 (c * ((g * s * k : ℕ) : ℚ) / e) (threshold p f g s k e) := by
  have hp0 : 0 < p := by omega
  have he : (0 : ℚ) < e := by exact_mod_cast he
  unfold threshold
  have n0 := fun x => rnd_nonneg p hp0 x
  have a1 := near_rnd hp (mul_nonneg (n0 _) (n0 _))
    (near_mul (by positivity) (by positivity) (n0 _) (n0 _) (near_nat hp g) (near_nat hp s))
  have a2 := near_rnd hp (mul_nonneg (n0 _) (n0 _))
    (near_mul (by positivity) (by positivity) (n0 _) (n0 _) a1 (near_nat hp k))
  have a3 := near_rnd hp (mul_nonneg hf.le (n0 _)) (near_mul hc.le (by positivity) hf.le (n0 _) hn a2)
  have a4 := near_rnd hp (div_nonneg (n0 _) (n0 _))
    (near_div (by positivity) he (n0 _) (rnd_pos p hp0 he) a3 (near_nat hp e))
  push_cast
  exact a4

theorem near_draw (ind : ℕ) : Near 3 ((ind : ℚ) / ((2 ^ 64 - 1 : ℕ) : ℚ)) (draw ind) := by
  have h : (0 : ℚ) < ((2 ^ 64 - 1 : ℕ) : ℚ) := by norm_num
  have n0 := fun x => rnd_nonneg 53 (by norm_num) x
  exact near_rnd (le_refl _) (div_nonneg (n0 _) (n0 _))
    (near_div (by positivity) h (n0 _) (rnd_pos 53 (by norm_num) h) (near_nat (le_refl _) ind) (near_nat (le_refl _) _))

/-- What is near two numbers of which one is less by a relative 2^-48 has their order. -/
theorem near_lt {k l : ℕ} (hkl : k + l ≤ 12) {x y x' y' : ℚ}
    (h : Near k x x') (h' : Near l y y') (hlt : x < (1 - 1 / 2 ^ 48) * y) (hy0 : 0 < y) : x' < y' := by
  obtain ⟨-, h2⟩ := h
  obtain ⟨h3, -⟩ := h'
  have hu : (0 : ℚ) < 1 - 1 / 2 ^ 53 := by norm_num
  have hu1 : (1 - 1 / 2 ^ 53 : ℚ) ≤ 1 := by norm_num
  have hk : (0 : ℚ) < (1 - 1 / 2 ^ 53) ^ k := pow_pos hu k
  have e : (1 - 1 / 2 ^ 48 : ℚ) ≤ (1 - 1 / 2 ^ 53) ^ (l + k) :=
    le_trans (by norm_num : (1 - 1 / 2 ^ 48 : ℚ) ≤ (1 - 1 / 2 ^ 53) ^ 12) (pow_le_pow_of_le_one hu.le hu1 (by omega))
  have : x' * (1 - 1 / 2 ^ 53) ^ k < y' * (1 - 1 / 2 ^ 53) ^ k :=
    calc x' * (1 - 1 / 2 ^ 53) ^ k ≤ x := h2
      _ < (1 - 1 / 2 ^ 48) * y := hlt
      _ ≤ (1 - 1 / 2 ^ 53) ^ (l + k) * y := mul_le_mul_of_nonneg_right e hy0.le
      _ = ((1 - 1 / 2 ^ 53) ^ l * y) * (1 - 1 / 2 ^ 53) ^ k := by rw [pow_add]; ring
      _ ≤ _ := mul_le_mul_of_nonneg_right h3 hk.le
  exact lt_of_mul_lt_mul_right this hk.le

end Verif.Fp
