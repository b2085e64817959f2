import Verif.Fp.SizeLemmas
import Verif.Tethys.Store
import Verif.Oceanus.Cuckoo
import Verif.Generator.Props
import Verif.Generator.Computed

/-!
# C71: sizes computed with floating point

The tables of Tethys, Pluto and Oceanus have room for the announced number of elements: half the buckets of Tethys,
and each of the two tables of Oceanus.  Their sizes follow the formulas `2 (1 + ε) n / b` and `(1 + ε/2) n`, grow with
`n` and `ε`, and are not zero, so that the builders divide by them.  The generator of databases uses no more groups of
keywords than it has documents for, and all of them are used.

Violated: above 2^53 elements (buckets) there may be too little room (`C71_room_violated`), a table for no element has
size 0 and the first insertion divides by zero (`C71_zero_violated`), large sizes are undefined behaviour
(`C71_overflow_violated`), and groups from number 65536 on are not used (`C71_groups_violated`).
-/

namespace Verif.Fp

/-! ## Rounding

The model of rounding is the one of IEEE 754, stated independently of its computation. -/

/-- Rounding gives a number of `p` bits, and no number of `p` bits is nearer. -/
theorem C71_rounding (p : ℕ) (hp : 0 < p) (x : ℚ) (hx : 0 ≤ x) :
    (∃ (m : ℕ) (k : ℤ), m < 2 ^ p ∧ rnd p x = m * 2 ^ k) ∧
      ∀ (m : ℕ) (k : ℤ), m < 2 ^ p → |rnd p x - x| ≤ |(m : ℚ) * 2 ^ k - x| :=
  ⟨representable_rnd p hp x, fun m k hm => rnd_nearest p hp hx ⟨m, k, hm, rfl⟩⟩

/-- 1.1 in a `double`; and 2^53 + 1 and 2^53 + 3, half way between two numbers, go to the even one. -/
example : rnd 53 (11 / 10) = 4953959590107546 / 2 ^ 52 ∧ rnd 53 (2 ^ 53 + 1) = 2 ^ 53 ∧
    rnd 53 (2 ^ 53 + 3) = 2 ^ 53 + 4 ∧ rnd 64 (2 ^ 53 + 1) = 2 ^ 53 + 1 := by
  decide +kernel

/-! ## Room -/

/-- **C71 (part that holds)**, Tethys: half of the buckets have room for all elements.  Missing: more than 2^53
buckets, see `C71_room_violated`. -/
theorem C71_graph_room_partial (n b s : ℕ) (hb : 0 < b) (hn : n ≤ 2 ^ 53 * b) (epsilon : ℚ) (he : 0 ≤ epsilon)
    (h : graphSize n b epsilon = some s) : 2 ∣ s ∧ n ≤ s / 2 * b := by
  obtain ⟨h1, -⟩ := graphSize_some.mp h
  have hk : buckets n b ≤ 2 ^ 53 := by
    have : (buckets n b : ℤ) ≤ ((2 ^ 53 : ℕ) : ℤ) := by
      rw [buckets_eq hb, Int.ceil_le, div_le_iff₀ (by exact_mod_cast hb)]
      exact_mod_cast hn
    exact_mod_cast this
  have h2 := le_product (f := 1 + epsilon) (by linarith) hk
  unfold product at h2
  have h3 := Int.ceil_le_ceil h2
  rw [Int.ceil_natCast] at h3
  refine ⟨by omega, ?_⟩
  rcases le_ceil_mul (a := n) (b := b) with h4 | h4
  · refine h4.trans (Nat.mul_le_mul_right b ?_)
    omega
  · omega

/-- **C71 (part that holds)**, Oceanus: each of the two tables has room for all elements.  Missing: more than 2^53
elements. -/
theorem C71_cuckoo_room_partial (n s : ℕ) (hn : n ≤ 2 ^ 53) (epsilon : ℚ) (he : 0 ≤ epsilon)
    (h : cuckooSize n epsilon = some s) : n ≤ s := by
  obtain ⟨h1, -⟩ := cuckooSize_some.mp h
  have h2 := le_product (f := 1 + epsilon / 2) (by linarith) hn
  unfold product at h2
  have h3 := Int.ceil_le_ceil h2
  rw [Int.ceil_natCast] at h3
  omega

/-- 1000 elements, `ε` = 0.3 (the `double`), buckets of 512 indices; and 1000 elements with `ε` = 0.1. -/
example : graphSize 1000 512 (5404319552844595 / 2 ^ 54) = some 6 ∧
    cuckooSize 1000 (3602879701896397 / 2 ^ 55) = some 1050 := by
  decide +kernel

/-- **C71 is violated** above 2^53: 2^53 + 1 elements (buckets) are rounded to 2^53. -/
theorem C71_room_violated :
    cuckooSize (2 ^ 53 + 1) 0 = some (2 ^ 53) ∧
    ∃ s, graphSize ((2 ^ 53 + 1) * 512) 512 0 = some s ∧ s / 2 * 512 < (2 ^ 53 + 1) * 512 := by
  refine ⟨by decide +kernel, 2 ^ 54, by decide +kernel, by decide⟩

/-! ## The formulas -/

/-- **C71**: the sizes are those of the formulas, up to a relative error of 2^-51 and the rounding to an integer. -/
theorem C71_accuracy (n b s : ℕ) (epsilon : ℚ) (he : -1 ≤ epsilon) :
    (0 < b → graphSize n b epsilon = some s →
      2 * ((1 - 1 / 2 ^ 51) * ((1 + epsilon) * ⌈(n : ℚ) / b⌉)) ≤ s ∧
      s < 2 * ((1 + 1 / 2 ^ 51) * ((1 + epsilon) * ⌈(n : ℚ) / b⌉)) + 2) ∧
    (cuckooSize n epsilon = some s →
      (1 - 1 / 2 ^ 51) * ((1 + epsilon / 2) * n) ≤ s ∧ s < (1 + 1 / 2 ^ 51) * ((1 + epsilon / 2) * n) + 1) := by
  constructor
  · intro hb h
    obtain ⟨h1, -⟩ := graphSize_some.mp h
    have h1 : 2 * (⌈product (1 + epsilon) (buckets n b)⌉ : ℚ) = s := by exact_mod_cast h1
    obtain ⟨e1, e2⟩ := product_error (f := 1 + epsilon) (n := buckets n b) (by linarith)
    have e : ((⌈(n : ℚ) / b⌉ : ℤ) : ℚ) = (buckets n b : ℚ) := by rw [← buckets_eq hb]; simp
    rw [e]
    have c1 := Int.le_ceil (product (1 + epsilon) (buckets n b))
    have c2 := Int.ceil_lt_add_one (product (1 + epsilon) (buckets n b))
    constructor <;> linarith
  · intro h
    obtain ⟨h1, -⟩ := cuckooSize_some.mp h
    have h1 : (⌈product (1 + epsilon / 2) n⌉ : ℚ) = s := by exact_mod_cast h1
    obtain ⟨e1, e2⟩ := product_error (f := 1 + epsilon / 2) (n := n) (by linarith)
    have c1 := Int.le_ceil (product (1 + epsilon / 2) n)
    have c2 := Int.ceil_lt_add_one (product (1 + epsilon / 2) n)
    constructor <;> linarith

/-- The rounding matters: for 10 elements and `ε` = 0.2 the exact size is 11, as computed; for 100 elements and
`ε` = 0.28 the exact one is 114, and 115 is computed. -/
example : cuckooSize 10 (3602879701896397 / 2 ^ 54) = some 11 ∧
    cuckooSize 100 (1261007895663739 / 2 ^ 52) = some 115 := by
  decide +kernel

/-- **C71**: the sizes grow with the number of elements and with `ε`. -/
theorem C71_mono (n n' b s s' : ℕ) (hn : n ≤ n') (epsilon epsilon' : ℚ) (he : epsilon ≤ epsilon') :
    (graphSize n b epsilon = some s → graphSize n' b epsilon' = some s' → s ≤ s') ∧
    (cuckooSize n epsilon = some s → cuckooSize n' epsilon' = some s' → s ≤ s') := by
  constructor
  · intro h h'
    obtain ⟨h1, -⟩ := graphSize_some.mp h
    obtain ⟨h1', -⟩ := graphSize_some.mp h'
    have := Int.ceil_le_ceil (product_mono (f := 1 + epsilon) (g := 1 + epsilon') (by linarith)
      (buckets_mono (b := b) hn))
    unfold product at this
    omega
  · intro h h'
    obtain ⟨h1, -⟩ := cuckooSize_some.mp h
    obtain ⟨h1', -⟩ := cuckooSize_some.mp h'
    have := Int.ceil_le_ceil (product_mono (f := 1 + epsilon / 2) (g := 1 + epsilon' / 2) (by linarith) hn)
    unfold product at this
    omega

example : cuckooSize 1000 (3602879701896397 / 2 ^ 55) = some 1050 ∧
    cuckooSize 2000 (5404319552844595 / 2 ^ 54) = some 2300 := by
  decide +kernel

/-! ## No undefined behaviour -/

/-- **C71 (part that holds)**: the sizes are defined when the exact ones are at most 2^63.  Missing: larger sizes, see
`C71_overflow_violated`. -/
theorem C71_defined_partial (n b : ℕ) (epsilon : ℚ) (he : -1 ≤ epsilon) :
    (0 < b → 2 * ((1 + epsilon) * ⌈(n : ℚ) / b⌉) ≤ 2 ^ 63 → ∃ s, graphSize n b epsilon = some s) ∧
    ((1 + epsilon / 2) * n ≤ 2 ^ 63 → ∃ s, cuckooSize n epsilon = some s) := by
  constructor
  · intro hb h
    have e : ((⌈(n : ℚ) / b⌉ : ℤ) : ℚ) = (buckets n b : ℚ) := by rw [← buckets_eq hb]; simp
    rw [e] at h
    obtain ⟨e1, e2⟩ := product_error (f := 1 + epsilon) (n := buckets n b) (by linarith)
    have p0 : 0 ≤ product (1 + epsilon) (buckets n b) := rnd_nonneg 53 (by norm_num) _
    have c0 : 0 ≤ ⌈product (1 + epsilon) (buckets n b)⌉ := Int.ceil_nonneg p0
    have c2 : ⌈product (1 + epsilon) (buckets n b)⌉ ≤ 2 ^ 63 - 1 := by
      rw [Int.ceil_le]; push_cast; linarith
    refine ⟨(2 * ⌈product (1 + epsilon) (buckets n b)⌉).toNat, graphSize_some.mpr ⟨?_, ?_⟩⟩
    · unfold product at *; omega
    · omega
  · intro h
    obtain ⟨e1, e2⟩ := product_error (f := 1 + epsilon / 2) (n := n) (by linarith)
    have p0 : 0 ≤ product (1 + epsilon / 2) n := rnd_nonneg 53 (by norm_num) _
    have c0 : 0 ≤ ⌈product (1 + epsilon / 2) n⌉ := Int.ceil_nonneg p0
    have c2 : ⌈product (1 + epsilon / 2) n⌉ ≤ 2 ^ 64 - 1 := by
      rw [Int.ceil_le]; push_cast; linarith
    refine ⟨⌈product (1 + epsilon / 2) n⌉.toNat, cuckooSize_some.mpr ⟨?_, ?_⟩⟩
    · unfold product at *; omega
    · omega

example : 2 * ((1 + 1 / 10) * ⌈((10 ^ 12 : ℕ) : ℚ) / (512 : ℕ)⌉) ≤ (2 ^ 63 : ℚ) ∧
    graphSize (10 ^ 12) 512 (3602879701896397 / 2 ^ 55) = some 4296875000 := by
  constructor
  · have : ⌈((10 ^ 12 : ℕ) : ℚ) / (512 : ℕ)⌉ = 1953125000 := by rw [Int.ceil_eq_iff]; norm_num
    rw [this]; norm_num
  · decide +kernel

/-- **C71 is violated**: 2^63 elements with `ε` = 2 need a table of 2^64 cells, and the conversion is undefined
behaviour; as for 2^63 buckets with `ε` = 0. -/
theorem C71_overflow_violated : cuckooSize (2 ^ 63) 2 = none ∧ graphSize (2 ^ 63) 1 0 = none := by
  decide +kernel

/-! ## No division by zero -/

theorem insert_not_divByZero (a : Tethys.Allocator) (l : Tethys.ListInfo) : a.insert l ≠ .error .divByZero := by
  unfold Tethys.Allocator.insert Tethys.Graph.addEdge
  repeat' split
  all_goals simp_all
  all_goals (rename_i h; repeat' split at h)
  all_goals (try cases h)
  all_goals simp

/-- **C71 (part that holds)**: with at least one element announced, the builder of Tethys does not divide by zero, nor
do lookups in a table of that size.  Missing: no element, see `C71_zero_violated`. -/
theorem C71_graph_nonzero_partial (n b s : ℕ) (hn : 0 < n) (epsilon : ℚ) (he : -1 < epsilon)
    (h : graphSize n b epsilon = some s) :
    2 ≤ s ∧
    (∀ (B : Tethys.Builder) (key : Tethys.CoreKey) (vals : List Index), B.size = s →
      (B.insertList key vals).2 ≠ .error .divByZero) ∧
    ∀ (S : Tethys.Store) (key : Tethys.CoreKey), S.table.length = s → ∃ p, S.getBuckets key = .ok p := by
  obtain ⟨h1, -⟩ := graphSize_some.mp h
  have h2 := Int.ceil_pos.mpr (product_pos (f := 1 + epsilon) (by linarith) (buckets_pos (b := b) hn))
  unfold product at h2
  have hs : 2 ≤ s := by omega
  refine ⟨hs, ?_, ?_⟩
  · intro B key vals hB
    unfold Tethys.Builder.insertList
    split
    · simp
    · dsimp only
      rw [hB, if_neg (by omega)]
      split
      · rename_i f hf
        intro hc
        dsimp only at hc
        exact insert_not_divByZero _ _ (hf.trans (congrArg _ (Except.error.inj hc)))
      · simp
  · intro S key hS
    unfold Tethys.Store.getBuckets
    dsimp only
    rw [hS, if_neg (by omega)]
    have l0 := Nat.mod_lt (S.hash key).1.toNat (show 0 < s / 2 by omega)
    have l1 := Nat.mod_lt (S.hash key).2.toNat (show 0 < s - s / 2 by omega)
    rw [List.getElem?_eq_getElem (by omega), List.getElem?_eq_getElem (by omega)]
    exact ⟨_, rfl⟩

theorem insertLoop_not_divByZero : ∀ (d : ℕ) (a : Oceanus.Alloc) (v : Oceanus.Cell) (t : Bool), a.size ≠ 0 →
    a.insertLoop v t d ≠ .error .divByZero := by
  intro d
  induction d with
  | zero => intro a v t h; simp [Oceanus.Alloc.insertLoop]
  | succ d ih =>
    intro a v t h
    unfold Oceanus.Alloc.insertLoop
    split
    · simp
    · dsimp only
      split
      · simp
      · refine ih _ _ _ ?_
        unfold Oceanus.Alloc.put
        split <;> exact h

/-- **C71 (part that holds)**: with at least one element announced, the builder of Oceanus does not divide by zero, nor
do lookups in a table of that size. -/
theorem C71_cuckoo_nonzero_partial (n s : ℕ) (hn : 0 < n) (epsilon : ℚ) (he : -2 < epsilon)
    (h : cuckooSize n epsilon = some s) :
    1 ≤ s ∧
    (∀ {m : ℕ} (B : Oceanus.Builder m) (key : Oceanus.Key) (val : Vector UInt8 m), B.alloc.size = s →
      B.insert key val ≠ .error .divByZero) ∧
    ∀ {m : ℕ} (T : Oceanus.Table m) (key : Oceanus.Key), T.size = s → T.get key ≠ .error .divByZero := by
  obtain ⟨h1, -⟩ := cuckooSize_some.mp h
  have h2 := Int.ceil_pos.mpr (product_pos (f := 1 + epsilon / 2) (by linarith) hn)
  unfold product at h2
  have hs : 1 ≤ s := by omega
  refine ⟨hs, ?_, ?_⟩
  · intro m B key val hB
    unfold Oceanus.Builder.insert
    split
    · simp
    · dsimp only
      split
      · rename_i f hf
        intro hc
        have hc := Except.error.inj hc
        subst hc
        unfold Oceanus.Alloc.insert at hf
        split at hf
        · cases hf
        · split at hf
          · rename_i g hg
            have hc := Except.error.inj hf
            subst hc
            exact insertLoop_not_divByZero _ _ _ _ (by omega) hg
          · cases hf
      · simp
  · intro m T key hT
    unfold Oceanus.Table.get
    rw [if_neg (by omega)]
    repeat' split
    all_goals simp

/-- **C71 is violated** for tables for no element: their size is 0, and the first insertion divides by zero. -/
theorem C71_zero_violated (b : ℕ) (epsilon : ℚ) :
    graphSize 0 b epsilon = some 0 ∧ cuckooSize 0 epsilon = some 0 ∧
    (∀ (B : Tethys.Builder) (key : Tethys.CoreKey) (vals : List Index), B.size = 0 → B.built = false →
      (B.insertList key vals).2 = .error .divByZero) ∧
    ∀ {m : ℕ} (hash : Oceanus.Key → Oceanus.CKey) (depth : ℕ) (key : Oceanus.Key) (val : Vector UInt8 m), 0 < depth →
      ((Oceanus.Builder.new m 0 depth hash).insert key val) = .error .divByZero := by
  have hb : buckets 0 b = 0 := by unfold buckets; simp
  refine ⟨?_, ?_, ?_, ?_⟩
  · have := product_zero (1 + epsilon)
    unfold product at this
    rw [graphSize_some, hb, this]
    simp
  · have := product_zero (1 + epsilon / 2)
    unfold product at this
    rw [cuckooSize_some, this]
    simp
  · intro B key vals h1 h2
    unfold Tethys.Builder.insertList
    rw [h2]
    simp [h1]
  · intro m hash depth key val hd
    obtain ⟨d, rfl⟩ := Nat.exists_eq_add_of_lt hd
    unfold Oceanus.Builder.insert Oceanus.Builder.new Oceanus.Alloc.insert Oceanus.Alloc.new
    have e1 : (UInt64.ofNat ([] : List (Oceanus.Payload m)).length) = 0 := rfl
    simp only [e1]
    rw [if_neg (by decide), if_neg (by decide)]
    rw [Nat.zero_add]
    unfold Oceanus.Alloc.insertLoop
    rw [if_neg (by simp [Oceanus.Cell.full, Oceanus.emptyIndex])]
    rfl

/-- One element, `ε` = 0: two buckets, and tables of one cell. -/
example : graphSize 1 512 0 = some 2 ∧ cuckooSize 1 0 = some 1 := by decide +kernel

/-! ## Groups of the generator -/

open Verif.Generator

/-- **C71**: the constants of the generator are the numbers of 53 bits nearest to 1.2, 1.4 and 0.9. -/
theorem C71_constants : onePointTwo = rnd 53 (6 / 5) ∧ onePointFour = rnd 53 (7 / 5) ∧ zeroPointNine = rnd 53 (9 / 10) := by
  decide +kernel

/-- **C71**: for each family of random groups, the number of groups of a thread is defined, and the documents of the
database are enough for the groups of all threads. -/
theorem C71_groups (p : ℕ) (hp : 53 ≤ p) (entries : UInt64) (threads : UInt32) (hn : threads ≠ 0) (r : RandId) :
    ∃ g, groupsOf p entries.toNat threads.toNat r = some g ∧
      (Params.computed p entries threads).nGroups r = UInt64.ofNat g ∧ g < 2 ^ 64 ∧
      threads.toNat * (g * r.size.toNat) ≤ entries.toNat := by
  have hpos : 0 < threads.toNat := Nat.pos_of_ne_zero (fun e => hn (UInt32.toNat_inj.mp e))
  have hlt := threads.toNat_lt
  have hE := entries.toNat_lt
  have hs : 0 < r.size.toNat ∧ r.size.toNat ≤ 1000000 := by cases r <;> decide
  have hd : 0 < threads.toNat * r.size.toNat := Nat.mul_pos hpos hs.1
  have hd2 : threads.toNat * r.size.toNat < 2 ^ 64 := by
    have := Nat.mul_le_mul hlt.le hs.2
    omega
  have hf : 0 ≤ r.fraction ∧ r.fraction ≤ 1 := by
    cases r <;> simp only [RandId.fraction, zeroPointNine] <;> constructor <;> norm_num
  have q := quotient_le hp hf.1 hf.2 entries.toNat hd
  have q0 := rnd_nonneg p (by omega)
    (rnd p (r.fraction * rnd p entries.toNat) / rnd p (onePointTwo * rnd p ((threads.toNat * r.size.toNat : ℕ) : ℚ)))
  have e : groupsOf p entries.toNat threads.toNat r = toSize (⌊rnd p (rnd p (r.fraction * rnd p entries.toNat) /
      rnd p (onePointTwo * rnd p ((threads.toNat * r.size.toNat : ℕ) : ℚ)))⌋ : ℚ) := by
    unfold groupsOf numGroups
    rw [Nat.mod_eq_of_lt hd2, if_neg (by omega)]
  generalize rnd p (rnd p (r.fraction * rnd p entries.toNat) /
      rnd p (onePointTwo * rnd p ((threads.toNat * r.size.toNat : ℕ) : ℚ))) = z at *
  have f0 : 0 ≤ ⌊z⌋ := Int.floor_nonneg.mpr q0
  obtain ⟨g, hg⟩ := Int.eq_ofNat_of_zero_le f0
  have hle : (g : ℚ) ≤ z := by
    have := Int.floor_le z
    rw [hg] at this
    exact_mod_cast this
  have hmul : g * (threads.toNat * r.size.toNat) ≤ entries.toNat := by
    have : (g : ℚ) * (threads.toNat * r.size.toNat : ℕ) ≤ entries.toNat :=
      (mul_le_mul_of_nonneg_right hle (by positivity)).trans q
    exact_mod_cast this
  have hg2 : g ≤ entries.toNat := (Nat.le_mul_of_pos_right g hd).trans hmul
  have hsome : groupsOf p entries.toNat threads.toNat r = some g := by
    rw [e, toSize_int]
    exact ⟨hg, by omega⟩
  refine ⟨g, hsome, ?_, by omega, ?_⟩
  · show UInt64.ofNat ((groupsOf p entries.toNat threads.toNat r).getD 0) = _
    rw [hsome]; rfl
  · calc threads.toNat * (g * r.size.toNat) = g * (threads.toNat * r.size.toNat) := by ring
      _ ≤ _ := hmul

/-- A million documents, 8 threads -/
example : [RandId.r2, .r3, .r4, .r5, .r6].map (groupsOf 64 1000000 8) =
    [some 937, some 104, some 10, some 1, some 0] := by
  decide +kernel

/-- **C71**: with the numbers of groups and the thresholds that it computes, the generation ends without undefined
behaviour (C45 assumes that there are groups where the threshold is passed, which is proved for these numbers). -/
theorem C71_generation (p : ℕ) (entries : UInt64) (threads : UInt32) (hn : threads ≠ 0)
    (hfit : entries.toNat + threads.toNat ≤ 2 ^ 64) (rnd : ℕ → ℕ → UInt64) :
    (∃ tr, GenDb (Params.computed p entries threads) threads rnd tr ∧ docs tr = entries) ∧
    ∀ t : UInt32, ¬ Faults (Params.computed p entries threads) t threads.toUInt64 (rnd t.toNat)
      (St.init (Params.computed p entries threads) t) := by
  obtain ⟨⟨tr, h⟩, h2⟩ := C45_terminates_partial (Params.computed p entries threads) threads hn hfit rnd
  exact ⟨⟨tr, h, (C45_documents_partial _ threads hn hfit rnd tr h).1⟩, h2⟩

/-- A million documents, 8 threads: a draw of 2^60 is below the threshold of the first family and not below the one of
the last family, which has no groups. -/
example : (Params.computed 64 1000000 8).below .r2 0x1000000000000000 = true ∧
    (Params.computed 64 1000000 8).below .r6 0 = false := by
  decide +kernel

/-- **C71**: a document is proposed to the groups of a family if and only if its identifier, as a fraction of the
largest identifier, is below the part of the documents that the groups can have, times 7/5 for the first family and
6/5 for the others, up to a relative error of 2^-48. -/
theorem C71_threshold (p : ℕ) (hp : 53 ≤ p) (entries : UInt64) (he : entries ≠ 0) (threads : UInt32) (r : RandId)
    (g : ℕ) (hg : (Params.computed p entries threads).nGroups r = UInt64.ofNat g) (hg2 : g < 2 ^ 64) (ind : UInt64) :
    let x : ℚ := (if r = .r2 then 7 / 5 else 6 / 5) * ((g * r.size.toNat * threads.toNat : ℕ) : ℚ) / entries.toNat
    ((ind.toNat : ℚ) / ((2 ^ 64 - 1 : ℕ) : ℚ) < (1 - 1 / 2 ^ 48) * x →
      (Params.computed p entries threads).below r ind = true) ∧
    (x < (1 - 1 / 2 ^ 48) * ((ind.toNat : ℚ) / ((2 ^ 64 - 1 : ℕ) : ℚ)) →
      (Params.computed p entries threads).below r ind = false) := by
  have hE : 0 < entries.toNat := Nat.pos_of_ne_zero (fun e => he (UInt64.toNat_inj.mp e))
  have hgn : (UInt64.ofNat ((groupsOf p entries.toNat threads.toNat r).getD 0)).toNat = g := by
    have : (Params.computed p entries threads).nGroups r =
      UInt64.ofNat ((groupsOf p entries.toNat threads.toNat r).getD 0) := rfl
    rw [← this, hg, UInt64.toNat_ofNat', Nat.mod_eq_of_lt hg2]
  have hb : (Params.computed p entries threads).below r ind = decide (draw ind.toNat <
      threshold p r.factor g r.size.toNat threads.toNat entries.toNat) := by
    conv => rhs; rw [← hgn]
    rfl
  have hc : (0 : ℚ) < (if r = .r2 then 7 / 5 else 6 / 5) ∧ 0 < r.factor ∧
      Near 1 (if r = .r2 then 7 / 5 else 6 / 5) r.factor := by
    cases r <;> simp [RandId.factor, onePointTwo, onePointFour, Near] <;> norm_num
  have nt := near_threshold hp hc.1 hc.2.1 hc.2.2 g r.size.toNat threads.toNat hE
  have nd := near_draw ind.toNat
  intro x
  constructor
  · intro h
    rw [hb, decide_eq_true_eq]
    have hx : 0 < x := by
      by_contra hx
      have h0 : (0 : ℚ) ≤ (ind.toNat : ℚ) / ((2 ^ 64 - 1 : ℕ) : ℚ) := by positivity
      have : (1 - 1 / 2 ^ 48) * x ≤ 0 := mul_nonpos_of_nonneg_of_nonpos (by norm_num) (not_lt.mp hx)
      linarith
    exact near_lt (by norm_num) nd nt h hx
  · intro h
    rw [hb, decide_eq_false_iff_not]
    have hx : 0 ≤ x := div_nonneg (mul_nonneg hc.1.le (by positivity)) (by positivity)
    have hi : 0 < (ind.toNat : ℚ) / ((2 ^ 64 - 1 : ℕ) : ℚ) := by
      by_contra hi
      have : (1 - 1 / 2 ^ 48) * ((ind.toNat : ℚ) / ((2 ^ 64 - 1 : ℕ) : ℚ)) ≤ 0 :=
        mul_nonpos_of_nonneg_of_nonpos (by norm_num) (not_lt.mp hi)
      linarith
    exact not_lt.mpr (near_lt (by norm_num) nt nd h hi).le

/-- 1000 documents, one thread: no group of 10^3 documents; 7 groups of 100 documents, to which the documents with
identifiers below 98 % of the largest are proposed. -/
example : (Params.computed 64 1000 1).nGroups .r2 = UInt64.ofNat 7 ∧ (Params.computed 64 1000 1).nGroups .r3 = 0 ∧
    (Params.computed 64 1000 1).below .r2 (UInt64.ofNat (2 ^ 64 / 100 * 97)) = true ∧
    (Params.computed 64 1000 1).below .r2 (UInt64.ofNat (2 ^ 64 / 100 * 99)) = false := by
  decide +kernel

/-- **C71 is violated**: the number of a group is cut to 16 bits, and groups from number 65536 on are never reported.
One thread that generates 10^9 documents has 83333 groups of 10^4 documents. -/
theorem C71_groups_violated :
    groupsOf 64 1000000000 1 .r4 = some 83333 ∧
    ∀ (P : Params) (threads : UInt32), threads ≠ 0 → P.entries.toNat + threads.toNat ≤ 2 ^ 64 →
    ∀ (rnd : ℕ → ℕ → UInt64) (tr : List Action), GenDb P threads rnd tr → ∀ (r : RandId) (t g : ℕ), 65536 ≤ g →
    s!"{r.base}{t}_{g}" ∉ (callbacks tr).map (·.1) := by
  refine ⟨by decide +kernel, ?_⟩
  intro P threads hn hfit rnd tr h r t g hg
  have hpos : 0 < threads.toNat := Nat.pos_of_ne_zero (fun e => hn (UInt32.toNat_inj.mp e))
  obtain ⟨Ls, hlen, hL, hI⟩ := h
  have hp := interleaves_perm hI
  have hc : (callbacks tr).Perm (callbacks Ls.flatten) := hp.filterMap _
  rw [(hc.map _).mem_iff]
  have hflat : ∀ Ms : List (List Action), (∀ L ∈ Ms, s!"{r.base}{t}_{g}" ∉ (callbacks L).map (·.1)) →
      s!"{r.base}{t}_{g}" ∉ (callbacks Ms.flatten).map (·.1) := by
    intro Ms
    induction Ms with
    | nil => intro _; simp [callbacks]
    | cons M Ms ih =>
      intro hM
      rw [List.flatten_cons, callbacks_append, List.map_append, List.mem_append, not_or]
      exact ⟨hM M (by simp), ih (fun L hL => hM L (by simp [hL]))⟩
  apply hflat
  intro L hLm
  obtain ⟨i, hi⟩ := List.mem_iff_getElem?.mp hLm
  exact loop_small P _ threads (rnd i) hpos hfit r t g hg _ L (hL i L hi) 0 (inv_init P _ threads)

end Verif.Fp
