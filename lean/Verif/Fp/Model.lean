import Mathlib.Data.Rat.Floor
import Mathlib.Algebra.Order.Field.Basic
import Mathlib.Algebra.Order.Field.Rat
import Mathlib.Algebra.Field.Rat
import Mathlib.Algebra.Order.Archimedean.Basic

/-!
# Numbers computed with floating point

The sizes of the tables of Tethys and Pluto and the number of keyword groups of the generator are computed with
`double` and `long double`.  Floating-point numbers are rational numbers here, and each operation rounds its exact
result to the nearest number of `p` bits, to the even one of two (IEEE 754; `p` is 53 for `double`, and 64 for the
`long double` of x86).  All numbers here are positive and far from the smallest and the largest exponents, which
are left out.
-/

namespace Verif.Fp

/-- The power of two below a positive number. -/
def ilog (x : ℚ) : ℤ :=
  let k : ℤ := (Nat.log2 x.num.toNat : ℤ) - (Nat.log2 x.den : ℤ)
  if (2 : ℚ) ^ k ≤ x then k else k - 1

/-- The nearest integer, the even one of two. -/
def roundEven (x : ℚ) : ℤ :=
  if x - ⌊x⌋ < 1 / 2 then ⌊x⌋
  else if 1 / 2 < x - ⌊x⌋ then ⌊x⌋ + 1
  else if ⌊x⌋ % 2 = 0 then ⌊x⌋ else ⌊x⌋ + 1

/-- The distance of two numbers of `p` bits near `x`. -/
def quantum (p : ℕ) (x : ℚ) : ℚ := 2 ^ (ilog x - ((p : ℤ) - 1))

/-- Rounding to `p` bits. -/
def rnd (p : ℕ) (x : ℚ) : ℚ :=
  if x ≤ 0 then 0 else roundEven (x / quantum p x) * quantum p x

/-- `static_cast<size_t>` of a `double`; undefined behaviour if it does not fit. -/
def toSize (x : ℚ) : Option ℕ := if 0 ≤ ⌊x⌋ ∧ ⌊x⌋ < 2 ^ 64 then some ⌊x⌋.toNat else none

/-- The number of buckets that `n` elements need (lib/tethys/tethys_allocator.cpp L13-14). -/
def buckets (n b : ℕ) : ℕ := n / b + (if n % b = 0 then 0 else 1)

/-- `tethys_graph_size` (lib/tethys/tethys_allocator.cpp L11-16).  `std::ceil` and the multiplication by 2 are
exact. -/
def graphSize (n b : ℕ) (epsilon : ℚ) : Option ℕ :=
  toSize (2 * (⌈rnd 53 (rnd 53 (1 + epsilon) * rnd 53 (buckets n b))⌉ : ℚ))

/-- `cuckoo_table_size` (inc/oceanus/details/cuckoo.hpp L15-18).  The division by 2 is exact. -/
def cuckooSize (n : ℕ) (epsilon : ℚ) : Option ℕ :=
  toSize (⌈rnd 53 (rnd 53 (1 + epsilon / 2) * rnd 53 n)⌉ : ℚ)

/-- The constant 1.2 as a `double`. -/
def onePointTwo : ℚ := 5404319552844595 / 2 ^ 52

/-- `optimal_num_group` (lib/utils/db_generator.cpp L45-53), with `p` bits for `long double`; the product of the two
sizes is a `size_t`.  A division by zero gives an infinity or no number, whose conversion is undefined behaviour. -/
def numGroups (p : ℕ) (fraction : ℚ) (entries step size : ℕ) : Option ℕ :=
  if step * size % 2 ^ 64 = 0 then none
  else toSize (⌊rnd p (rnd p (fraction * rnd p entries) /
    rnd p (onePointTwo * rnd p ((step * size % 2 ^ 64 : ℕ) : ℚ)))⌋ : ℚ)

/-- The constant 0.9 as a `double`. -/
def zeroPointNine : ℚ := 8106479329266893 / 2 ^ 53

/-- The constant 1.4 as a `double`. -/
def onePointFour : ℚ := 6305039478318694 / 2 ^ 52

/-- `r_threshold_2`, ... (lib/utils/db_generator.cpp L141-155) for `groups` groups; there are documents (`entries` is
not 0) when it is used. -/
def threshold (p : ℕ) (factor : ℚ) (groups size step entries : ℕ) : ℚ :=
  rnd p (rnd p (factor * rnd p (rnd p (rnd p groups * rnd p size) * rnd p step)) / rnd p entries)

/-- `w_d` (lib/utils/db_generator.cpp L169). -/
def draw (ind : ℕ) : ℚ := rnd 53 (rnd 53 ind / rnd 53 ((2 ^ 64 - 1 : ℕ) : ℚ))

end Verif.Fp
