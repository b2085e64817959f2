import Verif.Cli.Args
import Verif.Fp.Model

/-!
# The number of the option `-r`

`rnd_entries_count = static_cast<uint32_t>(std::stod(std::string(optarg), nullptr))` (`/repo/src/sophos_client.cpp` L49-51,
`/repo/src/diana_client.cpp` L58-60). `std::stod` is `strtod` of the C library (C11, 7.22.1.3; locale "C"), with an exception if nothing is
converted or if the library reports a range error. The exception is not caught by the programs. The conversion of a `double` to `uint32_t` is
undefined if the truncated value does not fit.
-/

namespace Verif.Cli

/-- What becomes of the text -/
inductive Entries where
  /-- `std::invalid_argument` or `std::out_of_range`; nobody catches it. -/
  | exception
  /-- undefined behaviour -/
  | undefined
  | count (n : UInt32)
  deriving DecidableEq

/-- `isspace` in the locale "C" -/
def isSpace (c : Char) : Bool := c = ' ' || c = '\t' || c = '\n' || c = '\x0b' || c = '\x0c' || c = '\r'

/-- The value of a decimal digit -/
def decVal (c : Char) : Option Nat := if c.isDigit then some (c.toNat - 48) else none

/-- The value of a hexadecimal digit -/
def hexVal (c : Char) : Option Nat :=
  if c.isDigit then some (c.toNat - 48)
  else if 'a' ≤ c ∧ c ≤ 'f' then some (c.toNat - 87)
  else if 'A' ≤ c ∧ c ≤ 'F' then some (c.toNat - 55)
  else none

/-- The digits at the beginning, and the rest -/
def digits (val : Char → Option Nat) : List Char → List Nat × List Char
  | [] => ([], [])
  | c :: l =>
    match val c with
    | some d => (d :: (digits val l).1, (digits val l).2)
    | none => ([], c :: l)

/-- The number with these digits -/
def numeral (b : Nat) (ds : List Nat) : Nat := ds.foldl (fun n d => b * n + d) 0

/-- An optional sign; true for a minus -/
def sign : List Char → Bool × List Char
  | '-' :: l => (true, l)
  | '+' :: l => (false, l)
  | l => (false, l)

/-- Digits with at most one point: the number without the point, the number of digits after it, and the rest -/
def mantissa (val : Char → Option Nat) (b : Nat) (s : List Char) : Option (Nat × Nat × List Char) :=
  let a := digits val s
  match a.2 with
  | '.' :: r =>
    let f := digits val r
    if a.1 = [] ∧ f.1 = [] then none else some (numeral b (a.1 ++ f.1), f.1.length, f.2)
  | r => if a.1 = [] then none else some (numeral b a.1, 0, r)

/-- An optional exponent after one of two letters; without digits there is none. -/
def exponent (lower upper : Char) (s : List Char) : ℤ :=
  match s with
  | [] => 0
  | c :: r =>
    if c = lower ∨ c = upper then
      let d := (digits decVal (sign r).2).1
      if d = [] then 0 else if (sign r).1 then -(numeral 10 d : ℤ) else numeral 10 d
    else 0

/-- A number without sign -/
inductive Magnitude where
  | finite (x : ℚ)
  | infinite
  | nan

/-- What follows the beginning of a hexadecimal number -/
def hexPart : List Char → Option (List Char)
  | '0' :: x :: r => if x = 'x' ∨ x = 'X' then some r else none
  | _ => none

/-- The longest number at the beginning; `none` if there is none -/
def magnitude (s : List Char) : Option Magnitude :=
  match hexPart s with
  | some r =>
    match mantissa hexVal 16 r with
    | some (m, f, rest) => some (.finite (m * 2 ^ (exponent 'p' 'P' rest - 4 * f)))
    | none => some (.finite 0)
  | none =>
    match mantissa decVal 10 s with
    | some (m, f, rest) => some (.finite (m * 10 ^ (exponent 'e' 'E' rest - f)))
    | none =>
      if (s.take 3).map Char.toLower = ['i', 'n', 'f'] then some .infinite
      else if (s.take 3).map Char.toLower = ['n', 'a', 'n'] then some .nan
      else none

/-- The number of entries for a number with its sign. `underflow`: whether the library reports an error for a number below the normal ones. -/
def entries (underflow : ℚ → Bool) (neg : Bool) : Magnitude → Entries
  | .infinite => .undefined
  | .nan => .undefined
  | .finite x =>
    let d := Fp.rnd 53 x
    if 2 ^ 1024 ≤ d then .exception
    else if 0 < x ∧ x < 1 / 2 ^ 1022 ∧ underflow x then .exception
    else if neg then (if d < 1 then .count 0 else .undefined)
    else if ⌊d⌋ < 2 ^ 32 then .count (UInt32.ofNat ⌊d⌋.toNat) else .undefined

/-- The number of entries for the argument of `-r` -/
def entriesOf (underflow : ℚ → Bool) (s : Arg) : Entries :=
  let r := sign (s.dropWhile isSpace)
  match magnitude r.2 with
  | none => .exception
  | some m => entries underflow r.1 m

/-- As used by the loop over the options: the program is terminated, or the number -/
def stodOf (underflow : ℚ → Bool) (s : Arg) : Option UInt32 :=
  match entriesOf underflow s with
  | .count n => some n
  | _ => none

end Verif.Cli
