import Verif.Janus.Model

/-!
# The helper functions of `utils`

`/repo/lib/utils/utils.cpp`, `/repo/lib/include/sse/schemes/utils/utils.hpp`, `/repo/lib/abstractio/scheduler.cpp` L9-12: text in
hexadecimal, alignment, page sizes, and the removal of a directory with `fts`.
-/

namespace Verif.Util

open Verif.Janus (Str hexDigit hexFixed)

/-! ## Hexadecimal text -/

/-- `hex_string(const std::string&)` (utils.cpp L205-213) -/
def hexString (s : List UInt8) : Str := s.flatMap (fun c => hexFixed 2 c.toNat)

/-- `hex_string(const std::array<T, N>&)` for elements of `k` bytes (utils.hpp L75-84): each element is converted to
`unsigned char`. -/
def hexArray (k : Nat) (a : List Nat) : Str := a.flatMap (fun x => hexFixed (2 * k) (x % 256))

/-- `hex_string(const uint64_t&)` and `hex_string(const uint32_t&)` (utils.cpp L225-237) -/
def hex64 (a : UInt64) : Str := hexFixed 16 a.toNat

@[inherit_doc hex64]
def hex32 (a : UInt32) : Str := hexFixed 8 a.toNat

/-- An output stream: its text and the flags that remain set -/
structure Stream where
  text : Str
  hex : Bool
  fill : UInt8
deriving DecidableEq

/-- `print_hex` (utils.cpp L215-223, utils.hpp L86-95): `std::hex` and `std::setfill` remain in effect, `std::setw` does not. -/
def printHex (out : Stream) (s : List UInt8) : Stream :=
  s.foldl (fun o c => ⟨o.text ++ hexFixed 2 c.toNat, true, 48⟩) out

/-- `out << n` for a number of at most 16 hexadecimal digits, with no width: the digits without leading zeros, in base 16 or 10 -/
def digits (base : Nat) : Nat → Nat → Str
  | 0, _ => []
  | f + 1, n => (if n / base = 0 then [] else digits base f (n / base)) ++ [hexDigit (n % base)]

@[inherit_doc digits]
def Stream.number (out : Stream) (n : Nat) : Stream := { out with text := out.text ++ digits (if out.hex then 16 else 10) 20 n }

/-! ## Alignment and page sizes -/

/-- `is_aligned` (utils.hpp L100-112) -/
def isAligned (x a : BitVec 64) : Bool := (x &&& (a - 1)) == 0

/-- `device_page_size(int)` (utils.cpp L252-263): the result of `fstatvfs` is not examined; `garbage` is the indeterminate
content of `stats`. -/
def devicePageSize (fstatvfs : Option (BitVec 64)) (garbage : BitVec 64) : BitVec 64 := fstatvfs.getD garbage

/-- `Scheduler::async_io_page_size` (scheduler.cpp L9-12) -/
def asyncPageSize (os dev : BitVec 64) : BitVec 64 := if os < dev then dev else os

/-! ## Removal of a directory -/

abbrev Name := List UInt8
abbrev Path := List Name

/-- What is found under a path. A directory has its device, whether it can be read, and its entries in the order of `readdir`; `other` is
a file, or anything that is neither a directory nor a symbolic link. -/
inductive Tree where
  | other
  | link (target : Path)
  | dir (device : Nat) (readable : Bool) (entries : List (Name × Tree))

/-- The values of `fts_info` (besides those that cannot occur with the flags given) -/
inductive Info where
  /-- `FTS_D`, directory before its entries -/
  | pre
  /-- `FTS_DP`, directory after its entries -/
  | post
  /-- `FTS_F`, `FTS_DEFAULT` -/
  | other
  /-- `FTS_SL` or `FTS_SLNONE`: with `FTS_PHYSICAL`, a link is not followed -/
  | link
  /-- `FTS_DNR` -/
  | unreadable
  /-- `FTS_DP` for a directory on another device -/
  | mount
deriving DecidableEq

mutual
/-- The sequence of entries returned by `fts_read` with `FTS_PHYSICAL | FTS_XDEV` from a path on the device `dev`: a directory on another
device is returned twice without its entries. -/
def walk (dev : Nat) (p : Path) : Tree → List (Path × Info)
  | .other => [(p, .other)]
  | .link _ => [(p, .link)]
  | .dir d readable es =>
    if d ≠ dev then [(p, .pre), (p, .mount)]
    else if readable then (p, .pre) :: (walkList dev p es ++ [(p, .post)])
    else [(p, .pre), (p, .unreadable)]

def walkList (dev : Nat) (p : Path) : List (Name × Tree) → List (Path × Info)
  | [] => []
  | (n, t) :: es => walk dev (p ++ [n]) t ++ walkList dev p es
end

/-- `remove(3)` on the set of existing paths: it fails if the path does not exist, if it is a directory that is not empty, or if the
system refuses (`ok p = false`). -/
def remove (ok : Path → Bool) (S : List Path) (p : Path) : Option (List Path) :=
  if p ∈ S ∧ ok p = true ∧ ∀ q ∈ S, p <+: q → q = p then some (S.filter (fun q => q ≠ p)) else none

inductive Outcome where
  /-- `return true` -/
  | done
  /-- an exception -/
  | throws
deriving DecidableEq

/-- The loop of `remove_directory` (utils.cpp L99-147); the removal of a mount point fails (`EBUSY`). -/
def removeLoop (ok : Path → Bool) : List (Path × Info) → List Path → Outcome × List Path
  | [], S => (.done, S)
  | (p, i) :: l, S => match i with
    | .unreadable | .mount => (.throws, S)
    | .pre => removeLoop ok l S
    | .post | .other | .link => match remove ok S p with
      | none => (.throws, S)
      | some S' => removeLoop ok l S'

/-- The device of the first entry -/
def deviceOf : Tree → Nat
  | .dir d _ _ => d
  | _ => 0

/-- `remove_directory(path)` (utils.cpp L64-152); `found` is the result of `exists(path)`, which follows links; `S` are all the paths
that exist. -/
def removeDirectory (ok : Path → Bool) (found : Bool) (p : Path) (t : Tree) (S : List Path) : Outcome × List Path :=
  if found then removeLoop ok (walk (deviceOf t) p t) S else (.done, S)

end Verif.Util
