import Verif.Tethys.Stream

/-!
# What a stash file that was cut holds

Written without the streams: the record of a key and a list, and what is read from the first bytes of a file of
such records.
-/

namespace Verif.Tethys.Stream.Spec

/-- The record of a key with its values: 16 bytes, 8 bytes for the number of values, 8 bytes for each value -/
def record (x : CoreKey × List Index) : List UInt8 :=
  x.1.toList ++ leBytes 8 x.2.length ++ x.2.flatMap indexBytes

/-- The number of bytes of a record -/
def size (x : CoreKey × List Index) : Nat := 24 + 8 * x.2.length

/-- What is read from the first `o` bytes of a record, when `k` variables have been used before: the missing
bytes of the key and of the values come from the memory, those of the number of values are 0. -/
def cut (J : Memory) (k : Nat) (x : CoreKey × List Index) (o : Nat) : CoreKey × List Index :=
  (Vector.ofFn (fun i : Fin 16 => if i.val < o then x.1[i] else J k i.val),
    (List.range (x.2.length % 256 ^ min (o - 16) 8)).map (fun j => bytesIndex ((List.range 8).map (fun b =>
      if 24 + 8 * j + b < o then (indexBytes (x.2.getD j 0)).getD b 0 else J (k + 1 + j) b))))

/-- The records that are complete in the first `n` bytes -/
def whole : List (CoreKey × List Index) → Nat → List (CoreKey × List Index)
  | [], _ => []
  | x :: xs, n => if n < size x then [] else x :: whole xs (n - size x)

/-- The records that are not -/
def broken : List (CoreKey × List Index) → Nat → List (CoreKey × List Index)
  | [], _ => []
  | x :: xs, n => if n < size x then x :: xs else broken xs (n - size x)

/-- What is read from the beginning of a record of which only a part is in the first `n` bytes -/
def stray (J : Memory) : Nat → List (CoreKey × List Index) → Nat → List (CoreKey × List Index)
  | _, [], _ => []
  | k, x :: xs, n =>
    if n < size x then if n = 0 then [] else [cut J k x n]
    else stray J (k + 1 + x.2.length) xs (n - size x)

/-- What is read from the first `n` bytes of a file with these records -/
def readable (J : Memory) (k : Nat) (xs : List (CoreKey × List Index)) (n : Nat) : List (CoreKey × List Index) :=
  whole xs n ++ stray J k xs n

/-- The file with these records -/
def file (xs : List (CoreKey × List Index)) : List UInt8 := xs.flatMap record

/-- The records can be read: the numbers of values are not refused by `reserve`, and keys occur once. -/
def Sound (xs : List (CoreKey × List Index)) : Prop :=
  (∀ x ∈ xs, x.2.length < 2 ^ 60) ∧ (xs.map Prod.fst).Nodup

/-- The keys under which the documents of a keyword are stored -/
def keys {W : Type} (P : Params W) (counters : Map W UInt32) (w : W) : List CoreKey :=
  (List.range ((counters w).getD 0).toNat).map (deriveCoreKey P.H (P.prf w))

/-- None of these keys belongs to a record that is not complete in the first `n` bytes, or to what is read from
such a record -/
def Untouched (J : Memory) (xs : List (CoreKey × List Index)) (n : Nat) (ks : List CoreKey) : Prop :=
  ∀ key ∈ ks, (∀ y ∈ broken xs n, y.1 ≠ key) ∧ ∀ y ∈ stray J 0 xs n, y.1 ≠ key

end Verif.Tethys.Stream.Spec
