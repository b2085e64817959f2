import Verif.Tethys.Store

/-! # Vocabulary of the properties of the store -/

namespace Verif.Tethys

/-- A list that fits in a page of `page` bytes: six control entries and the values, of eight bytes each.
The other lists are rejected by `insert_list`. -/
def fits (page : Nat) (x : CoreKey × List Index) : Bool := decide (x.2.length + 6 ≤ page / 8)

/-- Hypotheses on the lists: their total length, with the control entries, fits in 64 bits. -/
def SmallEnough (page : Nat) (ins : List (CoreKey × List Index)) : Prop :=
  (ins.map (fun x => x.2.length + 6)).sum + page / 8 < 2 ^ 64

instance (page ins) : Decidable (SmallEnough page ins) := inferInstanceAs (Decidable (_ < _))

/-- Distinct keys among the lists that are not rejected -/
def DistinctKeys (page : Nat) (ins : List (CoreKey × List Index)) : Prop :=
  ((ins.filter (fits page)).map Prod.fst).Nodup

instance (page ins) : Decidable (DistinctKeys page ins) := inferInstanceAs (Decidable (List.Nodup _))

/-- The program considered: a new builder, the insertions, the construction of the files. `old` is the
stash file found on disk. -/
def buildStore (page n : Nat) (hash : CoreKey → UInt64 × UInt64) (enc : ValueEncoder)
    (ins : List (CoreKey × List Index)) (old : Option (List UInt8)) : Except Fault Files :=
  match Builder.new page n hash with
  | .error f => .error f
  | .ok b => (b.insertAll ins).build enc old

/-- The program considered: the construction of the files, and the opening of the store -/
def openStore (page n : Nat) (hash : CoreKey → UInt64 × UInt64) (enc : ValueEncoder)
    (ins : List (CoreKey × List Index)) (old : Option (List UInt8)) : Except Fault Store :=
  match buildStore page n hash enc ins old with
  | .error f => .error f
  | .ok fs => Store.open hash fs

end Verif.Tethys
