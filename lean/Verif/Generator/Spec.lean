import Verif.Generator.Model

/-!
# Specification of the random database generator

Document number `p` (of `N`) is generated by thread `p % threads` as its document number `p / threads`.
-/

namespace Verif.Generator.Spec

/-- The families of fixed size -/
def families : List (String × Nat) :=
  [("Group-10^1_", 10), ("Group-10^2_", 100), ("Group-10^3_", 1000), ("Group-10^4_", 10000), ("Group-10^5_", 100000),
    ("Group-10^6_", 1000000), ("Group-20_", 20), ("Group-30_", 30), ("Group-60_", 60)]

/-- The families of random size: the names, and how many documents their groups may have at most. The groups of at most
100 documents and those of at most 1000 have the same names. -/
def randomFamilies : List (String × Nat) :=
  [("Group-rand-10^3_", 100 + 1000), ("Group-rand-10^4_", 10000), ("Group-rand-10^5_", 100000),
    ("Group-rand-10^6_", 1000000)]

/-- The group of the `i`-th document of a thread in a family of size `s`; the group numbers end at 2^32 - 2. -/
def group (s i : Nat) : Nat := min (i / s) (2 ^ 32 - 2)

/-- The keywords of the percentages: the last three decimal digits of the identifier, and the three before -/
def percents (ind : Nat) : List String :=
  [s!"0.1_{ind % 1000}_1", s!"1_{ind % 100}_1", s!"10_{ind % 10}_1",
    s!"0.1_{ind / 1000 % 1000}_2", s!"1_{ind / 1000 % 100}_2", s!"10_{ind / 1000 % 10}_2"]

/-- The 15 keywords which the `i`-th document of thread `t` always has -/
def keywords (t i ind : Nat) : List String :=
  percents ind ++ families.map (fun f => s!"{f.1}{t}_{group f.2 i}")

end Verif.Generator.Spec
