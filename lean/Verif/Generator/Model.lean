import Mathlib.Data.List.Basic
import Verif.Common.Map

/-!
# Model of the random database generator

`/repo/lib/utils/db_generator.cpp`. Keywords are strings, built as in the code. The random draws are arbitrary.
Floating-point numbers are not modelled: the numbers of random groups and the outcomes of the comparisons
`w_d < r_threshold` are parameters (`Params`). Logging is left out.
-/

namespace Verif.Generator

/-- Keyword families with groups of fixed size: powers 10^1, ..., 10^6 and 20, 30, 60 (L82-90) -/
inductive GroupId where
  | g1 | g2 | g3 | g4 | g5 | g6 | g20 | g30 | g60
  deriving DecidableEq

/-- Families of random groups (L107-117) -/
inductive RandId where
  | r2 | r3 | r4 | r5 | r6
  deriving DecidableEq

/-- Beginnings of the keywords (L59-60, L219-359) -/
def GroupId.base : GroupId → String
  | .g1 => "Group-10^1_"
  | .g2 => "Group-10^2_"
  | .g3 => "Group-10^3_"
  | .g4 => "Group-10^4_"
  | .g5 => "Group-10^5_"
  | .g6 => "Group-10^6_"
  | .g20 => "Group-20_"
  | .g30 => "Group-30_"
  | .g60 => "Group-60_"

/-- Divisors of `i + 1` (L223, L235, L246, L257, L268, L292, L315, L337, L361) -/
def GroupId.size : GroupId → UInt64
  | .g1 => 10
  | .g2 => 100
  | .g3 => 1000
  | .g4 => 10000
  | .g5 => 100000
  | .g6 => 1000000
  | .g20 => 20
  | .g30 => 30
  | .g60 => 60

/-- The counter which is tested before a random group is used (L263, L287, L310, L332, L356) -/
def RandId.fixed : RandId → GroupId
  | .r2 => .g2
  | .r3 => .g3
  | .r4 => .g4
  | .r5 => .g5
  | .r6 => .g6

/-- Beginnings of the keywords of random groups (L61, L281, L304, L326, L349, L373); the first two are the same in the
code. -/
def RandId.base : RandId → String
  | .r2 => "Group-rand-10^3_"
  | .r3 => "Group-rand-10^3_"
  | .r4 => "Group-rand-10^4_"
  | .r5 => "Group-rand-10^5_"
  | .r6 => "Group-rand-10^6_"

/-- `size_group_2`, ..., `size_group_6` (L113-117) -/
def RandId.size : RandId → UInt64
  | .r2 => 100
  | .r3 => 1000
  | .r4 => 10000
  | .r5 => 100000
  | .r6 => 1000000

/-- What depends on floating-point numbers -/
structure Params where
  /-- `N_entries` -/
  entries : UInt64
  /-- `n_groups_2`, ... (L118-127): `floorl(fraction * N / (1.2 * step * size))` -/
  nGroups : RandId → UInt64
  /-- `w_d < r_threshold` (L276, L299, L321, L344, L368) -/
  below : RandId → UInt64 → Bool
  /-- without groups the threshold is 0 (L141-155), and `w_d` is not negative -/
  below_groups : ∀ r ind, below r ind = true → nGroups r ≠ 0

/-- Undefined behaviours -/
inductive Fault where
  | divisionByZero
  | outOfBounds
  deriving DecidableEq

/-- `counter_10_1`, `kw_10_1` and so on -/
structure GroupState where
  counter : UInt32
  kw : String

/-- `max_10_counter` (L63) -/
def maxCounter : UInt32 := 0xffffffff

/-- `kw = base; kw.append(...).append(id_string).append("_").append(to_string(c))` (for instance L219-221) -/
def keyword (base : String) (tid : UInt32) (c : Nat) : String :=
  base ++ Nat.repr tid.toNat ++ "_" ++ Nat.repr c

/-- Update of one fixed family (L218-229, and so on) -/
def stepGroup (g : GroupId) (tid : UInt32) (i : UInt64) (s : GroupState) : GroupState :=
  if s.counter < maxCounter then
    { kw := keyword g.base tid s.counter.toNat
      counter := if (i + 1) % g.size = 0 then s.counter + 1 else s.counter }
  else s

/-- Local variables of `generation_job`; `draws` counts the calls of `dist(rng)`. -/
structure St where
  counter : UInt64
  i : UInt64
  draws : Nat
  groups : GroupId → GroupState
  /-- `group_rand_10_2`, ... -/
  rand : RandId → List UInt64

/-- Visible actions of a job -/
inductive Action where
  /-- `callback(kw, ind)` -/
  | callback (kw : String) (ind : UInt64)
  /-- `(*docs_counter)++` (L381) -/
  | doc
  /-- `(*entries_counter) += new_entries` (L408) -/
  | entries (k : UInt32)
  deriving DecidableEq

/-- One random family (L276-285, and so on): the new table and the insertions -/
def stepRand (P : Params) (r : RandId) (tid : UInt32) (ind : UInt64) (counter : UInt32) (table : List UInt64) :
    Except Fault (List UInt64 × List String) :=
  if counter < maxCounter ∧ P.below r ind = true then
    if P.nGroups r = 0 then Except.error .divisionByZero
    else
      -- `uint16_t g = ind % n_groups`
      let g : UInt16 := (ind % P.nGroups r).toUInt16
      match table[g.toNat]? with
      | none => Except.error .outOfBounds
      | some x =>
        if x < r.size then .ok (table.set g.toNat (x + 1), [keyword r.base tid g.toNat]) else .ok (table, [])
  else .ok (table, [])

/-- The random families in the order of the code: final tables and `insertions` -/
def stepRands (P : Params) (tid : UInt32) (ind : UInt64) (groups : GroupId → GroupState) :
    List RandId → (RandId → List UInt64) → Except Fault ((RandId → List UInt64) × List String)
  | [], tables => .ok (tables, [])
  | r :: rs, tables =>
    match stepRand P r tid ind (groups r.fixed).counter (tables r) with
    | .error f => Except.error f
    | .ok (t, ins) =>
      match stepRands P tid ind groups rs (fun r' => if r' = r then t else tables r') with
      | .error f => Except.error f
      | .ok (tables', ins') => .ok (tables', ins ++ ins')

/-- The percentage keywords of a document (L172-202) -/
def percentKeywords (ind : UInt64) : List String :=
  let a : UInt32 := (ind % 1000).toUInt32
  let a1 := a % 100
  let a10 := a1 % 10
  let b : UInt32 := ((ind / 1000) % 1000).toUInt32
  let b1 := b % 100
  let b10 := b1 % 10
  ["0.1" ++ "_" ++ Nat.repr a.toNat ++ "_1", "1" ++ "_" ++ Nat.repr a1.toNat ++ "_1",
    "10" ++ "_" ++ Nat.repr a10.toNat ++ "_1",
    "0.1" ++ "_" ++ Nat.repr b.toNat ++ "_2", "1" ++ "_" ++ Nat.repr b1.toNat ++ "_2",
    "10" ++ "_" ++ Nat.repr b10.toNat ++ "_2"]

/-- The order of the callbacks of the fixed families (L390-398) -/
def groupOrder : List GroupId := [.g1, .g2, .g3, .g4, .g5, .g6, .g20, .g30, .g60]

/-- The order of the random families (L263-378) -/
def randOrder : List RandId := [.r2, .r3, .r4, .r5, .r6]

/-- The body of the loop of `generation_job` and `counter += step, i++` (L165-409) -/
def iter (P : Params) (tid : UInt32) (step : UInt64) (ind : UInt64) (s : St) : Except Fault (St × List Action) :=
  let groups := fun g => stepGroup g tid s.i (s.groups g)
  match stepRands P tid ind s.groups randOrder s.rand with
  | .error f => Except.error f
  | .ok (rand, insertions) =>
    let newEntries : UInt32 := 3 + 3 + 9 + UInt32.ofNat insertions.length
    .ok ({ counter := s.counter + step, i := s.i + 1, draws := s.draws + 1, groups := groups, rand := rand },
      (percentKeywords ind).map (Action.callback · ind) ++ [.doc] ++
        groupOrder.map (fun g => Action.callback (groups g).kw ind) ++
        insertions.map (Action.callback · ind) ++ [.entries newEntries])

/-- Before the loop (L79-161) -/
def St.init (P : Params) (tid : UInt32) : St where
  counter := tid.toUInt64
  i := 0
  draws := 0
  groups := fun _ => ⟨0, ""⟩
  rand := fun r => List.replicate (P.nGroups r).toNat 0

/-- The loop of `generation_job` from state `s` terminates with the given actions; `rnd k` is the `k`-th random draw. -/
inductive Loop (P : Params) (tid : UInt32) (step : UInt64) (rnd : Nat → UInt64) : St → List Action → Prop
  | done (s : St) (h : ¬ s.counter < P.entries) : Loop P tid step rnd s []
  | iter (s s' : St) (acts rest : List Action) (h : s.counter < P.entries)
      (hi : iter P tid step (rnd s.draws) s = .ok (s', acts)) (hs : Loop P tid step rnd s' rest) :
      Loop P tid step rnd s (acts ++ rest)

/-- The loop of `generation_job` comes from `s` to undefined behaviour. -/
inductive Faults (P : Params) (tid : UInt32) (step : UInt64) (rnd : Nat → UInt64) : St → Prop
  | now (s : St) (f : Fault) (h : s.counter < P.entries) (hi : Generator.iter P tid step (rnd s.draws) s = .error f) :
      Faults P tid step rnd s
  | later (s s' : St) (acts : List Action) (h : s.counter < P.entries)
      (hi : Generator.iter P tid step (rnd s.draws) s = .ok (s', acts)) (hs : Faults P tid step rnd s') :
      Faults P tid step rnd s

/-- The actions of several threads in some order -/
inductive Interleaves {α : Type} : List (List α) → List α → Prop
  | nil (Ls : List (List α)) (h : ∀ L ∈ Ls, L = []) : Interleaves Ls []
  | cons (Ls : List (List α)) (t : Nat) (a : α) (L rest : List α) (h : Ls[t]? = some (a :: L))
      (hs : Interleaves (Ls.set t L) rest) : Interleaves Ls (a :: rest)

/-- `gen_db` (L519-548) with `threads` hardware threads ends with the visible actions `tr`. -/
def GenDb (P : Params) (threads : UInt32) (rnd : Nat → Nat → UInt64) (tr : List Action) : Prop :=
  ∃ Ls : List (List Action), Ls.length = threads.toNat ∧
    (∀ t L, Ls[t]? = some L → Loop P (UInt32.ofNat t) threads.toUInt64 (rnd t) (St.init P (UInt32.ofNat t)) L) ∧
    Interleaves Ls tr

/-- Effect of an action on `docs_counter` -/
def docStep (n : UInt64) : Action → UInt64
  | .doc => n + 1
  | _ => n

/-- Effect of an action on `entries_counter` -/
def entryStep (n : UInt64) : Action → UInt64
  | .entries k => n + k.toUInt64
  | _ => n

/-- Final value of `docs_counter` -/
def docs (tr : List Action) : UInt64 := tr.foldl docStep 0

/-- Final value of `entries_counter` -/
def entries (tr : List Action) : UInt64 := tr.foldl entryStep 0

/-- The calls of the callback -/
def callbacks (tr : List Action) : List (String × UInt64) :=
  tr.filterMap (fun a => match a with | .callback kw ind => some (kw, ind) | _ => none)

end Verif.Generator
