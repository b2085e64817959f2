import Verif.Tethys.DirectProps
import Verif.Vec.ModesProps

/-!
# C89: lookups in the Tethys store by several threads

The calls of `use_direct_IO` (tethys_store.hpp L175-184) and the reads of `async_get_list` (L292-374) by any number of threads are those of
`Vec/Modes` on the file of the table; for each lookup the two callbacks get the two answers and interleave as in `Tethys/Async`.
-/

namespace Verif.Tethys

open Verif.Vec.Modes Verif.Vec.Modes.Spec Spec

/-- What the two callbacks of a lookup see (tethys_store.hpp L292-324, L347-360) when these are the answers of the two reads -/
def answersEnv {page : Nat} (s : Store) (enc : ValueEncoder) (key : CoreKey) (r : Bool → Option (Vec.Val page)) : Async.Env where
  index := bucketIndex s s.table.length key
  bucket t := (r t).map (·.toList)
  decode b0 i0 b1 i1 := enc.decode key b0 i0 b1 i1
  stash := (s.stash key).getD []

/-- The right answer is the page. -/
theorem right_page {page : Nat} (hp : 0 < page) {ps : List (List UInt8)} (hl : ∀ p ∈ ps, p.length = page) {s : Vec.Modes.State page} (hr : Right s)
    (hs : s.table = ps.flatten) {i m : Nat} (hi : i < ps.length) {r : Option (Vec.Val page)}
    (hc : s.calls[m]? = some ⟨.asyncGet i, .submitted⟩) (ha : (m, r) ∈ s.answers) : r.map (·.toList) = some ps[i] := by
  obtain ⟨j, h1, h2, h3⟩ := hr.answer m r ha
  rw [hc] at h1
  obtain rfl : i = j := by
    have := congrArg Call.job (Option.some.inj h1)
    simpa using this
  have hlen : s.table.length / page = ps.length := by rw [hs, flatten_length ps hl, Nat.mul_div_cancel _ hp]
  rw [hlen] at h2
  cases r with
  | none => exact absurd (h2.mp rfl) (by omega)
  | some v =>
    have hv := h3 v rfl
    rw [hs, element, flatten_page ps hl i hi] at hv
    simp only [Option.map_some]
    rw [hv]

/-- **C89** for Tethys: with a store built as in C25, after a careful use of the table whose changes of the mode have ended, any number of
lookups by any number of threads may overlap, also with calls that ask for the mode that is already set: whatever the interleaving of the
calls, the scheduler and other files of the process, a lookup whose two reads were answered calls its callback exactly once, with the
list of the key, if its two callbacks do not overlap (see `C28_race` for callbacks that do). -/
theorem C89_tethys_partial (page n : Nat) (hash : CoreKey → UInt64 × UInt64) (enc : ValueEncoder)
    (ins : List (CoreKey × List Index)) (hn : 2 ≤ n) (hp : 8 ∣ page) (hp0 : 0 < page) (hp63 : page < 2 ^ 63)
    (hs : SmallEnough page ins) (hd : DistinctKeys page ins) (hne : ∀ x ∈ ins, x.2 ≠ []) (st : Store)
    (hst : openStore page n hash enc ins none = .ok st)
    (linux direct : Bool) (files : List (List UInt8)) (before acts : List Act)
    (hc : Careful (State.init page linux direct st.table.flatten files) before)
    (hnc : NoneChanging ((State.init page linux direct st.table.flatten files).run before))
    (hm : ∀ b, .call (.direct b) ∈ acts → b = ((State.init page linux direct st.table.flatten files).run before).direct)
    (x : CoreKey × List Index) (hx : x ∈ ins) (hf : x.2.length + 6 ≤ page / 8) (m : Bool → Nat) (r : Bool → Option (Vec.Val page))
    (hcall : ∀ u, ((State.init page linux direct st.table.flatten files).run (before ++ acts)).calls[m u]? =
      some ⟨.asyncGet (bucketIndex st st.table.length x.1 u), .submitted⟩)
    (hans : ∀ u, (m u, r u) ∈ ((State.init page linux direct st.table.flatten files).run (before ++ acts)).answers)
    (t : Bool) (k l : Nat) (hk : 3 ≤ k) (hl : 6 ≤ l) :
    ∃ res, res.Perm x.2 ∧
      (Async.run (answersEnv st enc x.1 r) Async.AState.init (List.replicate k t ++ List.replicate l !t)).calls = [res] ∧
      (Async.run (answersEnv st enc x.1 r) Async.AState.init (List.replicate k t ++ List.replicate l !t)).fault = none := by
  have hr := C89_same_mode hp0 linux direct st.table.flatten files before acts hc hnc hm
  have htab := (run_table (before ++ acts) (State.init page linux direct st.table.flatten files)).1
  obtain ⟨ht, htl⟩ := openStore_table hn hs hst
  have hi := fun u => bucketIndex_lt (s := st) (n := st.table.length) (by omega) x.1 u
  have hpage := fun u => right_page hp0 htl hr htab (hi u) (hcall u) (hans u)
  obtain ⟨st', h1, h2, -⟩ := C25_get_list_partial page n hash enc ins hn hp hp63 hs hd hne
  rw [hst] at h1
  cases h1
  obtain ⟨lst, h4, h5⟩ := h2 x hx hf
  have hg : st.getBuckets x.1 = .ok ⟨bucketIndex st st.table.length x.1 false, bucketIndex st st.table.length x.1 true,
      st.table[bucketIndex st st.table.length x.1 false]'(hi false), st.table[bucketIndex st st.table.length x.1 true]'(hi true)⟩ := by
    unfold Store.getBuckets
    simp only
    rw [if_neg (by omega)]
    have e0 : st.table[(st.hash x.1).1.toNat % (st.table.length / 2)]? = some (st.table[bucketIndex st st.table.length x.1 false]'(hi false)) :=
      List.getElem?_eq_getElem (hi false)
    have e1 : st.table[st.table.length / 2 + (st.hash x.1).2.toNat % (st.table.length - st.table.length / 2)]? =
        some (st.table[bucketIndex st st.table.length x.1 true]'(hi true)) := List.getElem?_eq_getElem (hi true)
    rw [e0, e1]
    rfl
  have he : answersEnv st enc x.1 r = Async.envOf st enc x.1 ⟨bucketIndex st st.table.length x.1 false, bucketIndex st st.table.length x.1 true,
      st.table[bucketIndex st st.table.length x.1 false]'(hi false), st.table[bucketIndex st st.table.length x.1 true]'(hi true)⟩ := by
    unfold answersEnv Async.envOf
    simp only [Async.Env.mk.injEq]
    refine ⟨funext fun u => by cases u <;> rfl, funext fun u => ?_, trivial, trivial⟩
    cases u with
    | false => rw [hpage false]; rfl
    | true => rw [hpage true]; rfl
  obtain ⟨res, h6, h7, h8, -⟩ := Async.C28_serialised st enc x.1 _ lst hg h4 t k l hk hl
  exact ⟨res, h6.trans h5, by rw [he]; exact h7, by rw [he]; exact h8⟩

/-- One change of the mode that ends -/
def Sample.modeBefore : List Act := [.call (.direct true)] ++ List.replicate 8 (.advance 0)

/-- A lookup of a key, while another thread asks for the mode that is set -/
def Sample.modeLookup (i0 i1 : Nat) : List Act :=
  [.call (.asyncGet i0), .call (.direct true), .call (.asyncGet i1)] ++
    [.advance 1, .advance 3, .advance 2, .advance 1, .advance 3, .advance 3, .advance 1, .complete 1 1, .complete 1 0]

example :
    let st := Async.Sample.store
    let s0 := State.init 104 false false st.table.flatten [[]]
    let i := bucketIndex st st.table.length (Sample.K 3)
    let s := s0.run (Sample.modeBefore ++ Sample.modeLookup (i false) (i true))
    (carefulB s0 Sample.modeBefore && (s0.run Sample.modeBefore).direct && (s0.run Sample.modeBefore).calls.all (fun c => !underWay c) &&
      s.calls[1]? == some ⟨.asyncGet (i false), .submitted⟩ && s.calls[3]? == some ⟨.asyncGet (i true), .submitted⟩ &&
      s.answers.any (fun a => a.1 == 1) && s.answers.any (fun a => a.1 == 3)) = true := by decide +kernel

end Verif.Tethys
