import Verif.Oceanus.DirectProps
import Verif.Vec.ModesProps

/-!
# C89: lookups of `Oceanus::async_get` by several threads

`Oceanus::async_get` (oceanus.hpp L227-235) calls `set_use_direct_access(true)` and then reads the two cells of the key (cuckoo.hpp
L376-452). The calls of all threads are those of `Vec/Modes` on the file of the table; for each lookup the two callbacks get the two
answers and interleave as in `Oceanus/Async`.
-/

namespace Verif.Oceanus.Async

open Verif.Vec.Modes Verif.Vec.Modes.Spec

variable {n : Nat}

/-- The index of the cell that a lookup reads (cuckoo.hpp L391-394, L446-451): `u` is the table. -/
def cellIndex (t : Table n) (k : Key) (u : Bool) : Nat :=
  if u then (t.hash k).h1.toNat % t.size + t.size else (t.hash k).h0.toNat % t.size

/-- The right answer is the cell. -/
theorem right_cell {t : Table n} (ht : t.table ≠ []) (hz : t.table.length = 2 * t.size) {s : State (16 + n)} (hr : Right s)
    (hs : s.table = fileOf t) {k : Key} {u : Bool} {m : Nat} {r : Option (Payload n)}
    (hc : s.calls[m]? = some ⟨.asyncGet (cellIndex t k u), .submitted⟩) (ha : (m, r) ∈ s.answers) : r = reads t k u := by
  obtain ⟨i, h1, h2, h3⟩ := hr.answer m r ha
  rw [hc] at h1
  obtain rfl : cellIndex t k u = i := by
    have := congrArg Call.job (Option.some.inj h1)
    simpa using this
  have hpos : 0 < t.size := by
    have := List.length_pos_iff.mpr ht
    omega
  have hi : cellIndex t k u < t.table.length := by
    have a0 := Nat.mod_lt (t.hash k).h0.toNat hpos
    have a1 := Nat.mod_lt (t.hash k).h1.toNat hpos
    unfold cellIndex
    cases u <;> simp <;> omega
  have hp := List.getElem?_eq_getElem hi
  have hrd : reads t k u = t.table[cellIndex t k u]? := by cases u <;> rfl
  have hl : s.table.length / (16 + n) = t.table.length := by
    rw [hs, fileOf, length_flat, Nat.mul_div_cancel _ (by omega)]
  rw [hl] at h2
  cases r with
  | none => exact absurd (h2.mp rfl) (by omega)
  | some v =>
    have hv := h3 v rfl
    rw [hs, element, fileOf, flat_element t.table _ _ hp] at hv
    rw [hrd, hp]
    congr 1
    exact Vector.toArray_inj.mp (Array.toList_inj.mp hv)

/-- **C89** for Oceanus: in a table built from distinct keys, after a careful use of the vector whose changes of the mode have ended (as by
one lookup of a single thread), any number of lookups by any number of threads may overlap: whatever the interleaving of the calls, the
scheduler, other files of the process and the callbacks, a lookup whose two reads were answered calls its callback exactly once, with what the
synchronous lookup gives. -/
theorem C89_oceanus_partial (size depth : Nat) (hash : Key → CKey) (ins : List (Key × Vector UInt8 n)) (hz : 0 < size)
    (hl : ins.length < 2 ^ 64) (hd : (ins.map Prod.fst).Nodup) (t : Table n) (hb : build size depth hash ins = .ok t)
    (linux direct : Bool) (files : List (List UInt8)) (before acts : List Act)
    (hc : Careful (State.init (16 + n) linux direct (fileOf t) files) before)
    (hn : NoneChanging ((State.init (16 + n) linux direct (fileOf t) files).run before))
    (hm : ((State.init (16 + n) linux direct (fileOf t) files).run before).direct = true)
    (hd' : ∀ b, .call (.direct b) ∈ acts → b = true)
    (k : Key) (hk : k ≠ Spec.allOnes) (m : Bool → Nat) (r : Bool → Option (Payload n))
    (hcall : ∀ u, ((State.init (16 + n) linux direct (fileOf t) files).run (before ++ acts)).calls[m u]? =
      some ⟨.asyncGet (cellIndex t k u), .submitted⟩)
    (hans : ∀ u, (m u, r u) ∈ ((State.init (16 + n) linux direct (fileOf t) files).run (before ++ acts)).answers)
    (sched : List Bool) (hcnt : ∀ u, 6 ≤ sched.count u) :
    (run k r AState.init sched).fault = none ∧ (run k r AState.init sched).calls = [(t.get k).toOption] := by
  have hr := C89_same_mode (by omega) linux direct (fileOf t) files before acts hc hn (fun b h => by rw [hm]; exact hd' b h)
  have hs := (run_table (before ++ acts) (State.init (16 + n) linux direct (fileOf t) files)).1
  obtain ⟨ht, hz'⟩ := build_table hb
  obtain rfl : r = reads t k := funext fun u => right_cell ht hz' hr hs (hcall u) (hans u)
  obtain ⟨t', h1, h2, h3⟩ := C33_table_partial size depth hash ins hz hl hd k hk sched
  rw [hb] at h1
  cases h1
  exact ⟨h2, h3 hcnt⟩

/-- The table of the example -/
def sampleBuilt : Except Fault (Table 1) := build 2 4 oceanusHash [(Sample.key, (#v[42] : Vector UInt8 1))]

/-- One lookup; then the lookup of `Sample.key`, with calls that overlap -/
def sampleBefore : List Act := [.call (.direct true)] ++ List.replicate 8 (.advance 0)

/-- Two lookups that overlap -/
def sampleLookups (i0 i1 : Nat) : List Act :=
  [.call (.direct true), .call (.direct true), .advance 1, .advance 2, .call (.asyncGet i0), .call (.asyncGet i1), .call (.asyncGet i1)] ++
    [.advance 3, .advance 4, .advance 5, .advance 3, .advance 4, .advance 5, .advance 5, .advance 4, .advance 3, .complete 1 2, .complete 1 1, .complete 1 0]

example : sampleBuilt.toOption.map (fun t =>
      let s0 := State.init 17 false false (fileOf t) [[]]
      let s := s0.run (sampleBefore ++ sampleLookups (cellIndex t Sample.key false) (cellIndex t Sample.key true))
      carefulB s0 sampleBefore && (s0.run sampleBefore).direct && (s0.run sampleBefore).calls.all (fun c => !underWay c) &&
        s.calls[3]? == some ⟨.asyncGet (cellIndex t Sample.key false), .submitted⟩ &&
        s.calls[4]? == some ⟨.asyncGet (cellIndex t Sample.key true), .submitted⟩ &&
        s.answers.any (fun a => a.1 == 3) && s.answers.any (fun a => a.1 == 4)) = some true := by decide +kernel

end Verif.Oceanus.Async
