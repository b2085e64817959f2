import Verif.Vec.ModesEnds

/-!
# C89: reads of a committed vector while its access mode changes
-/

namespace Verif.Vec.Modes

open Spec

variable {sz : Nat}

/-- Two elements of 16 bytes -/
def sampleTable : List UInt8 := List.replicate 16 1 ++ List.replicate 16 2

/-- Reads at the same time; then the mode is changed, and there are reads again. -/
def sampleActs : List Act :=
  [.call (.asyncGet 1), .call (.get 0), .advance 0, .advance 1, .openOther [7], .advance 0, .advance 1, .advance 0, .call (.direct true)] ++
    [.advance 2, .advance 2, .complete 0 0] ++ List.replicate 7 (.advance 2) ++
    [.call (.get 1), .call (.asyncGet 2), .advance 3, .advance 4, .advance 4, .advance 3, .advance 4, .complete 1 0]

/-- `Careful` for samples -/
def carefulB (s : State sz) (acts : List Act) : Bool :=
  (List.range acts.length).all fun k =>
    match acts[k]? with
    | some (.call j) =>
      let t := s.run (acts.take k)
      (t.calls.all fun c => !underWay c || match c.job with | .direct b => b == t.direct | _ => true) &&
        (match j with | .direct b => b == t.direct || t.calls.all (fun c => !underWay c) | _ => true)
    | _ => true

theorem careful_of_carefulB {s : State sz} {acts : List Act} (h : carefulB s acts = true) : Careful s acts := by
  rintro before j after rfl
  have h := List.all_eq_true.mp h before.length (by simp)
  simp only [List.getElem?_append_right (Nat.le_refl _), Nat.sub_self, List.getElem?_cons_zero, List.take_left, Bool.and_eq_true,
    List.all_eq_true, Bool.or_eq_true, Bool.not_eq_true'] at h
  refine ⟨fun c hc hu b hb => ?_, ?_⟩
  · rcases h.1 c hc with h | h
    · rw [hu] at h; cases h
    · rw [hb] at h
      exact beq_iff_eq.mp h
  · rintro b rfl hne c hc
    have h2 := h.2
    simp only [Bool.or_eq_true, beq_iff_eq, List.all_eq_true, Bool.not_eq_true'] at h2
    exact h2.resolve_left hne c hc

/-- When no call overlaps with one that changes the access mode, all results of `get` and `async_get` are right, in every interleaving of
the calls, of the schedulers and of other parts of the process that open and close files. -/
theorem C89_partial (hs : 0 < sz) (linux direct : Bool) (table : List UInt8) (files : List (List UInt8)) (acts : List Act)
    (hc : Careful (State.init sz linux direct table files) acts) :
    Right ((State.init sz linux direct table files).run acts) ∧ ((State.init sz linux direct table files).run acts).table = table ∧
      ((State.init sz linux direct table files).run acts).linux = linux :=
  ⟨right_of_inv hs (inv_run acts _ (inv_init ..) hc), run_table acts _⟩

example : Careful (State.init 16 false false sampleTable [[], [3]]) sampleActs := careful_of_carefulB (by decide +kernel)

example : (((State.init 16 false false sampleTable [[], [3]]).run sampleActs).calls.map fun c => (c.job, match c.pc with | .value v => some v.toList | _ => none)) =
    [(.asyncGet 1, none), (.get 0, some (List.replicate 16 1)), (.direct true, none), (.get 1, some (List.replicate 16 2)), (.asyncGet 2, none)] ∧
    (((State.init 16 false false sampleTable [[], [3]]).run sampleActs).answers.map fun r => (r.1, r.2.map (·.toList))) =
      [(0, some (List.replicate 16 2)), (4, none)] := by decide +kernel

/-- The callback of each asynchronous read is called at most once, and only if the read was submitted: in every interleaving. -/
theorem C89_once (linux direct : Bool) (table : List UInt8) (files : List (List UInt8)) (acts : List Act) (n : Nat) :
    ((((State.init sz linux direct table files).run acts).answers.map Prod.fst).count n) ≤ 1 ∧
      (n ∈ (((State.init sz linux direct table files).run acts).answers.map Prod.fst) →
        ∃ j, ((State.init sz linux direct table files).run acts).calls[n]? = some ⟨j, .submitted⟩) := by
  have h := once_run acts _ (once_init (sz := sz) linux direct table files) n
  unfold State.answersOf at h
  refine ⟨?_, fun hm => ?_⟩
  · split at h <;> omega
  · have := List.one_le_count_iff.mpr hm
    split at h
    · rename_i e
      obtain ⟨c, hc, hp⟩ := Option.map_eq_some_iff.mp e
      exact ⟨c.job, by rw [hc, ← hp]⟩
    · omega

theorem sum_zero {l : List Nat} (h : ∀ x ∈ l, x = 0) : l.sum = 0 := by
  induction l with
  | nil => rfl
  | cons a l ih =>
    rw [List.sum_cons, h a (List.mem_cons_self ..), ih fun x hx => h x (List.mem_cons_of_mem _ hx)]

/-- After any careful use, all calls that have begun can end and all submitted reads be done; then each submitted read has exactly one
answer, and the results are right. -/
theorem C89_ends (hs : 0 < sz) (linux direct : Bool) (table : List UInt8) (files : List (List UInt8)) (acts : List Act)
    (hc : Careful (State.init sz linux direct table files) acts) :
    ∃ more, Going more ∧
      (((State.init sz linux direct table files).run (acts ++ more)).calls.map Call.job =
        ((State.init sz linux direct table files).run acts).calls.map Call.job) ∧
      (∀ c ∈ ((State.init sz linux direct table files).run (acts ++ more)).calls, underWay c = false) ∧
      (∀ n j, ((State.init sz linux direct table files).run (acts ++ more)).calls[n]? = some ⟨j, .submitted⟩ →
        (((State.init sz linux direct table files).run (acts ++ more)).answers.map Prod.fst).count n = 1) ∧
      Right ((State.init sz linux direct table files).run (acts ++ more)) := by
  have hi := inv_run acts _ (inv_init (sz := sz) linux direct table files) hc
  obtain ⟨more, hg, hp, hu⟩ := ends_aux _ _ hi (Nat.le_refl _)
  have hr : (State.init sz linux direct table files).run (acts ++ more) = ((State.init sz linux direct table files).run acts).run more :=
    List.foldl_append
  have hi' : Inv (((State.init sz linux direct table files).run acts).run more) := by
    refine inv_run more _ hi fun before j after e => ?_
    rcases hg (.call j) (by rw [e]; simp) with ⟨n, h⟩ | ⟨k, i, h⟩ <;> cases h
  refine ⟨more, hg, ?_, ?_, ?_, ?_⟩
  · rw [hr]; exact run_jobs more hg _
  · rw [hr]; exact hu
  · intro n j hn
    have ho := once_run (acts ++ more) _ (once_init (sz := sz) linux direct table files) n
    rw [if_pos (by rw [hn]; rfl)] at ho
    have hz : ((State.init sz linux direct table files).run (acts ++ more)).pendingOf n = 0 := by
      rw [hr]
      refine sum_zero fun x hx => ?_
      obtain ⟨d, hd, rfl⟩ := List.mem_map.mp hx
      obtain ⟨k, hk⟩ := List.getElem?_of_mem hd
      simp [asked, hp k d hk]
    unfold State.answersOf at ho
    omega
  · rw [hr]; exact right_of_inv hs hi'

example : ∃ more, Going more ∧ ∀ c ∈ ((State.init 16 true false sampleTable [[], [3]]).run (sampleActs.take 9 ++ more)).calls, underWay c = false := by
  obtain ⟨more, h1, -, h2, -⟩ := C89_ends (sz := 16) (by decide) true false sampleTable [[], [3]] (sampleActs.take 9)
    (careful_of_carefulB (by decide +kernel))
  exact ⟨more, h1, h2⟩

/-- When all calls of a careful use have ended, the access mode is the one that was asked for last. -/
theorem C89_mode (linux direct : Bool) (table : List UInt8) (files : List (List UInt8)) (acts : List Act)
    (hc : Careful (State.init sz linux direct table files) acts)
    (he : ∀ c ∈ ((State.init sz linux direct table files).run acts).calls, underWay c = false) :
    ((State.init sz linux direct table files).run acts).direct = lastMode direct acts := by
  rcases (towards_run acts _ direct (inv_init (sz := sz) linux direct table files) ⟨by simp [State.init], Or.inl rfl⟩ hc).mode with
    h | ⟨c, hm, hu, -⟩
  · exact h
  · exact absurd hu (by simp [he c hm])

example : Careful (State.init 16 false false sampleTable [[], [3]]) sampleActs ∧
    (∀ c ∈ ((State.init 16 false false sampleTable [[], [3]]).run sampleActs).calls, underWay c = false) ∧
    lastMode false sampleActs = true := ⟨careful_of_carefulB (by decide +kernel), by decide +kernel, by decide⟩

/-- Calls for the mode that the vector already has need no care: after a careful use in which all changes of the mode have ended, any
calls may overlap that read or ask for this mode, as the lookups of `Oceanus::async_get` do after the first one. -/
theorem C89_same_mode (hs : 0 < sz) (linux direct : Bool) (table : List UInt8) (files : List (List UInt8)) (before acts : List Act)
    (hc : Careful (State.init sz linux direct table files) before)
    (hn : NoneChanging ((State.init sz linux direct table files).run before))
    (hd : ∀ b, .call (.direct b) ∈ acts → b = ((State.init sz linux direct table files).run before).direct) :
    Right ((State.init sz linux direct table files).run (before ++ acts)) := by
  have hr : (State.init sz linux direct table files).run (before ++ acts) = ((State.init sz linux direct table files).run before).run acts :=
    List.foldl_append
  rw [hr]
  exact right_of_inv hs (inv_run acts _ (inv_run before _ (inv_init ..) hc) (careful_same hn hd))

/-- Lookups of `Oceanus` on two threads after a first one -/
def twoLookups : List Act :=
  [.call (.direct true), .call (.direct true), .advance 5, .call (.asyncGet 0), .advance 6, .advance 7, .call (.asyncGet 1), .advance 8]

example : Careful (State.init 16 false false sampleTable []) sampleActs ∧
    (∀ b, .call (.direct b) ∈ twoLookups → b = ((State.init 16 false false sampleTable []).run sampleActs).direct) :=
  ⟨careful_of_carefulB (by decide +kernel), by
    have : ((State.init 16 false false sampleTable []).run sampleActs).direct = true := by decide +kernel
    rw [this]; simp [twoLookups]⟩

theorem lowest_hole (files : List (List UInt8)) (x : List (Option Desc)) :
    lowest (files.map (fun c => some (Desc.other c)) ++ none :: x) = files.length := by
  induction files with
  | nil => rfl
  | cons f files ih =>
    simp only [lowest, List.map_cons, List.cons_append, List.findIdx_cons, Option.isNone_some, cond_false, List.length_cons] at ih ⊢
    rw [ih]

theorem set_hole (files : List (List UInt8)) (d d' : Option Desc) :
    (files.map (fun c => some (Desc.other c)) ++ [d]).set files.length d' = files.map (fun c => some (Desc.other c)) ++ [d'] := by
  rw [List.set_append_right _ _ (by simp)]
  simp

theorem open_hole (files : List (List UInt8)) (d : Desc) :
    openFile (files.map (fun c => some (Desc.other c)) ++ [none]) d = files.map (fun c => some (Desc.other c)) ++ [some d] := by
  unfold openFile
  rw [lowest_hole, if_pos (by simp), set_hole]

theorem open_full (files : List (List UInt8)) (c : List UInt8) (d : Desc) :
    openFile (files.map (fun c => some (Desc.other c)) ++ [some (Desc.other c)]) d =
      files.map (fun c => some (Desc.other c)) ++ [some (Desc.other c), some d] := by
  unfold openFile
  rw [if_neg, List.append_assoc]
  · rfl
  · have h : lowest (files.map (fun c => some (Desc.other c)) ++ [some (Desc.other c)]) =
        (files.map (fun c => some (Desc.other c)) ++ [some (Desc.other c)]).length := by
      refine List.findIdx_eq_length.mpr fun x hx => ?_
      simp only [List.mem_append, List.mem_map, List.mem_singleton] at hx
      rcases hx with ⟨y, -, rfl⟩ | rfl <;> rfl
    omega

/-- Two threads that do the first lookups of `Oceanus::async_get`: both find that the mode has to be changed -/
def firstLookups : List Act :=
  [.call (.direct true), .call (.direct true), .advance 0, .advance 1] ++ List.replicate 6 (.advance 0) ++ [.advance 1]

/-- Two first lookups at once use a scheduler that has been destroyed, whatever the vector and the scheduler are. -/
theorem C89_first_lookups_violated (linux : Bool) (table : List UInt8) (files : List (List UInt8)) :
    ((State.init sz linux false table files).run firstLookups).fault = true := by
  simp [firstLookups, State.run, State.step, State.init, next, State.use, List.replicate, lowest_hole, open_hole]

/-- An asynchronous read that overlaps with a change of the mode also uses the scheduler that the change destroyed. -/
theorem C89_async_violated (linux : Bool) (table : List UInt8) (files : List (List UInt8)) :
    ((State.init sz linux false table files).run
      ([.call (.asyncGet 0), .advance 0, .advance 0, .call (.direct true)] ++ List.replicate 7 (.advance 1) ++ [.advance 0])).fault = true := by
  simp [State.run, State.step, State.init, State.size, next, State.use, List.replicate, lowest_hole, open_hole]

/-- On Linux, an asynchronous read of an element that exists, with elements of a size that the scheduler accepts, throws when it is
submitted while the mode changes. -/
theorem C89_refused_violated (hm : sz % 512 = 0) (table : List UInt8) (files : List (List UInt8)) :
    ∃ acts, ((State.init sz true false table files).run acts).fault = false ∧
      ⟨.asyncGet 0, .threw⟩ ∈ ((State.init sz true false table files).run acts).calls :=
  ⟨[.call (.asyncGet 0), .advance 0, .advance 0, .call (.direct true), .advance 1, .advance 1, .advance 0], by
    simp [State.run, State.step, State.init, State.size, next, State.use, hm]⟩

example : 1024 % 512 = 0 ∧ 0 < (List.replicate 2048 (0 : UInt8)).length / 1024 := by rw [List.length_replicate]; decide

/-- The beginning of a read, and a change of the mode that has closed the file and not opened it again -/
def between : List Act := [.call (.get 0), .advance 0, .call (.direct true), .advance 1, .advance 1, .advance 1]

/-- A read of an element that exists throws when the file is closed and not yet opened again. -/
theorem C89_throws_violated (linux : Bool) (table : List UInt8) (files : List (List UInt8)) :
    ⟨.get 0, .threw⟩ ∈ ((State.init sz linux false table files).run (between ++ [.advance 0])).calls := by
  simp [between, State.run, State.step, State.init, State.size, next, State.use, State.pread]

/-- A read returns the content of another file that was opened meanwhile and got the descriptor. -/
theorem C89_other_file_violated (linux : Bool) (table : List UInt8) (files : List (List UInt8)) (other : List UInt8)
    (ho : sz ≤ other.length) :
    ∃ v : Val sz, v.toList = element sz other 0 ∧
      ⟨.get 0, .value v⟩ ∈ ((State.init sz linux false table files).run (between ++ [.openOther other, .advance 0])).calls := by
  have hr : ((other.drop (0 * sz)).take sz).length = sz := by simp; omega
  refine ⟨⟨((other.drop (0 * sz)).take sz).toArray, by simpa using hr⟩, by simp [element], ?_⟩
  have hv : readAt sz other 0 = some ⟨((other.drop (0 * sz)).take sz).toArray, by simpa using hr⟩ := by
    unfold readAt
    rw [dif_pos hr]
  simp [between, State.run, State.step, State.init, State.size, next, State.use, State.pread, open_hole, hv]

/-- The same happens to an asynchronous read with a thread pool that was submitted after the change had closed the file. -/
theorem C89_async_other_file_violated (table : List UInt8) (files : List (List UInt8)) (other : List UInt8) (ho : sz ≤ other.length) :
    ∃ acts, ((State.init sz false false table files).run acts).fault = false ∧
      ∃ v : Val sz, v.toList = element sz other 0 ∧ ((State.init sz false false table files).run acts).answers = [(0, some v)] := by
  have hr : ((other.drop (0 * sz)).take sz).length = sz := by simp; omega
  refine ⟨[.call (.asyncGet 0), .advance 0, .advance 0, .call (.direct true), .advance 1, .advance 1, .advance 1, .openOther other, .advance 1,
    .advance 0, .complete 0 0], ?_⟩
  have hv : readAt sz other 0 = some ⟨((other.drop (0 * sz)).take sz).toArray, by simpa using hr⟩ := by
    unfold readAt
    rw [dif_pos hr]
  refine ⟨?_, ⟨((other.drop (0 * sz)).take sz).toArray, by simpa using hr⟩, by simp [element], ?_⟩
  all_goals simp [State.run, State.step, State.init, State.size, next, State.use, State.pread, open_hole, open_full, hv]

example : element 16 (List.replicate 16 9) 0 ≠ element 16 sampleTable 0 := by decide

/-- Two changes of the mode at once close a file of another part of the process, which nobody else closed. -/
theorem C89_foreign_close_violated (linux : Bool) (table : List UInt8) (files : List (List UInt8)) (other : List UInt8) :
    let acts := [.call (.direct true), .call (.direct true), .advance 0, .advance 1, .advance 0, .advance 1, .advance 0]
    ((State.init sz linux false table files).run (acts ++ [.openOther other])).fds[files.length]? = some (some (.other other)) ∧
      ((State.init sz linux false table files).run (acts ++ [.openOther other, .advance 1])).fds[files.length]? = some none := by
  simp [State.run, State.step, State.init, next, State.use, open_hole]

end Verif.Vec.Modes
