import Verif.Runner.LoadProps

/-!
# C18: `load_inverted_index` with parse errors and exceptions

`/repo/lib/sophos/sophos_client_runner.cpp` L383-430, `/repo/lib/diana/client_runner.cpp` L436-489.

An exception of the parser unwinds the stack: the destructor of the pool lets the tasks that were enqueued
finish, and the call returns `false` (sophos L424-428; diana L483-487). `end_update_session` is not called. An exception in a task,
which `insert_in_session` raises when the counter store fails (sophos_client.cpp L130-134; diana_client.hpp
L182-186, L268-272), ends this task. It is stored in the future returned by `enqueue`
(thread_pool.hpp L109-131), which the callback drops.

What fails is fixed in advance by a plan, so that a run is a run of the model without exceptions on the part of
the file that is processed. A task of Diana that throws writes none of its messages: they count as lost.
-/

namespace Verif.Runner

variable {Kw : Type} [DecidableEq Kw]

/-- What fails -/
structure FailPlan where
  /-- the number of lists before a parse error -/
  parse : Option Nat
  /-- the number of insertions of list `i` before an exception -/
  cut : Nat → Option Nat

/-- The lists given to the tasks -/
def FailPlan.parsed (p : FailPlan) (file : List (Kw × List Index)) : List (Kw × List Index) :=
  match p.parse with
  | none => file
  | some k => file.take k

/-- The part of the documents of list `i` that is processed -/
def FailPlan.part (p : FailPlan) (i : Nat) (ds : List Index) : List Index :=
  match p.cut i with
  | none => ds
  | some j => ds.take j

/-- The part of the file that is processed -/
def FailPlan.processed (p : FailPlan) (file : List (Kw × List Index)) : List (Kw × List Index) :=
  (p.parsed file).mapIdx fun i x => (x.1, p.part i x.2)

/-- The states of the call -/
def FailReachable (p : FailPlan) (n : Nat) (file : List (Kw × List Index)) (s : Loader Kw) : Prop :=
  LoadReachable n (p.processed file) s

/-- The result of the call, once the pool has been joined (sophos L418-428; diana L477-487) -/
def FailPlan.result (p : FailPlan) (s : Loader Kw) : Option Bool :=
  match s.pool.pool.joiner with
  | .returned => some p.parse.isNone
  | _ => none

/-- Nothing fails -/
def FailPlan.ok : FailPlan := ⟨none, fun _ => none⟩

omit [DecidableEq Kw] in
theorem FailPlan.processed_of_cut {p : FailPlan} (h : ∀ i, p.cut i = none) (file : List (Kw × List Index)) :
    p.processed file = p.parsed file := by
  unfold FailPlan.processed
  refine List.ext_getElem? fun i => ?_
  rw [List.getElem?_mapIdx]
  cases (p.parsed file)[i]? with
  | none => rfl
  | some x => simp [FailPlan.part, h i]

omit [DecidableEq Kw] in
theorem FailPlan.joined {p : FailPlan} {s : Loader Kw} {r : Bool} (h : p.result s = some r) :
    s.result = some true ∧ r = p.parse.isNone := by
  unfold FailPlan.result at h
  unfold Loader.result
  split at h
  · rename_i hj
    rw [hj]
    exact ⟨rfl, (Option.some.inj h).symm⟩
  · cases h

/-- **C18 (part that holds)**: if the call returns success, with at least one worker, no exception in a task and
no failed `Write`, then exactly the pairs of the file have been sent. Missing: the cases for which the claim is
false, see `C18_no_worker`, `C18_broken_stream` and `C18_exception_violated`. -/
theorem C18_success_partial (p : FailPlan) {n : Nat} (hn : 1 ≤ n) {file : List (Kw × List Index)} {s : Loader Kw}
    (hs : FailReachable p n file s) (hres : p.result s = some true) (hlost : s.lost = [])
    (hcut : ∀ i, p.cut i = none) :
    (s.sent.map (fun m => (m.1, m.2.1))).Perm (pairs file) := by
  obtain ⟨h1, h2⟩ := p.joined hres
  unfold FailReachable at hs
  rw [p.processed_of_cut hcut] at hs
  have hp : p.parse = none := by simpa using h2.symm
  have : p.parsed file = file := by simp [FailPlan.parsed, hp]
  rw [this] at hs
  exact C18_all_sent_partial hn hs h1 hlost

/-- **C18**: whatever fails, with at least one worker, when the call returns the pairs that were sent and those that were
lost are together the processed part of the file. -/
theorem C18_processed (p : FailPlan) {n : Nat} (hn : 1 ≤ n) {file : List (Kw × List Index)} {s : Loader Kw} {r : Bool}
    (hs : FailReachable p n file s) (hres : p.result s = some r) :
    (s.sent.map (fun m => (m.1, m.2.1)) ++ s.lost.map (fun m => (m.1, m.2.1))).Perm (pairs (p.processed file)) :=
  C18_missing_are_lost hn hs (p.joined hres).1

/-- **C18**: a parse error is reported, and the lists before the error have been sent. -/
theorem C18_parse_error (k n : Nat) (hn : 1 ≤ n) (file : List (Kw × List Index)) :
    (∃ s : Loader Kw, FailReachable ⟨some k, fun _ => none⟩ n file s ∧ s.lost = [] ∧
      (FailPlan.mk (some k) fun _ => none).result s = some false) ∧
    ∀ (s : Loader Kw) (r : Bool), FailReachable ⟨some k, fun _ => none⟩ n file s →
      (FailPlan.mk (some k) fun _ => none).result s = some r → r = false ∧
      (s.lost = [] → (s.sent.map (fun m => (m.1, m.2.1))).Perm (pairs (file.take k))) := by
  constructor
  · obtain ⟨s, h1, h2, h3⟩ := exists_good_run n ((FailPlan.mk (some k) fun _ => none).processed file)
    refine ⟨s, h1, h3, ?_⟩
    unfold FailPlan.result
    rw [(result_true h2).1]
    rfl
  · intro s r hs hr
    refine ⟨(FailPlan.joined hr).2, fun hl => ?_⟩
    have h := C18_processed _ hn hs hr
    rw [hl, List.map_nil, List.append_nil, FailPlan.processed_of_cut (fun _ => rfl)] at h
    exact h

omit [DecidableEq Kw] in
theorem length_pairs (file : List (Kw × List Index)) : (pairs file).length = (file.map (·.2.length)).sum := by
  simp [pairs, List.length_flatMap]

omit [DecidableEq Kw] in
/-- Fewer pairs are processed if a list is cut. -/
theorem processed_lt (p : FailPlan) (hp : p.parse = none) {file : List (Kw × List Index)} {i j : Nat} {x : Kw × List Index}
    (hi : file[i]? = some x) (hj : p.cut i = some j) (hlt : j < x.2.length) :
    (pairs (p.processed file)).length < (pairs file).length := by
  rw [length_pairs, length_pairs]
  have hparsed : p.parsed file = file := by simp [FailPlan.parsed, hp]
  unfold FailPlan.processed
  rw [hparsed]
  have hle : ∀ k (ds : List Index), (p.part k ds).length ≤ ds.length := by
    intro k ds
    unfold FailPlan.part
    split
    · exact Nat.le_refl _
    · rw [List.length_take]; omega
  have hsum : ∀ (l : List (Kw × List Index)) (k : Nat),
      ((l.mapIdx fun i x => (x.1, p.part (i + k) x.2)).map (·.2.length)).sum ≤ (l.map (·.2.length)).sum := by
    intro l
    induction l with
    | nil => intro k; simp
    | cons y l ih =>
      intro k
      rw [List.mapIdx_cons, List.map_cons, List.sum_cons, List.map_cons, List.sum_cons]
      have h1 := ih (k + 1)
      have h2 := hle (0 + k) y.2
      have : (l.mapIdx fun i x => (x.1, p.part (i + 1 + k) x.2)) = l.mapIdx fun i x => (x.1, p.part (i + (k + 1)) x.2) := by
        congr 1; funext i x; rw [Nat.add_assoc, Nat.add_comm 1 k]
      rw [this]
      exact Nat.add_le_add h2 h1
  have hmain : ∀ (l : List (Kw × List Index)) (k i : Nat), l[i]? = some x → p.cut (i + k) = some j →
      ((l.mapIdx fun i x => (x.1, p.part (i + k) x.2)).map (·.2.length)).sum < (l.map (·.2.length)).sum := by
    intro l
    induction l with
    | nil => intro k i hi; simp at hi
    | cons y l ih =>
      intro k i hi hc
      rw [List.mapIdx_cons, List.map_cons, List.sum_cons, List.map_cons, List.sum_cons]
      have : (l.mapIdx fun i x => (x.1, p.part (i + 1 + k) x.2)) = l.mapIdx fun i x => (x.1, p.part (i + (k + 1)) x.2) := by
        congr 1; funext i x; rw [Nat.add_assoc, Nat.add_comm 1 k]
      rw [this]
      cases i with
      | zero =>
        simp only [List.getElem?_cons_zero, Option.some.injEq] at hi
        subst hi
        refine Nat.add_lt_add_of_lt_of_le ?_ (hsum l (k + 1))
        simp only [FailPlan.part, hc, List.length_take]
        omega
      | succ i =>
        simp only [List.getElem?_cons_succ] at hi
        exact Nat.add_lt_add_of_le_of_lt (hle _ _) (ih (k + 1) i hi (by rw [← hc]; congr 1; omega))
  exact hmain file 0 i hi hj

/-- **C18 is violated by exceptions in tasks**: whenever an insertion of some list raises an exception, for
every number of threads, there is a run without any failed `Write` in which the call returns success; and it returns nothing else. -/
theorem C18_exception_violated (p : FailPlan) (hp : p.parse = none) (n : Nat) (hn : 1 ≤ n) (file : List (Kw × List Index))
    {i j : Nat} {x : Kw × List Index} (hi : file[i]? = some x) (hj : p.cut i = some j) (hlt : j < x.2.length) :
    (∃ s : Loader Kw, FailReachable p n file s ∧ p.result s = some true ∧ s.lost = []) ∧
    ∀ (s : Loader Kw) (r : Bool), FailReachable p n file s → p.result s = some r →
      r = true ∧ ¬(s.sent.map (fun m => (m.1, m.2.1))).Perm (pairs file) := by
  have hf := processed_lt p hp hi hj hlt
  constructor
  · obtain ⟨s, h1, h2, h3⟩ := exists_good_run n (p.processed file)
    refine ⟨s, h1, ?_, h3⟩
    unfold FailPlan.result
    rw [(result_true h2).1, hp]
    rfl
  · intro s r hs hr
    refine ⟨by rw [(p.joined hr).2, hp]; rfl, fun hq => ?_⟩
    have h1 := (C18_processed p hn hs hr).length_eq
    have h2 := hq.length_eq
    rw [List.length_append] at h1
    omega

/-- Non-vacuity of `C18_exception_violated`: one update of the counter store fails. -/
example : ∃ p : FailPlan, p.parse = none ∧ p.cut 0 = some 1 ∧
    ([(true, [(5 : Index), 6]), (false, [7])])[0]? = some (true, [5, 6]) ∧ 1 < [(5 : Index), 6].length :=
  ⟨⟨none, fun i => if i = 0 then some 1 else none⟩, rfl, rfl, rfl, by decide⟩

/-- Non-vacuity of `C18_success_partial`: a complete run without failure -/
example : ∃ s : Loader Bool, FailReachable FailPlan.ok 3 [(true, [5, 6]), (false, [7])] s ∧
    FailPlan.ok.result s = some true ∧ s.lost = [] := by
  obtain ⟨s, h1, h2, h3⟩ := exists_good_run 3 (FailPlan.ok.processed [(true, [(5 : Index), 6]), (false, [7])])
  exact ⟨s, h1, by unfold FailPlan.result; rw [(result_true h2).1]; rfl, h3⟩

/-- Non-vacuity of `C18_processed`: a parse error after two lists and an exception in the first -/
example : ∃ s : Loader Bool,
    FailReachable ⟨some 2, fun i => if i = 0 then some 1 else none⟩ 3 [(true, [5, 6]), (false, [7]), (true, [8])] s ∧
    (FailPlan.mk (some 2) fun i => if i = 0 then some 1 else none).result s = some false ∧
    (s.sent.map (fun m => (m.1, m.2.1))).Perm [(true, 5), (false, 7)] := by
  obtain ⟨s, h1, h2, h3⟩ := exists_good_run 3
    ((FailPlan.mk (some 2) fun i => if i = 0 then some 1 else none).processed
      [(true, [(5 : Index), 6]), (false, [7]), (true, [8])])
  have hr : (FailPlan.mk (some 2) fun i => if i = 0 then some 1 else none).result s = some false := by
    unfold FailPlan.result; rw [(result_true h2).1]; rfl
  refine ⟨s, h1, hr, ?_⟩
  have h := C18_processed _ (by decide) h1 hr
  rw [h3, List.map_nil, List.append_nil] at h
  exact h

end Verif.Runner
