import Verif.Tethys.FineLemmas
import Verif.Tethys.GraphProps

/-!
# C21: the parallel computation of the maximum flow, edge by edge

The searches of the jobs are interleaved with the updates of the others, and a job may see anything in
the flows of the edges that another job writes.
-/

namespace Verif.Tethys

open Spec

/-- **C21**, safety, with the searches interleaved edge by edge: no job accesses memory out of bounds,
whatever the interleaving and whatever the jobs see in the edges written by others. -/
theorem C21_fine_no_fault (n : Nat) (ops : List BuildOp) (g : Graph) (hg : build n ops = .ok g) :
    ∃ s0, g.fineInit = .ok s0 ∧ ∀ m s, Fine.Steps m s0 s → ¬ s.Faulty := by
  obtain ⟨g0, hw, h2, h3, h4⟩ := fineInit_spec hg
  refine ⟨_, h3, ?_⟩
  rintro m s hs ⟨k, j, seen, f, hj, hsees, herr⟩
  obtain ⟨jobs, star, left, hI, -⟩ := fineSteps_spec hw h2.closed h4 hs
  by_cases hd : j = .done
  · subst hd; cases herr
  · obtain ⟨g', j', _, _, _, ok, -⟩ := fineStep_spec hw h2.closed hI hj hd hsees
    rw [ok] at herr
    cases herr

/-- **C21**, termination, with the searches interleaved edge by edge: the number of steps is bounded,
and an unfinished job can always proceed. -/
theorem C21_fine_terminates (n : Nat) (ops : List BuildOp) (g : Graph) (hg : build n ops = .ok g) :
    ∃ s0, g.fineInit = .ok s0 ∧ (∃ B, ∀ m s, Fine.Steps m s0 s → m ≤ B) ∧
      ∀ m s, Fine.Steps m s0 s → ∀ (k : Nat) j, s.jobs[k]? = some j → j ≠ .done →
        ∃ g' j', fineStep s.graph.edges s.graph k j = .ok (g', j') ∧
          Fine.Step s ⟨g', s.jobs.set k j', j.writes.toList.map (k, ·) ++ s.wrote⟩ := by
  obtain ⟨g0, hw, h2, h3, h4⟩ := fineInit_spec hg
  refine ⟨_, h3, ⟨(fineLeft g0 (List.replicate (g0.nComponents + 1) .find) g0.edges (fun _ => 0)).toNat,
    ?_⟩, ?_⟩
  · intro m s hs
    obtain ⟨jobs, star, left, hI, hm⟩ := fineSteps_spec hw h2.closed h4 hs
    have := fineLeft_nonneg hw hI
    omega
  · intro m s hs k j hj hd
    obtain ⟨jobs, star, left, hI, -⟩ := fineSteps_spec hw h2.closed h4 hs
    have hsees : s.Sees k s.graph.edges := ⟨rfl, fun _ => Or.inl rfl⟩
    obtain ⟨g', j', _, _, _, ok, -⟩ := fineStep_spec hw h2.closed hI hj hd hsees
    exact ⟨g', j', ok, Fine.Step.mk hj hd hsees ok⟩

/-- **C21**, the result, with the searches interleaved edge by edge: when all the jobs are finished,
whatever the interleaving and whatever the jobs saw in the edges written by others, the graph holds a
flow of the same value as the one computed by `compute_residual_maxflow`. -/
theorem C21_fine_same_value (n : Nat) (ops : List BuildOp) (g : Graph) (hg : build n ops = .ok g) :
    ∃ s0 gs gs', g.fineInit = .ok s0 ∧ g.computeResidualMaxflow = .ok gs ∧
      gs.transformResidualToFlow = .ok gs' ∧
      ∀ m s, Fine.Steps m s0 s → s.Finished →
        ∃ gp, s.result.transformResidualToFlow = .ok gp ∧
          (network gp).map FlowEdge.pipe = ops.map pipeOf ∧ IsFlow (network gp) ∧
          value (network gp) = value (network gs') := by
  obtain ⟨g0, hw, h2, h3, h4⟩ := fineInit_spec hg
  obtain ⟨gs, k1, k2, -⟩ := computeResidualMaxflow_spec (fresh_build hg)
  obtain ⟨a, b, c, -, -, f⟩ := k2.facts hg
  refine ⟨_, gs, flipped gs, h3, k1, a, ?_⟩
  intro m s hs hfin
  obtain ⟨jobs, star, left, hI, -⟩ := fineSteps_spec hw h2.closed h4 hs
  have hM : MaxResidual g0 s.result := par_finished hw h2.closed h2.bound hI.par (hI.finished hfin)
  have hM' : MaxResidual g s.result := ⟨hM.1, hM.2.trans (by rw [h2.same.edges]), hM.3, hM.4, hM.5, hM.6⟩
  obtain ⟨a', b', c', -, -, f'⟩ := hM'.facts hg
  refine ⟨flipped s.result, a', by rw [b', pipeOf_eq], c', ?_⟩
  exact le_antisymm (f _ c' b') (f' _ c b)

/-- **C21**, disjoint writes: two jobs never write the same edge, and a step of a job leaves the
parent edges of the vertices of the other components, and those of the source and the sink. -/
theorem C21_fine_disjoint_writes (n : Nat) (ops : List BuildOp) (g : Graph) (hg : build n ops = .ok g) :
    ∃ s0, g.fineInit = .ok s0 ∧ ∀ m s, Fine.Steps m s0 s →
      (∀ k k' i, (k, i) ∈ s.wrote → (k', i) ∈ s.wrote → k = k') ∧
      ∀ k j seen g' j', s.jobs[k]? = some j → s.Sees k seen → fineStep seen s.graph k j = .ok (g', j') →
        (∀ i, g'.edges[i]? ≠ s.graph.edges[i]? → j.writes = some i) ∧
        ∀ v, g'.parents v ≠ s.graph.parents v →
          ∃ i vx, v = .inner i ∧ s.graph.vertices[i]? = some vx ∧ vx.component = k := by
  obtain ⟨g0, hw, h2, h3, h4⟩ := fineInit_spec hg
  refine ⟨_, h3, ?_⟩
  intro m s hs
  obtain ⟨jobs, star, left, hI, -⟩ := fineSteps_spec hw h2.closed h4 hs
  refine ⟨fun k k' i h h' => (hI.wrote k i h).unique h2.closed (hI.wrote k' i h'), ?_⟩
  intro k j seen g' j' hj hsees hok
  obtain ⟨hseen, -⟩ := hI.sees h2.closed hsees
  cases j with
  | done => cases hok; exact ⟨fun _ h => absurd rfl h, fun _ h => absurd rfl h⟩
  | find => cases hok; exact ⟨fun _ h => absurd rfl h, fun _ h => absurd rfl h⟩
  | update c path =>
    cases path with
    | nil => cases hok; exact ⟨fun _ h => absurd rfl h, fun _ h => absurd rfl h⟩
    | cons p ps =>
      simp only [fineStep] at hok
      split at hok
      · cases hok
      · cases hok
        refine ⟨?_, fun _ h => absurd rfl h⟩
        intro i hi
        simp only [FJob.writes, Option.some.injEq]
        by_contra hne
        exact hi (by rw [List.getElem?_set_ne hne])
  | search l =>
    have hk : k < jobs.length := by rw [← hI.len]; exact (List.getElem?_eq_some_iff.mp hj).1
    obtain ⟨hin, -⟩ := hI.rel k _ _ hj (List.getElem?_eq_getElem hk)
    obtain ⟨-, -, a3, a4⟩ := searchStep_inv hw h2.closed hI.par.shape hI.pin hseen hin hok
    obtain ⟨-, c2, -, -⟩ := searchStep_inv hw h2.closed hI.par.shape hI.pin hseen hin hok
    refine ⟨fun i hi => absurd (by rw [a3]) hi, ?_⟩
    intro v hv
    cases v with
    | source => rw [c2.1, hI.pin.1] at hv; exact absurd rfl hv
    | sink =>
      exfalso
      apply hv
      exact searchStep_sink hok
    | inner i =>
      by_cases hc : g0.comp i = some k
      · unfold Graph.comp at hc
        rw [← hI.par.shape.vertices] at hc
        cases hvx : s.graph.vertices[i]? with
        | none => rw [hvx] at hc; cases hc
        | some vx => rw [hvx] at hc; exact ⟨i, vx, rfl, hvx, by simpa using hc⟩
      · exact absurd (a4 i hc) hv

/-! ## Examples -/

/-- A schedule: the jobs that make a step, in order, with an exact view of the edges -/
def Fine.run : List Nat → Fine → Option Fine
  | [], s => some s
  | k :: ks, s =>
    match s.jobs[k]? with
    | none => none
    | some j =>
      if j = .done then none
      else match fineStep s.graph.edges s.graph k j with
        | .error _ => none
        | .ok (g', j') => Fine.run ks ⟨g', s.jobs.set k j', j.writes.toList.map (k, ·) ++ s.wrote⟩

theorem Fine.Step.cons {n : Nat} {a b c : Fine} (h : Fine.Step a b) (h' : Fine.Steps n b c) :
    Fine.Steps (n + 1) a c := by
  induction h' with
  | refl s => exact .tail (.refl _) h
  | tail _ hs ih => exact .tail (ih h) hs

theorem Fine.run_steps {ks : List Nat} {s s' : Fine} (h : Fine.run ks s = some s') :
    Fine.Steps ks.length s s' := by
  induction ks generalizing s with
  | nil => cases h; exact .refl _
  | cons k ks ih =>
    rw [Fine.run] at h
    split at h
    · cases h
    · rename_i j hj
      split at h
      · cases h
      · rename_i hd
        split at h
        · cases h
        · rename_i g' j' hok
          exact Fine.Step.cons (.mk hj hd ⟨rfl, fun _ => Or.inl rfl⟩ hok) (ih h)

/-- A data race: a job is about to read the flow of an edge in a search, and another one to write it. -/
def Fine.Race (s : Fine) : Prop :=
  ∃ (k k' : Nat) (l : Search) (r : Bool) (v : VertexPtr) (p : EdgePtr) (ps : List EdgePtr) (j : FJob),
    k ≠ k' ∧ s.jobs[k]? = some (.search l) ∧ l.phase = .scan r v (p :: ps) ∧
    s.jobs[k']? = some j ∧ j.writes = some p.index

/-- The two components of `twoComponents`, with three jobs -/
def fineStart : Option Fine :=
  match build 5 twoComponents with
  | .ok g => match g.fineInit with
    | .ok s => some s
    | .error _ => none
  | .error _ => none

/-- The job of the component 2 finds its path, then the job of the component 1 comes to the edge that
the first is about to write. -/
def raceSchedule : List Nat := List.replicate 20 2 ++ [1, 1, 1]

theorem fineStart_some {s0 : Fine} (h : fineStart = some s0) :
    ∃ g, build 5 twoComponents = .ok g ∧ g.fineInit = .ok s0 := by
  unfold fineStart at h
  split at h
  · rename_i g hg
    split at h
    · rename_i s hs; cases h; exact ⟨g, hg, hs⟩
    · cases h
  · cases h

/-- The states of the jobs after this schedule -/
def raceJobs : List FJob :=
  [.find, .search ⟨[.inner 0], [.inner 0], none, .scan false .source [⟨false, 3⟩]⟩,
    .update 3 [⟨false, 3⟩, ⟨false, 4⟩, ⟨false, 5⟩]]

theorem raceSchedule_jobs :
    (fineStart.bind (Fine.run raceSchedule)).map (·.jobs) = some raceJobs := by decide +kernel

/-- **C21** does not hold to the letter: a search reads the flow of an edge from the source to another
component while the job of that component writes it. `C21_fine_same_value` holds whatever it reads. -/
theorem C21_fine_race : ∃ g s0 s, build 5 twoComponents = .ok g ∧ g.fineInit = .ok s0 ∧
    Fine.Steps raceSchedule.length s0 s ∧ s.Race := by
  obtain ⟨s, hs, hj⟩ := Option.map_eq_some_iff.mp raceSchedule_jobs
  obtain ⟨s0, h0, hr⟩ := Option.bind_eq_some_iff.mp hs
  obtain ⟨g, hg, hi⟩ := fineStart_some h0
  refine ⟨g, s0, s, hg, hi, Fine.run_steps hr, 1, 2, _, false, .source, ⟨false, 3⟩, [],
    _, by decide, by rw [hj]; rfl, rfl, by rw [hj]; rfl, rfl⟩

/-- In this state the job of the component 1 may see any flow in the edge 3. -/
example : ∃ s, fineStart.bind (Fine.run raceSchedule) = some s ∧ ∀ x y : UInt64,
    s.Sees 1 (s.graph.edges.modify 3 (fun e => { e with flow := x, recFlow := y })) := by
  obtain ⟨s, hs, hj⟩ := Option.map_eq_some_iff.mp raceSchedule_jobs
  refine ⟨s, hs, fun x y => ⟨?_, ?_⟩⟩
  · apply List.ext_getElem?
    intro i
    simp only [List.getElem?_map, List.getElem?_modify]
    cases s.graph.edges[i]? with
    | none => simp
    | some e => by_cases h : 3 = i <;> simp [h]
  · intro i
    by_cases h : i = 3
    · subst h
      exact Or.inr ⟨2, by decide, Or.inr ⟨_, by rw [hj]; rfl, rfl⟩⟩
    · left
      rw [List.getElem?_modify]
      simp [Ne.symm h]

/-- The three jobs in turn, each until it is finished -/
def turns : List Nat := (List.replicate 7 [0, 1, 2]).flatten ++ (List.replicate 23 [1, 2]).flatten

theorem turns_end : (fineStart.bind (Fine.run turns)).map
    (fun s => (s.jobs, s.wrote, s.graph.edges.map (·.recFlow))) =
    some ([.done, .done, .done], [(2, 5), (1, 2), (2, 4), (1, 1), (2, 3), (1, 0)], [2, 2, 2, 3, 3, 3]) := by
  decide +kernel

/-- A run to the end, of 67 steps, with the searches and the updates of two jobs interleaved: the
hypotheses of `C21_fine_same_value` and `C21_fine_disjoint_writes` hold. -/
example : ∃ g s0 s, build 5 twoComponents = .ok g ∧ g.fineInit = .ok s0 ∧
    Fine.Steps turns.length s0 s ∧ s.Finished ∧ s.graph.edges.map (·.recFlow) = [2, 2, 2, 3, 3, 3] := by
  obtain ⟨s, hs, hj⟩ := Option.map_eq_some_iff.mp turns_end
  obtain ⟨s0, h0, hr⟩ := Option.bind_eq_some_iff.mp hs
  obtain ⟨g, hg, hi⟩ := fineStart_some h0
  simp only [Prod.mk.injEq] at hj
  refine ⟨g, s0, s, hg, hi, Fine.run_steps hr, ?_, hj.2.2⟩
  intro j hm
  rw [hj.1] at hm
  simpa using hm

end Verif.Tethys
