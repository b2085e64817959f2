import Verif.Tethys.ComponentsLemmas

/-! # Helper lemmas: results of the sequential and of the parallel computation -/

namespace Verif.Tethys

open Spec

/-! ## Sequential -/

theorem stop_ne_source {g : Graph} (hw : WF g) {e : Edge} (he : e ∈ g.edges) :
    e.stop ≠ .source := by
  rcases hw.stop e he with h | ⟨_, _, h⟩ <;> rw [h] <;> simp

theorem start_ne_sink {g : Graph} (hw : WF g) {e : Edge} (he : e ∈ g.edges) :
    e.start ≠ .sink := by
  rcases hw.start e he with h | ⟨_, _, h⟩ <;> rw [h] <;> simp

/-- What a computation of the residual maximal flow must give. -/
structure MaxResidual (g g' : Graph) : Prop where
  state : g'.state = .residualComputed
  skel : g'.edges.map Edge.skel = g.edges.map Edge.skel
  wf : WF g'
  balanced : Balanced g'.edges
  conserved : ∀ i, excess g'.edges (.inner i) = 0
  cut : ∃ S, Saturated g'.edges S

theorem computeResidualMaxflow_spec {g : Graph} (hf : Fresh g) :
    ∃ g', g.computeResidualMaxflow = .ok g' ∧ MaxResidual g g' ∧ g'.vertices = g.vertices ∧
      g'.source = g.source ∧ g'.sink = g.sink := by
  have hx : ∀ v, excess g.edges v = 0 := excess_zero (fun e he => (hf.flows e he).2)
  obtain ⟨g1, h1, h2⟩ := augmentLoop_spec 0 g.augmentFuel g hf.wf hf.balanced (by
    unfold flowValue Graph.augmentFuel
    rw [hx]
    simp [capSum])
  unfold Graph.computeResidualMaxflow
  rw [if_neg (by simp [hf.state]), h1]
  have hw1 : WF g1 := h2.shape.wf hf.wf h2.psource
  refine ⟨_, rfl, ⟨rfl, h2.shape.skel, ?_, h2.balanced, ?_, ?_⟩, h2.shape.vertices,
    h2.shape.source, h2.shape.sink⟩
  · exact ⟨hw1.1, hw1.2, hw1.3, fun v vx hv => hw1.4 v vx (by cases v <;> exact hv),
      fun v vx hv => hw1.5 v vx (by cases v <;> exact hv), hw1.6⟩
  · intro i
    show excess g1.edges _ = 0
    rw [h2.inner i, hx]
  · obtain ⟨S, hS1, hS2⟩ := h2.final
    have hcomp : ∀ v vx, g.vertex v = .ok vx → HasComp g v 0 := fun v vx hv =>
      ⟨vx, hv, hf.comps v vx hv⟩
    have hhead : ∀ e ∈ g1.edges, ∀ b, HasComp g (e.head b) 0 := by
      intro e he b
      obtain ⟨vx, hvx⟩ := vertex_ok hw1 he b
      rw [h2.shape.vertex] at hvx
      exact hcomp _ vx hvx
    refine ⟨fun v => decide (v = .source ∨ v ∈ S), by simp, ?_, ?_⟩
    · simp only [reduceCtorEq, false_or, decide_eq_false_iff_not]
      intro h
      obtain ⟨_, _, h, _⟩ := hS1 _ h
      cases h
    · intro e he
      have he1 : e ∈ g1.edges := he
      obtain ⟨k, hk⟩ := List.mem_iff_getElem?.mp he1
      simp only [decide_eq_true_eq, decide_eq_false_iff_not, not_or]
      constructor
      · intro ha hb
        by_contra hne
        have hpos : 0 < e.flowAlong false := by
          simp only [Edge.flowAlong, Bool.false_eq_true, if_false]
          rw [UInt64.lt_iff_toNat_lt]
          have : e.flow.toNat ≠ 0 := fun h => hne (UInt64.toNat_inj.mp (by simpa using h))
          simp; omega
        obtain ⟨-, h⟩ := hS2 e.start ha ⟨false, k⟩ e.stop ⟨e, hk, hpos, rfl, rfl⟩
        rcases h with h | h | h
        · exact hb.1 h
        · exact hb.2 h
        · exact h (hhead e he1 false)
      · intro ha hb
        by_contra hne
        have hpos : 0 < e.flowAlong true := by
          simp only [Edge.flowAlong, if_true]
          rw [UInt64.lt_iff_toNat_lt]
          have : e.recFlow.toNat ≠ 0 := fun h => hne (UInt64.toNat_inj.mp (by simpa using h))
          simp; omega
        obtain ⟨-, h⟩ := hS2 e.stop hb ⟨true, k⟩ e.start ⟨e, hk, hpos, rfl, rfl⟩
        rcases h with h | h | h
        · exact ha.1 h
        · exact ha.2 h
        · exact h (hhead e he1 true)

/-! ## Parallel -/

/-- The updates a job has still to do -/
def Job.restC : Job → UInt64
  | .update c _ => c
  | _ => 0
def Job.restPath : Job → List EdgePtr
  | .update _ path => path
  | _ => []

/-- The edge `i` has an end in the component `k`. -/
def EdgeIn (g : Graph) (i k : Nat) : Prop :=
  ∃ e v, g.edges[i]? = some e ∧ (e.start = .inner v ∨ e.stop = .inner v) ∧ g.comp v = some k

theorem hasComp_inner {g : Graph} {v k : Nat} : HasComp g (.inner v) k ↔ g.comp v = some k := by
  unfold HasComp Graph.comp
  constructor
  · rintro ⟨vx, h, rfl⟩
    rw [vertex_inner_ok] at h
    simp [h]
  · intro h
    cases hv : g.vertices[v]? with
    | none => simp [hv] at h
    | some vx =>
      rw [hv] at h
      simp at h
      exact ⟨vx, vertex_inner_ok.mpr hv, h⟩

theorem EdgeIn.unique {g : Graph} (hcl : Closed g) {i k k' : Nat} (h : EdgeIn g i k)
    (h' : EdgeIn g i k') : k = k' := by
  obtain ⟨e, v, he, hv, hk⟩ := h
  obtain ⟨e', v', he', hv', hk'⟩ := h'
  rw [he] at he'
  cases he'
  have hm := List.mem_of_getElem? he
  have : g.comp v = g.comp v' := by
    rcases hv with h1 | h1 <;> rcases hv' with h2 | h2
    · rw [h1] at h2; cases h2; rfl
    · exact hcl v v' ⟨e, hm, Or.inl ⟨h1, h2⟩⟩
    · exact hcl v v' ⟨e, hm, Or.inr ⟨h2, h1⟩⟩
    · rw [h1] at h2; cases h2; rfl
  rw [hk, hk'] at this
  simpa using this

/-- Every edge belongs to a component. -/
theorem edgeIn_exists {g : Graph} (hw : WF g) {i : Nat} (hi : i < g.edges.length) :
    ∃ k, EdgeIn g i k := by
  have hm := List.getElem_mem hi
  have hc : ∀ v, v < g.vertices.length → ∃ k, g.comp v = some k := fun v hv =>
    ⟨_, by simp [Graph.comp, List.getElem?_eq_getElem hv]; rfl⟩
  rcases hw.start _ hm with h | ⟨v, hv, h⟩
  · rcases hw.stop _ hm with h' | ⟨v, hv, h'⟩
    · exact absurd ⟨h, h'⟩ (hw.direct _ hm)
    · obtain ⟨k, hk⟩ := hc v hv
      exact ⟨k, _, v, List.getElem?_eq_getElem hi, Or.inr h', hk⟩
  · obtain ⟨k, hk⟩ := hc v hv
    exact ⟨k, _, v, List.getElem?_eq_getElem hi, Or.inl h, hk⟩

theorem SameShape.edgeIn {g g' : Graph} (h : SameShape g g') (i k : Nat) :
    EdgeIn g' i k ↔ EdgeIn g i k := by
  have key : ∀ {a b : Graph}, SameShape a b → ∀ i k, EdgeIn b i k → EdgeIn a i k := by
    rintro a b h i k ⟨e, v, he, hv, hk⟩
    have : (a.edges.map Edge.skel)[i]? = some e.skel := by rw [← h.skel]; simp [he]
    rw [List.getElem?_map] at this
    cases he' : a.edges[i]? with
    | none => simp [he'] at this
    | some e' =>
      rw [he'] at this
      simp only [Option.map_some, Option.some.injEq, Edge.skel, Prod.mk.injEq] at this
      refine ⟨e', v, he', ?_, ?_⟩
      · rw [this.2.2.1, this.2.2.2]; exact hv
      · rw [Graph.comp, ← h.vertices]; exact hk
  exact ⟨key h i k, key ⟨h.1.symm, h.2.symm, h.3.symm, h.4.symm, h.5.symm, h.6.symm⟩ i k⟩

theorem updatePath_getElem?_congr (c : UInt64) (path : List EdgePtr) (es es' : List Edge) (i : Nat)
    (h : es[i]? = es'[i]?) : (updatePath c path es)[i]? = (updatePath c path es')[i]? := by
  induction path generalizing es es' with
  | nil => exact h
  | cons p ps ih =>
    rw [updatePath, updatePath]
    apply ih
    rw [List.getElem?_modify, List.getElem?_modify, h]

/-- The residual arcs of a component do not change when other edges do. -/
def DoneCut (g0 g : Graph) (k : Nat) : Prop :=
  ∃ S : List VertexPtr, (∀ v ∈ S, ∃ i, v = .inner i ∧ g0.comp i = some k) ∧
    ∀ u, (u = .source ∨ u ∈ S) → ∀ p w, Arc g p u w →
      w ≠ .sink ∧ (w = .source ∨ w ∈ S ∨ ¬ HasComp g0 w k)

/-- Invariant of the parallel computation: `star` is the graph once the pending updates are done. -/
structure ParInv (g0 : Graph) (s : Par) (star : List Edge) : Prop where
  shape : SameShape g0 s.graph
  psource : s.graph.parents .source = none
  len : s.jobs.length = g0.nComponents + 1
  skel : star.map Edge.skel = g0.edges.map Edge.skel
  balanced : Balanced star
  conserved : ∀ i, excess star (.inner i) = 0
  agree : ∀ i k j, EdgeIn g0 i k → s.jobs[k]? = some j →
    star[i]? = (updatePath j.restC j.restPath s.graph.edges)[i]?
  paths : ∀ k j, s.jobs[k]? = some j → ∀ p ∈ j.restPath, EdgeIn g0 p.index k
  cuts : ∀ k, s.jobs[k]? = some .done → DoneCut g0 s.graph k

/-- Measure of the work left -/
def workLeft (g0 : Graph) (s : Par) (star : List Edge) : Int :=
  ((capSum g0.edges : Int) - flowValue star) * (g0.edges.length + 2) +
    ((s.jobs.map (fun j => (j.restPath.length : Int) + if j = .done then 0 else 1)).sum)

theorem sum_set {α : Type} (l : List α) (f : α → Int) (k : Nat) (a b : α) (h : l[k]? = some a) :
    ((l.set k b).map f).sum = (l.map f).sum - f a + f b := by
  induction l generalizing k with
  | nil => simp at h
  | cons x l ih =>
    cases k with
    | zero => simp at h; subst h; simp [add_comm]
    | succ k =>
      simp only [List.getElem?_cons_succ] at h
      simp only [List.set_cons_succ, List.map_cons, List.sum_cons, ih k h]
      ring

theorem getElem?_set_cases {α : Type} {l : List α} {k k' : Nat} {a b : α}
    (h : (l.set k a)[k']? = some b) : (k = k' ∧ a = b) ∨ (k ≠ k' ∧ l[k']? = some b) := by
  rw [List.getElem?_set] at h
  split at h
  · rename_i hk
    split at h
    · simp at h; exact Or.inl ⟨hk, h⟩
    · simp at h
  · rename_i hk
    exact Or.inr ⟨hk, h⟩

theorem DoneCut.congr {g0 g g' : Graph} (hw : WF g0)
    (hcl : Closed g0) {k : Nat} (h : DoneCut g0 g k) (hs' : SameShape g0 g')
    (hedges : ∀ i, EdgeIn g0 i k → g'.edges[i]? = g.edges[i]?) : DoneCut g0 g' k := by
  obtain ⟨S, hS1, hS2⟩ := h
  refine ⟨S, hS1, ?_⟩
  rintro u hu p w ⟨e, he, hf, ht, hh⟩
  have hi : p.index < g'.edges.length := (List.getElem?_eq_some_iff.mp he).1
  have hlen : g'.edges.length = g0.edges.length := by
    have := congrArg List.length hs'.skel; simpa using this
  obtain ⟨k', hk'⟩ := edgeIn_exists hw (hlen ▸ hi)
  by_cases hkk : k' = k
  · subst hkk
    exact hS2 u hu p w ⟨e, by rw [← hedges _ hk']; exact he, hf, ht, hh⟩
  · -- an edge of another component leaves from the source
    have hk2 := (hs'.edgeIn _ _).mpr hk'
    have hcomp' : ∀ v, g'.comp v = g0.comp v := fun v => by simp [Graph.comp, hs'.vertices]
    have hw' : ∀ e ∈ g'.edges, (e.start = .source ∨ ∃ i < g0.vertices.length, e.start = .inner i) ∧
        (e.stop = .sink ∨ ∃ i < g0.vertices.length, e.stop = .inner i) ∧
        ¬ (e.start = .source ∧ e.stop = .sink) := by
      intro e he
      obtain ⟨e', h1, h2⟩ := hs'.mem he
      simp only [Edge.skel, Prod.mk.injEq] at h2
      rw [← h2.2.2.1, ← h2.2.2.2]
      exact ⟨hw.start e' h1, hw.stop e' h1, hw.direct e' h1⟩
    obtain ⟨hws, hwt, hwd⟩ := hw' e (List.mem_of_getElem? he)
    rcases hu with rfl | hu
    · cases hr : p.recip with
      | true =>
        rw [hr] at ht
        simp only [Edge.tail, if_true] at ht
        rcases hwt with h | ⟨_, _, h⟩ <;> rw [h] at ht <;> cases ht
      | false =>
        rw [hr] at ht hh
        simp only [Edge.tail, Edge.head, Bool.false_eq_true, if_false] at ht hh
        refine ⟨fun hsk => hwd ⟨ht, hh.trans hsk⟩, Or.inr (Or.inr ?_)⟩
        intro hc
        rcases hwt with h | ⟨v, _, h⟩
        · exact hwd ⟨ht, h⟩
        · rw [← hh, h, hasComp_inner] at hc
          exact hkk (EdgeIn.unique (g := g') (by
            intro a b ⟨x, hx, hab⟩
            rw [hcomp', hcomp']
            obtain ⟨x', h1, h2⟩ := hs'.mem hx
            simp only [Edge.skel, Prod.mk.injEq] at h2
            exact hcl a b ⟨x', h1, by rw [h2.2.2.1, h2.2.2.2]; exact hab⟩) hk2
            ⟨e, v, he, Or.inr h, by rw [hcomp']; exact hc⟩)
    · obtain ⟨v, rfl, hv⟩ := hS1 u hu
      exfalso
      apply hkk
      apply EdgeIn.unique (g := g') _ hk2 ⟨e, v, he, ?_, by rw [hcomp']; exact hv⟩
      · intro a b ⟨x, hx, hab⟩
        rw [hcomp', hcomp']
        obtain ⟨x', h1, h2⟩ := hs'.mem hx
        simp only [Edge.skel, Prod.mk.injEq] at h2
        exact hcl a b ⟨x', h1, by rw [h2.2.2.1, h2.2.2.2]; exact hab⟩
      · cases hr : p.recip <;> rw [hr] at ht <;> simp [Edge.tail] at ht
        · exact Or.inl ht
        · exact Or.inr ht

/-- One step of a job: it does not fault, keeps the invariant and decreases the work left. -/
theorem parStep_spec {g0 : Graph} (hw : WF g0) (hcl : Closed g0) {s : Par} {star : List Edge}
    (hI : ParInv g0 s star) {k : Nat} {j : Job} (hj : s.jobs[k]? = some j) (hnd : j ≠ .done)
    (hne : ∀ c, j ≠ .update c []) :
    ∃ g' j' star', stepJob s.graph k j = .ok (g', j') ∧ (∀ c, j' ≠ .update c []) ∧
      ParInv g0 ⟨g', s.jobs.set k j'⟩ star' ∧
      workLeft g0 ⟨g', s.jobs.set k j'⟩ star' < workLeft g0 s star := by
  have hwg : WF s.graph := hI.shape.wf hw hI.psource
  have hk : k < s.jobs.length := (List.getElem?_eq_some_iff.mp hj).1
  cases j with
  | done => exact absurd rfl hnd
  | find =>
    obtain ⟨ps, path, c, h1, h2, h3, h4, h5⟩ := findPath_spec hwg k
    rw [stepJob, h1]
    simp only
    have hshape' : SameShape g0 { s.graph with parents := ps } :=
      ⟨hI.shape.1, hI.shape.2, hI.shape.3, hI.shape.4, hI.shape.5, hI.shape.6⟩
    have hagreek : ∀ i, EdgeIn g0 i k → star[i]? = s.graph.edges[i]? := fun i hi =>
      hI.agree i k .find hi hj
    by_cases hp : path = []
    · rw [if_pos (by simp [hp])]
      refine ⟨_, _, star, rfl, by simp, ?_, ?_⟩
      · refine ⟨hshape', h2, by simpa using hI.len, hI.skel, hI.balanced, hI.conserved, ?_, ?_, ?_⟩
        · intro i k' j' hi hj'
          rcases getElem?_set_cases hj' with ⟨rfl, rfl⟩ | ⟨_, hj'⟩
          · exact hagreek i hi
          · exact hI.agree i k' j' hi hj'
        · intro k' j' hj' p hp
          rcases getElem?_set_cases hj' with ⟨rfl, rfl⟩ | ⟨_, hj'⟩
          · simp [Job.restPath] at hp
          · exact hI.paths k' j' hj' p hp
        · intro k' hj'
          rcases getElem?_set_cases hj' with ⟨rfl, -⟩ | ⟨_, hj'⟩
          · obtain ⟨S, hS1, hS2⟩ := h5 hp
            refine ⟨S, ?_, ?_⟩
            · intro v hv
              obtain ⟨i, hi, rfl, hc⟩ := hS1 v hv
              rw [hI.shape.hasComp, hasComp_inner] at hc
              exact ⟨i, rfl, hc⟩
            · intro u hu p w ha
              obtain ⟨a, b⟩ := hS2 u hu p w ha
              rw [hI.shape.hasComp] at b
              exact ⟨a, b⟩
          · exact hI.cuts k' hj'
      · unfold workLeft
        simp only
        rw [sum_set s.jobs _ k Job.find Job.done hj]
        simp [Job.restPath]
    · rw [if_neg (by simpa using hp)]
      obtain ⟨p1, p2, p3, p4, p5⟩ := h4 hp
      have hpin : ∀ p ∈ path, EdgeIn g0 p.index k := by
        intro p hp
        obtain ⟨u, w, ⟨e, he, -, ht, hh⟩, h⟩ := p5 p hp
        rw [← hI.shape.edgeIn]
        have hc : ∀ v, s.graph.comp v = some k → (e.start = .inner v ∨ e.stop = .inner v) →
            EdgeIn s.graph p.index k := fun v h1 h2 => ⟨e, v, he, h2, h1⟩
        rcases h with ⟨h1, h2, h3⟩ | ⟨h1, h2, h3⟩
        · cases u with
          | source => exact absurd rfl h2
          | sink => exact absurd rfl h3
          | inner v =>
            refine hc v (hasComp_inner.mp h1) ?_
            cases hr : p.recip <;> rw [hr] at ht <;> simp [Edge.tail] at ht
            · exact Or.inl ht
            · exact Or.inr ht
        · cases w with
          | source => exact absurd rfl h3
          | sink => exact absurd rfl h2
          | inner v =>
            refine hc v (hasComp_inner.mp h1) ?_
            cases hr : p.recip <;> rw [hr] at hh <;> simp [Edge.head] at hh
            · exact Or.inr hh
            · exact Or.inl hh
      have hskel : s.graph.edges.map Edge.skel = star.map Edge.skel :=
        hI.shape.skel.trans hI.skel.symm
      obtain ⟨q1, q2⟩ := updatePath_spec c path star _ _ (p1.congr hskel) p2
        (by
          intro p hp
          obtain ⟨e, he, hc⟩ := p4 p hp
          exact ⟨e, by rw [hagreek _ (hpin p hp)]; exact he, hc⟩) hI.balanced
      have hc : 0 < c.toNat := by simpa using UInt64.lt_iff_toNat_lt.mp p3
      have hplen : path.length ≤ g0.edges.length := by
        have hsub : path.map EdgePtr.index ⊆ List.range g0.edges.length := by
          intro i hi
          obtain ⟨p, hp, rfl⟩ := List.mem_map.mp hi
          obtain ⟨e, _, he, _⟩ := hpin p hp
          exact List.mem_range.mpr (List.getElem?_eq_some_iff.mp he).1
        have := (List.Nodup.subperm p2 hsub).length_le
        simpa using this
      refine ⟨_, _, updatePath c path star, rfl, by intro c' h; cases h; exact hp rfl, ?_, ?_⟩
      · refine ⟨hshape', h2, by simpa using hI.len, (updatePath_skel c path star).trans hI.skel, q1,
          ?_, ?_, ?_, ?_⟩
        · intro i
          rw [q2 (.inner i), hI.conserved i]
          simp
        · intro i k' j' hi hj'
          rcases getElem?_set_cases hj' with ⟨rfl, rfl⟩ | ⟨hne, hj'⟩
          · exact updatePath_getElem?_congr c path _ _ i (hagreek i hi)
          · rw [updatePath_getElem?_of_notMem]
            · exact hI.agree i k' j' hi hj'
            · intro hm
              obtain ⟨p, hp, rfl⟩ := List.mem_map.mp hm
              exact hne ((hpin p hp).unique hcl hi)
        · intro k' j' hj' p hp
          rcases getElem?_set_cases hj' with ⟨rfl, rfl⟩ | ⟨_, hj'⟩
          · exact hpin p hp
          · exact hI.paths k' j' hj' p hp
        · intro k' hj'
          rcases getElem?_set_cases hj' with ⟨rfl, h⟩ | ⟨_, hj'⟩
          · cases h
          · exact hI.cuts k' hj'
      · unfold workLeft
        simp only
        rw [sum_set s.jobs _ k Job.find (Job.update c path) hj]
        have hv : flowValue (updatePath c path star) = flowValue star + c.toNat := by
          unfold flowValue
          rw [q2 .source]
          simp only [reduceCtorEq, if_false, if_true]
          ring
        rw [hv]
        simp only [Job.restPath, List.length_nil]
        have : ((capSum g0.edges : Int) - (flowValue star + c.toNat)) * (g0.edges.length + 2) ≤
            ((capSum g0.edges : Int) - flowValue star) * (g0.edges.length + 2) -
              (g0.edges.length + 2) := by
          have hc' : (1 : Int) ≤ c.toNat := by omega
          nlinarith
        simp
        omega
  | update c path =>
    cases path with
    | nil => exact absurd rfl (hne c)
    | cons p ps =>
      rw [stepJob]
      have hpin := hI.paths k _ hj
      simp only [Job.restPath] at hpin
      have hin : EdgeIn g0 p.index k := hpin p (List.mem_cons_self ..)
      have hrest : ∀ j', j' = (if ps.isEmpty then Job.find else Job.update c ps) →
          j'.restPath = ps ∧ (∀ es, updatePath j'.restC j'.restPath es = updatePath c ps es) ∧
          (∀ c, j' ≠ .update c []) ∧ j' ≠ .done := by
        intro j' h
        cases ps with
        | nil => simp at h; subst h; simp [Job.restPath, updatePath]
        | cons q qs => simp at h; subst h; simp [Job.restPath, Job.restC]
      obtain ⟨r1, r2, r3, r4⟩ := hrest _ rfl
      have hshape' : SameShape g0 { s.graph with
          edges := s.graph.edges.modify p.index (fun e => e.update p.recip c) } :=
        ⟨hI.shape.1, hI.shape.2, hI.shape.3, hI.shape.4,
          (modify_skel _ _ _ _).trans hI.shape.5, hI.shape.6⟩
      refine ⟨_, _, star, rfl, r3, ?_, ?_⟩
      · refine ⟨hshape', hI.psource, by simpa using hI.len, hI.skel, hI.balanced, hI.conserved,
          ?_, ?_, ?_⟩
        · intro i k' j' hi hj'
          rcases getElem?_set_cases hj' with ⟨rfl, rfl⟩ | ⟨hne, hj'⟩
          · rw [r2]
            exact hI.agree i k _ hi hj
          · rw [hI.agree i k' j' hi hj']
            apply updatePath_getElem?_congr
            rw [getElem?_modify_ne]
            rintro rfl
            exact hne (hin.unique hcl hi)
        · intro k' j' hj' q hq
          rcases getElem?_set_cases hj' with ⟨rfl, rfl⟩ | ⟨_, hj'⟩
          · rw [r1] at hq
            exact hpin q (List.mem_cons_of_mem _ hq)
          · exact hI.paths k' j' hj' q hq
        · intro k' hj'
          rcases getElem?_set_cases hj' with ⟨rfl, h⟩ | ⟨hne, hj'⟩
          · exact absurd h r4
          · refine (hI.cuts k' hj').congr hw hcl hshape' ?_
            intro i hi
            show (s.graph.edges.modify p.index _)[i]? = _
            rw [getElem?_modify_ne]
            rintro rfl
            exact hne (hin.unique hcl hi)
      · unfold workLeft
        simp only
        rw [sum_set s.jobs _ k _ _ hj, r1, if_neg r4]
        simp [Job.restPath]
        omega

theorem workLeft_nonneg {g0 : Graph} (hw : WF g0) {s : Par} {star : List Edge}
    (hI : ParInv g0 s star) : 0 ≤ workLeft g0 s star := by
  have h1 : flowValue star ≤ capSum g0.edges := by
    rw [← capSum_skel hI.skel]
    have hsh : SameShape g0 { g0 with edges := star } := ⟨rfl, rfl, rfl, rfl, hI.skel, rfl⟩
    exact flowValue_le_capSum (g := { g0 with edges := star }) (hsh.wf hw hw.psource) hI.balanced
  have h2 : ∀ l : List Job,
      0 ≤ (l.map (fun j => (j.restPath.length : Int) + if j = .done then 0 else 1)).sum := by
    intro l
    induction l with
    | nil => simp
    | cons j l ih =>
      simp only [List.map_cons, List.sum_cons]
      split <;> omega
  unfold workLeft
  have := h2 s.jobs
  nlinarith [mul_nonneg (sub_nonneg.mpr h1) (show (0 : Int) ≤ g0.edges.length + 2 by omega)]

/-- When all the jobs are finished, the flow is maximal. -/
theorem par_finished {g0 : Graph} (hw : WF g0) (hcl : Closed g0)
    (hb : ∀ i c, g0.comp i = some c → c ≤ g0.nComponents) {s : Par} {star : List Edge}
    (hI : ParInv g0 s star) (hfin : s.Finished) : MaxResidual g0 s.result := by
  have hjob : ∀ k, k ≤ g0.nComponents → s.jobs[k]? = some .done := by
    intro k hk
    have hl : k < s.jobs.length := by rw [hI.len]; omega
    rw [List.getElem?_eq_getElem hl]
    exact congrArg some (hfin _ (List.getElem_mem hl))
  have hlen1 : star.length = g0.edges.length := by
    have := congrArg List.length hI.skel; simpa using this
  have hlen2 : s.graph.edges.length = g0.edges.length := by
    have := congrArg List.length hI.shape.skel; simpa using this
  have hbound : ∀ i k, EdgeIn g0 i k → k ≤ g0.nComponents := by
    rintro i k ⟨_, v, _, _, h⟩; exact hb v k h
  have hstar : star = s.graph.edges := by
    apply List.ext_getElem?
    intro i
    by_cases hi : i < g0.edges.length
    · obtain ⟨k, hk⟩ := edgeIn_exists hw hi
      exact hI.agree i k .done hk (hjob k (hbound i k hk))
    · rw [List.getElem?_eq_none (by omega), List.getElem?_eq_none (by omega)]
  have hwg : WF s.graph := hI.shape.wf hw hI.psource
  refine ⟨rfl, hI.shape.skel, ?_, hstar ▸ hI.balanced, ?_, ?_⟩
  · exact ⟨hwg.1, hwg.2, hwg.3, fun v vx hv => hwg.4 v vx (by cases v <;> exact hv),
      fun v vx hv => hwg.5 v vx (by cases v <;> exact hv), hwg.6⟩
  · intro i
    show excess s.graph.edges _ = 0
    rw [← hstar]; exact hI.conserved i
  · have hcuts := fun k (hk : k ≤ g0.nComponents) => hI.cuts k (hjob k hk)
    choose S hS1 hS2 using hcuts
    have hcompg : ∀ v, s.graph.comp v = g0.comp v := fun v => by simp [Graph.comp, hI.shape.vertices]
    classical
    refine ⟨fun v => decide (v = .source ∨ ∃ k, ∃ hk : k ≤ g0.nComponents, v ∈ S k hk), by simp, ?_, ?_⟩
    · simp only [reduceCtorEq, false_or, decide_eq_false_iff_not]
      rintro ⟨k, hk, h⟩
      obtain ⟨_, h, _⟩ := hS1 k hk _ h
      cases h
    · intro e he
      have he1 : e ∈ s.graph.edges := he
      obtain ⟨i, hi⟩ := List.mem_iff_getElem?.mp he1
      have hadj : ∀ a b, e.start = .inner a → e.stop = .inner b → g0.comp a = g0.comp b := by
        intro a b ha hb
        obtain ⟨x, h1, h2⟩ := hI.shape.mem he1
        simp only [Edge.skel, Prod.mk.injEq] at h2
        exact hcl a b ⟨x, h1, Or.inl ⟨by rw [h2.2.2.1]; exact ha, by rw [h2.2.2.2]; exact hb⟩⟩
      have hcompex : ∀ v, v < s.graph.vertices.length → ∃ k, g0.comp v = some k := fun v hv =>
        ⟨_, by rw [← hcompg, Graph.comp, List.getElem?_eq_getElem hv]; rfl⟩
      simp only [decide_eq_true_eq, decide_eq_false_iff_not, not_or]
      constructor
      · intro ha hb2
        by_contra hne
        have hpos : 0 < e.flowAlong false := by
          simp only [Edge.flowAlong, Bool.false_eq_true, if_false]
          rw [UInt64.lt_iff_toNat_lt]
          have : e.flow.toNat ≠ 0 := fun h => hne (UInt64.toNat_inj.mp (by simpa using h))
          simp; omega
        have harc : Arc s.graph ⟨false, i⟩ e.start e.stop := ⟨e, hi, hpos, rfl, rfl⟩
        have hcase : ∀ k, ∀ hk : k ≤ g0.nComponents, (e.start = .source ∨ e.start ∈ S k hk) →
            HasComp g0 e.stop k → False := by
          intro k hk hu hc
          obtain ⟨-, h⟩ := hS2 k hk e.start hu _ _ harc
          rcases h with h | h | h
          · exact hb2.1 h
          · exact hb2.2 ⟨k, hk, h⟩
          · exact h hc
        rcases ha with ha | ⟨k, hk, ha⟩
        · rcases hwg.stop e he1 with h | ⟨v, hv, h⟩
          · exact hwg.direct e he1 ⟨ha, h⟩
          · obtain ⟨k, hk⟩ := hcompex v hv
            exact hcase k (hb v k hk) (Or.inl ha) (by rw [h, hasComp_inner]; exact hk)
        · obtain ⟨v, hv, hvk⟩ := hS1 k hk _ ha
          rcases hwg.stop e he1 with h | ⟨v', _, h⟩
          · exact (hS2 k hk e.start (Or.inr ha) _ _ harc).1 h
          · exact hcase k hk (Or.inr ha) (by rw [h, hasComp_inner, ← hadj v v' hv h]; exact hvk)
      · intro ha hb2
        by_contra hne
        have hpos : 0 < e.flowAlong true := by
          simp only [Edge.flowAlong, if_true]
          rw [UInt64.lt_iff_toNat_lt]
          have : e.recFlow.toNat ≠ 0 := fun h => hne (UInt64.toNat_inj.mp (by simpa using h))
          simp; omega
        have harc : Arc s.graph ⟨true, i⟩ e.stop e.start := ⟨e, hi, hpos, rfl, rfl⟩
        rcases hb2 with hb2 | ⟨k, hk, hb2⟩
        · exact stop_ne_source hwg he1 hb2
        · obtain ⟨v, hv, hvk⟩ := hS1 k hk _ hb2
          obtain ⟨-, h⟩ := hS2 k hk e.stop (Or.inr hb2) _ _ harc
          rcases h with h | h | h
          · exact ha.1 h
          · exact ha.2 ⟨k, hk, h⟩
          · rcases hwg.start e he1 with h' | ⟨v', _, h'⟩
            · exact ha.1 h'
            · exact h (by rw [h', hasComp_inner, hadj v' v h' hv]; exact hvk)

end Verif.Tethys
