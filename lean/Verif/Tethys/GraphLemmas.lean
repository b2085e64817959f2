import Verif.Tethys.Graph
import Mathlib.Algebra.BigOperators.Group.List.Basic
import Mathlib.Algebra.BigOperators.Group.Finset.Basic
import Mathlib.Algebra.Order.BigOperators.Group.Finset
import Mathlib.Tactic.Ring
import Mathlib.Tactic.Linarith

/-! # Helper lemmas on the allocation graph: structure, depth-first search, augmentation -/

namespace Verif.Tethys

/-! ## Well-formed graphs -/

/-- The pointers to the edges satisfying `P`, in increasing order -/
def idxs (P : Edge → Bool) (es : List Edge) : List EdgePtr :=
  (es.zipIdx.filter (fun x => P x.1)).map (fun x => ⟨false, x.2⟩)

theorem mem_idxs {P : Edge → Bool} {es : List Edge} {p : EdgePtr} :
    p ∈ idxs P es ↔ p.recip = false ∧ ∃ e, es[p.index]? = some e ∧ P e = true := by
  unfold idxs
  simp only [List.mem_map, List.mem_filter]
  constructor
  · rintro ⟨⟨e, k⟩, ⟨h1, h2⟩, rfl⟩
    refine ⟨rfl, e, ?_, h2⟩
    have := List.mem_zipIdx_iff_getElem?.mp h1
    simpa using this
  · rintro ⟨h1, e, h2, h3⟩
    refine ⟨(e, p.index), ⟨List.mem_zipIdx_iff_getElem?.mpr (by simpa using h2), h3⟩, ?_⟩
    cases p
    simp_all

theorem idxs_append (P : Edge → Bool) (es : List Edge) (e : Edge) :
    idxs P (es ++ [e]) = idxs P es ++ (if P e then [⟨false, es.length⟩] else []) := by
  unfold idxs
  rw [List.zipIdx_append, List.filter_append, List.map_append]
  congr 1
  by_cases h : P e <;> simp [h]

/-- What the flow does not change in an edge -/
def Edge.skel (e : Edge) : UInt64 × UInt64 × VertexPtr × VertexPtr :=
  (e.valueIndex, e.capacity, e.start, e.stop)

theorem Edge.skel_tail {e e' : Edge} (h : e.skel = e'.skel) (b : Bool) : e.tail b = e'.tail b := by
  cases b <;> simp [Edge.skel, Edge.tail] at h ⊢ <;> simp [h]

theorem Edge.skel_head {e e' : Edge} (h : e.skel = e'.skel) (b : Bool) : e.head b = e'.head b := by
  cases b <;> simp [Edge.skel, Edge.head] at h ⊢ <;> simp [h]

theorem idxs_congr {P : Edge → Bool} (hP : ∀ e e', e.skel = e'.skel → P e = P e')
    {es es' : List Edge} (h : es.map Edge.skel = es'.map Edge.skel) : idxs P es = idxs P es' := by
  have key : ∀ (es es' : List Edge) (k : Nat), es.map Edge.skel = es'.map Edge.skel →
      ((es.zipIdx k).filter (fun x => P x.1)).map (fun x => (⟨false, x.2⟩ : EdgePtr)) =
      ((es'.zipIdx k).filter (fun x => P x.1)).map (fun x => (⟨false, x.2⟩ : EdgePtr)) := by
    intro es
    induction es with
    | nil => intro es' k h; cases es' <;> simp_all
    | cons e es ih =>
      intro es' k h
      cases es' with
      | nil => simp at h
      | cons e' es' =>
        simp only [List.map_cons, List.cons.injEq] at h
        simp only [List.zipIdx_cons, List.filter_cons, hP e e' h.1]
        split <;> simp [ih es' (k + 1) h.2]
  exact key es es' 0 h

def startsAt (v : VertexPtr) (e : Edge) : Bool := decide (e.start = v)
def stopsAt (v : VertexPtr) (e : Edge) : Bool := decide (e.stop = v)

theorem startsAt_skel (v : VertexPtr) (e e' : Edge) (h : e.skel = e'.skel) :
    startsAt v e = startsAt v e' := by simp [Edge.skel] at h; simp [startsAt, h]
theorem stopsAt_skel (v : VertexPtr) (e e' : Edge) (h : e.skel = e'.skel) :
    stopsAt v e = stopsAt v e' := by simp [Edge.skel] at h; simp [stopsAt, h]

/-- Structural invariant of the graphs made by the public functions. -/
structure WF (g : Graph) : Prop where
  start : ∀ e ∈ g.edges, e.start = .source ∨ ∃ i < g.vertices.length, e.start = .inner i
  stop : ∀ e ∈ g.edges, e.stop = .sink ∨ ∃ i < g.vertices.length, e.stop = .inner i
  direct : ∀ e ∈ g.edges, ¬ (e.start = .source ∧ e.stop = .sink)
  out : ∀ v vx, g.vertex v = .ok vx → vx.outEdges = idxs (startsAt v) g.edges
  inc : ∀ v vx, g.vertex v = .ok vx → vx.inEdges = idxs (stopsAt v) g.edges
  psource : g.parents .source = none

theorem vertex_inner {g : Graph} {i : Nat} (h : i < g.vertices.length) :
    g.vertex (.inner i) = .ok g.vertices[i] := by
  simp [Graph.vertex, List.getElem?_eq_getElem h]

theorem vertex_ok {g : Graph} (hw : WF g) {e : Edge} (he : e ∈ g.edges) (b : Bool) :
    ∃ vx, g.vertex (e.head b) = .ok vx := by
  cases b with
  | false =>
    rcases hw.stop e he with h | ⟨i, hi, h⟩
    · exact ⟨g.sink, by simp [Edge.head, h, Graph.vertex]⟩
    · exact ⟨_, by simp only [Edge.head]; rw [if_neg (by simp), h, vertex_inner hi]⟩
  | true =>
    rcases hw.start e he with h | ⟨i, hi, h⟩
    · exact ⟨g.source, by simp [Edge.head, h, Graph.vertex]⟩
    · exact ⟨_, by simp only [Edge.head]; rw [if_pos trivial, h, vertex_inner hi]⟩

theorem edge_ok {g : Graph} {p : EdgePtr} {e : Edge} (h : g.edges[p.index]? = some e) :
    g.edge p = .ok e := by simp [Graph.edge, h]

/-! ## Depth-first search -/

/-- A residual arc: the edge `p`, taken in its direction, has room and goes from `u` to `w`. -/
def Arc (g : Graph) (p : EdgePtr) (u w : VertexPtr) : Prop :=
  ∃ e, g.edges[p.index]? = some e ∧ 0 < e.flowAlong p.recip ∧ e.tail p.recip = u ∧
    e.head p.recip = w

def HasComp (g : Graph) (v : VertexPtr) (k : Nat) : Prop :=
  ∃ vx, g.vertex v = .ok vx ∧ vx.component = k

/-- The vertices visited, newest first, each with a parent edge from an older one. -/
inductive Tree (g : Graph) (k : Nat) (ps : Parents) : List VertexPtr → Prop
  | nil : Tree g k ps []
  | cons {l i p u} : Tree g k ps l → VertexPtr.inner i ∉ l → i < g.vertices.length →
      HasComp g (.inner i) k → ps (.inner i) = some p → Arc g p u (.inner i) →
      (u = .source ∨ u ∈ l) → Tree g k ps (.inner i :: l)

theorem Tree.congr {g : Graph} {k : Nat} {ps ps' : Parents} {l : List VertexPtr}
    (h : Tree g k ps l) (hps : ∀ v ∈ l, ps' v = ps v) : Tree g k ps' l := by
  induction h with
  | nil => exact .nil
  | cons _ h1 h2 h3 h4 h5 h6 ih =>
    exact .cons (ih (fun v hv => hps v (List.mem_cons_of_mem _ hv))) h1 h2 h3
      ((hps _ (List.mem_cons_self ..)).trans h4) h5 h6

theorem Tree.inner {g : Graph} {k : Nat} {ps : Parents} {l : List VertexPtr}
    (h : Tree g k ps l) : ∀ v ∈ l, ∃ i < g.vertices.length, v = .inner i ∧ HasComp g v k := by
  induction h with
  | nil => simp
  | @cons l i _ _ _ _ h2 h3 _ _ _ ih =>
    intro v hv
    rcases List.mem_cons.mp hv with rfl | hv
    · exact ⟨_, h2, rfl, h3⟩
    · exact ih v hv

theorem Tree.nodup {g : Graph} {k : Nat} {ps : Parents} {l : List VertexPtr}
    (h : Tree g k ps l) : l.Nodup := by
  induction h with
  | nil => simp
  | cons _ h1 _ _ _ _ _ ih => exact List.nodup_cons.mpr ⟨h1, ih⟩

theorem Tree.length_le {g : Graph} {k : Nat} {ps : Parents} {l : List VertexPtr}
    (h : Tree g k ps l) : l.length ≤ g.vertices.length := by
  have hsub : l ⊆ (List.range g.vertices.length).map VertexPtr.inner := by
    intro v hv
    obtain ⟨i, hi, rfl, -⟩ := h.inner v hv
    exact List.mem_map.mpr ⟨i, List.mem_range.mpr hi, rfl⟩
  have := (List.Nodup.subperm h.nodup hsub).length_le
  simpa using this

theorem Tree.not_source {g : Graph} {k : Nat} {ps : Parents} {l : List VertexPtr}
    (h : Tree g k ps l) : VertexPtr.source ∉ l := fun hm => by
  obtain ⟨_, _, h, _⟩ := h.inner _ hm; cases h

theorem Tree.not_sink {g : Graph} {k : Nat} {ps : Parents} {l : List VertexPtr}
    (h : Tree g k ps l) : VertexPtr.sink ∉ l := fun hm => by
  obtain ⟨_, _, h, _⟩ := h.inner _ hm; cases h

/-- The effect of scanning edges from `v`. -/
theorem scan_spec {g : Graph} (hw : WF g) (k : Nat) (recip : Bool) (v : VertexPtr)
    (ptrs : List EdgePtr) (st : Dfs)
    (hp : ∀ p ∈ ptrs, p.recip = false ∧ ∃ e, g.edges[p.index]? = some e ∧ e.tail recip = v)
    (hv : v = .source ∨ v ∈ st.visited) (ht : Tree g k st.parents st.visited)
    (h0 : st.parents .source = none) :
    ∃ st' new, g.scan k recip ptrs st = .ok st' ∧ Tree g k st'.parents st'.visited ∧
      st'.visited = new ++ st.visited ∧ st'.stack = new ++ st.stack ∧
      st'.parents .source = none ∧
      (∀ x, x ∉ new → st'.parents x = st.parents x) ∧
      (st'.sinkParent = none → st.sinkParent = none ∧
        ∀ p ∈ ptrs, ∀ w, Arc g ⟨recip, p.index⟩ v w →
          w ≠ .sink ∧ (w = .source ∨ w ∈ st'.visited ∨ ¬ HasComp g w k)) ∧
      (∀ q, st'.sinkParent = some q → st.sinkParent = some q ∨ Arc g q v .sink) := by
  induction ptrs generalizing st with
  | nil =>
    refine ⟨st, [], rfl, ht, rfl, rfl, h0, fun _ _ => rfl, fun h => ⟨h, by simp⟩, fun q hq => Or.inl hq⟩
  | cons p ps ih =>
    obtain ⟨hpr, e, he, htail⟩ := hp p (List.mem_cons_self ..)
    have hps := fun q hq => hp q (List.mem_cons_of_mem _ hq)
    have hem : e ∈ g.edges := List.mem_of_getElem? he
    have harc : (if recip then p.reciprocal else p) = ⟨recip, p.index⟩ := by
      cases p; cases recip <;> simp_all [EdgePtr.reciprocal]
    have harcv : ∀ w, Arc g ⟨recip, p.index⟩ v w → 0 < e.flowAlong recip ∧ e.head recip = w := by
      rintro w ⟨e', he', hf, -, hh⟩
      simp only at he' hf hh
      rw [he] at he'
      cases he'
      exact ⟨hf, hh⟩
    -- continuing without change
    have skip : (∀ w, Arc g ⟨recip, p.index⟩ v w →
          w ≠ .sink ∧ (w = .source ∨ w ∈ st.visited ∨ ¬ HasComp g w k)) →
        ∃ st' new, g.scan k recip ps st = .ok st' ∧ Tree g k st'.parents st'.visited ∧
          st'.visited = new ++ st.visited ∧ st'.stack = new ++ st.stack ∧
          st'.parents .source = none ∧
          (∀ x, x ∉ new → st'.parents x = st.parents x) ∧
          (st'.sinkParent = none → st.sinkParent = none ∧
            ∀ q ∈ p :: ps, ∀ w, Arc g ⟨recip, q.index⟩ v w →
              w ≠ .sink ∧ (w = .source ∨ w ∈ st'.visited ∨ ¬ HasComp g w k)) ∧
          (∀ q, st'.sinkParent = some q → st.sinkParent = some q ∨ Arc g q v .sink) := by
      intro hskip
      obtain ⟨st', new, h1, h2, h3, h4, h5, h6, h7, h8⟩ := ih st hps hv ht h0
      refine ⟨st', new, h1, h2, h3, h4, h5, h6, fun hn => ⟨(h7 hn).1, ?_⟩, h8⟩
      intro q hq w ha
      rcases List.mem_cons.mp hq with rfl | hq
      · obtain ⟨a, b⟩ := hskip w ha
        refine ⟨a, ?_⟩
        rcases b with b | b | b
        · exact Or.inl b
        · exact Or.inr (Or.inl (by rw [h3]; exact List.mem_append_right _ b))
        · exact Or.inr (Or.inr b)
      · exact (h7 hn).2 q hq w ha
    rw [Graph.scan, edge_ok he]
    simp only
    by_cases hf : e.flowAlong recip > 0
    · rw [if_pos hf]
      obtain ⟨vx, hvx⟩ := vertex_ok hw hem recip
      rw [hvx]
      simp only
      rw [harc]
      cases hhead : e.head recip with
      | sink =>
        refine ⟨{ st with sinkParent := some ⟨recip, p.index⟩ }, [], rfl, ht, rfl, rfl, h0,
          fun _ _ => rfl, fun h => by simp at h, ?_⟩
        intro q hq
        simp only [Option.some.injEq] at hq
        subst hq
        exact Or.inr ⟨e, he, hf, htail, hhead⟩
      | source =>
        apply skip
        intro w ha
        rw [← (harcv w ha).2, hhead]
        exact ⟨by simp, Or.inl rfl⟩
      | inner i =>
        simp only
        by_cases hc : VertexPtr.inner i ∉ st.visited ∧ vx.component = k
        · rw [if_pos hc]
          have hi : i < g.vertices.length := by
            cases recip with
            | false =>
              rcases hw.stop e hem with h | ⟨j, hj, h⟩ <;> simp [Edge.head] at hhead
              · rw [h] at hhead; cases hhead
              · rw [h] at hhead; cases hhead; exact hj
            | true =>
              rcases hw.start e hem with h | ⟨j, hj, h⟩ <;> simp [Edge.head] at hhead
              · rw [h] at hhead; cases hhead
              · rw [h] at hhead; cases hhead; exact hj
          have hcomp : HasComp g (.inner i) k := ⟨vx, by rw [← hhead]; exact hvx, hc.2⟩
          have ht' : Tree g k (setParent st.parents (.inner i) ⟨recip, p.index⟩)
              (.inner i :: st.visited) := by
            refine .cons (p := ⟨recip, p.index⟩) (ht.congr ?_) hc.1 hi hcomp (by simp [setParent])
              ⟨e, he, hf, htail, hhead⟩ hv
            intro x hx
            have : x ≠ .inner i := fun h => hc.1 (h ▸ hx)
            simp [setParent, this]
          obtain ⟨st', new, h1, h2, h3, h4, h5, h6, h7, h8⟩ := ih
            { st with
              stack := .inner i :: st.stack
              visited := .inner i :: st.visited
              parents := setParent st.parents (.inner i) ⟨recip, p.index⟩ } hps
            (by
              rcases hv with h | h
              · exact Or.inl h
              · exact Or.inr (List.mem_cons_of_mem _ h)) ht' (by simp [setParent, h0])
          refine ⟨st', new ++ [.inner i], h1, h2, by simp [h3], by simp [h4], h5, ?_, ?_, h8⟩
          · intro x hx
            simp only [List.mem_append, List.mem_singleton, not_or] at hx
            rw [h6 x hx.1]
            simp [setParent, hx.2]
          · intro hn
            refine ⟨(h7 hn).1, ?_⟩
            intro q hq w ha
            rcases List.mem_cons.mp hq with rfl | hq
            · rw [← (harcv w ha).2, hhead]
              exact ⟨by simp, Or.inr (Or.inl (by rw [h3]; simp))⟩
            · exact (h7 hn).2 q hq w ha
        · rw [if_neg hc]
          apply skip
          intro w ha
          rw [← (harcv w ha).2, hhead]
          refine ⟨by simp, Or.inr ?_⟩
          by_cases hm : VertexPtr.inner i ∈ st.visited
          · exact Or.inl hm
          · right
            rintro ⟨vx', hvx', hk⟩
            rw [hhead] at hvx
            rw [hvx] at hvx'
            cases hvx'
            exact hc ⟨hm, hk⟩
    · rw [if_neg hf]
      exact skip (fun w ha => absurd (harcv w ha).1 hf)

/-- Invariant of the depth-first search -/
structure DfsInv (g : Graph) (k : Nat) (st : Dfs) : Prop where
  tree : Tree g k st.parents st.visited
  psource : st.parents .source = none
  stack : ∀ v ∈ st.stack, v = .source ∨ v ∈ st.visited
  sink : ∀ q, st.sinkParent = some q → ∃ u, (u = .source ∨ u ∈ st.visited) ∧ Arc g q u .sink
  closed : st.sinkParent = none → ∀ u, (u = .source ∨ u ∈ st.visited) → u ∉ st.stack →
    ∀ p w, Arc g p u w → w ≠ .sink ∧ (w = .source ∨ w ∈ st.visited ∨ ¬ HasComp g w k)

theorem dfsLoop_spec {g : Graph} (hw : WF g) (k : Nat) (fuel : Nat) (st : Dfs)
    (hI : DfsInv g k st)
    (hfuel : st.stack.length + (g.vertices.length - st.visited.length) < fuel) :
    ∃ st', g.dfsLoop k fuel st = .ok st' ∧ DfsInv g k st' ∧
      (st'.sinkParent = none → st'.stack = []) ∧
      (∀ x, ¬ HasComp g x k → st'.parents x = st.parents x) := by
  induction fuel generalizing st with
  | zero => omega
  | succ fuel ih =>
    rw [Graph.dfsLoop]
    by_cases hs : st.sinkParent.isSome
    · rw [if_pos hs]
      exact ⟨st, rfl, hI, fun h => by simp [h] at hs, fun _ _ => rfl⟩
    rw [if_neg hs]
    have hnone : st.sinkParent = none := by simpa using hs
    cases hst : st.stack with
    | nil => exact ⟨st, rfl, hI, fun _ => hst, fun _ _ => rfl⟩
    | cons v rest =>
      simp only
      have hv := hI.stack v (by rw [hst]; exact List.mem_cons_self ..)
      have hvx : ∃ vx, g.vertex v = .ok vx := by
        rcases hv with rfl | hv
        · exact ⟨_, rfl⟩
        · obtain ⟨i, hi, rfl, -⟩ := hI.tree.inner v hv
          exact ⟨_, vertex_inner hi⟩
      obtain ⟨vx, hvx⟩ := hvx
      rw [hvx]
      simp only
      have hout : ∀ p ∈ vx.outEdges, p.recip = false ∧
          ∃ e, g.edges[p.index]? = some e ∧ e.tail false = v := by
        intro p hp
        rw [hw.out v vx hvx, mem_idxs] at hp
        obtain ⟨a, e, b, c⟩ := hp
        exact ⟨a, e, b, by simpa [Edge.tail, startsAt] using c⟩
      have hin : ∀ p ∈ vx.inEdges, p.recip = false ∧
          ∃ e, g.edges[p.index]? = some e ∧ e.tail true = v := by
        intro p hp
        rw [hw.inc v vx hvx, mem_idxs] at hp
        obtain ⟨a, e, b, c⟩ := hp
        exact ⟨a, e, b, by simpa [Edge.tail, stopsAt] using c⟩
      obtain ⟨st1, new1, a1, a2, a3, a4, a5, a6, a7, a8⟩ :=
        scan_spec hw k false v vx.outEdges { st with stack := rest } hout hv hI.tree hI.psource
      rw [a1]
      simp only
      have hv1 : v = .source ∨ v ∈ st1.visited := by
        rcases hv with h | h
        · exact Or.inl h
        · exact Or.inr (by rw [a3]; exact List.mem_append_right _ h)
      obtain ⟨st2, new2, b1, b2, b3, b4, b5, b6, b7, b8⟩ :=
        scan_spec hw k true v vx.inEdges st1 hin hv1 a2 a5
      rw [b1]
      simp only
      simp only at a3 a4
      have hvis2 : ∀ u, (u = .source ∨ u ∈ st.visited) → (u = .source ∨ u ∈ st2.visited) := by
        rintro u (h | h)
        · exact Or.inl h
        · exact Or.inr (by rw [b3, a3]; simp [h])
      have hI2 : DfsInv g k st2 := by
        refine ⟨b2, b5, ?_, ?_, ?_⟩
        · intro x hx
          rw [b4, a4] at hx
          rw [b3, a3]
          simp only [List.mem_append] at hx ⊢
          rcases hx with h | h | h
          · exact Or.inr (Or.inl h)
          · exact Or.inr (Or.inr (Or.inl h))
          · rcases hI.stack x (by rw [hst]; exact List.mem_cons_of_mem _ h) with h | h
            · exact Or.inl h
            · exact Or.inr (Or.inr (Or.inr h))
        · intro q hq
          have hv2 := hvis2 v hv
          rcases b8 q hq with h | h
          · rcases a8 q h with h | h
            · rw [show ({ st with stack := rest } : Dfs).sinkParent = st.sinkParent from rfl,
                hnone] at h
              simp at h
            · exact ⟨v, hv2, h⟩
          · exact ⟨v, hv2, h⟩
        · intro hn u hu hus p w ha
          obtain ⟨hn1, hin2⟩ := b7 hn
          obtain ⟨-, hout2⟩ := a7 hn1
          by_cases huv : u = v
          · subst huv
            obtain ⟨e, he, hf, ht, hh⟩ := ha
            cases hr : p.recip with
            | false =>
              have hmem : (⟨false, p.index⟩ : EdgePtr) ∈ vx.outEdges := by
                rw [hw.out u vx hvx, mem_idxs]
                exact ⟨rfl, e, he, by rw [hr] at ht; simpa [Edge.tail, startsAt] using ht⟩
              obtain ⟨c1, c2⟩ := hout2 _ hmem w ⟨e, he, by rw [← hr]; exact hf, by rw [← hr]; exact ht,
                by rw [← hr]; exact hh⟩
              refine ⟨c1, ?_⟩
              rcases c2 with c | c | c
              · exact Or.inl c
              · exact Or.inr (Or.inl (by rw [b3]; exact List.mem_append_right _ c))
              · exact Or.inr (Or.inr c)
            | true =>
              have hmem : (⟨false, p.index⟩ : EdgePtr) ∈ vx.inEdges := by
                rw [hw.inc u vx hvx, mem_idxs]
                exact ⟨rfl, e, he, by rw [hr] at ht; simpa [Edge.tail, stopsAt] using ht⟩
              exact hin2 _ hmem w ⟨e, he, by rw [← hr]; exact hf, by rw [← hr]; exact ht,
                by rw [← hr]; exact hh⟩
          · have hnotnew : u ∉ new1 ∧ u ∉ new2 ∧ u ∉ rest := by
              rw [b4, a4] at hus
              simp only [List.mem_append, not_or] at hus
              exact ⟨hus.2.1, hus.1, hus.2.2⟩
            have hu' : u = .source ∨ u ∈ st.visited := by
              rcases hu with h | h
              · exact Or.inl h
              · rw [b3, a3] at h
                simp only [List.mem_append] at h
                rcases h with h | h | h
                · exact absurd h hnotnew.2.1
                · exact absurd h hnotnew.1
                · exact Or.inr h
            obtain ⟨c1, c2⟩ := hI.closed hnone u hu'
              (by rw [hst]; simp [huv, hnotnew.2.2]) p w ha
            refine ⟨c1, ?_⟩
            rcases c2 with c | c | c
            · exact Or.inl c
            · rcases hvis2 w (Or.inr c) with h | h
              · exact Or.inl h
              · exact Or.inr (Or.inl h)
            · exact Or.inr (Or.inr c)
      have hfuel2 : st2.stack.length + (g.vertices.length - st2.visited.length) < fuel := by
        have h1 := b2.length_le
        rw [b4, a4]
        rw [b3, a3] at h1 ⊢
        simp only [List.length_append] at h1 ⊢
        rw [hst] at hfuel
        simp only [List.length_cons] at hfuel
        omega
      obtain ⟨st', d1, d2, d3, d4⟩ := ih st2 hI2 hfuel2
      refine ⟨st', d1, d2, d3, ?_⟩
      intro x hx
      have hx2 : x ∉ new2 := fun h => hx (by
        obtain ⟨_, _, _, h⟩ := b2.inner x (by rw [b3]; exact List.mem_append_left _ h); exact h)
      have hx1 : x ∉ new1 := fun h => hx (by
        obtain ⟨_, _, _, h⟩ := a2.inner x (by rw [a3]; exact List.mem_append_left _ h); exact h)
      rw [d4 x hx, b6 x hx2, a6 x hx1]

/-! ## Paths -/

/-- `path` leads from `u` to `w` (orientation only). -/
def Steps (es : List Edge) : VertexPtr → List EdgePtr → VertexPtr → Prop
  | u, [], w => u = w
  | u, p :: ps, w => ∃ e, es[p.index]? = some e ∧ e.tail p.recip = u ∧ Steps es (e.head p.recip) ps w

theorem Steps.append {es : List Edge} {u w x : VertexPtr} {p q : List EdgePtr}
    (h1 : Steps es u p w) (h2 : Steps es w q x) : Steps es u (p ++ q) x := by
  induction p generalizing u with
  | nil => simp only [Steps] at h1; subst h1; exact h2
  | cons a p ih =>
    obtain ⟨e, he, ht, hs⟩ := h1
    exact ⟨e, he, ht, ih hs⟩

theorem walk_spec {g : Graph} (k : Nat) {ps : Parents} {l : List VertexPtr}
    (ht : Tree g k ps l) (h0 : ps .source = none) (v : VertexPtr) (hv : v = .source ∨ v ∈ l) :
    ∃ path, (∀ fuel acc, l.length < fuel → g.walk ps fuel v acc = .ok (path ++ acc)) ∧
      Steps g.edges .source path v ∧ (path.map EdgePtr.index).Nodup ∧
      ∀ p ∈ path, ∃ u w, Arc g p u w ∧ (u = .source ∨ u ∈ l) ∧ w ∈ l := by
  induction ht generalizing v with
  | nil =>
    rcases hv with rfl | hv
    · refine ⟨[], ?_, rfl, by simp, by simp⟩
      intro fuel acc hf
      cases fuel with
      | zero => simp at hf
      | succ fuel => simp [Graph.walk, h0]
    · simp at hv
  | @cons l i p u ht h1 h2 h3 h4 h5 h6 ih =>
    by_cases hvi : v = .inner i
    · subst hvi
      obtain ⟨path, q1, q2, q3, q4⟩ := ih u h6
      obtain ⟨e, he, hf, htl, hh⟩ := id h5
      refine ⟨path ++ [p], ?_, ?_, ?_, ?_⟩
      · intro fuel acc hfuel
        cases fuel with
        | zero => simp at hfuel
        | succ fuel =>
          rw [Graph.walk, h4]
          simp only [edge_ok he, htl]
          rw [q1 fuel (p :: acc) (by simpa using hfuel)]
          simp
      · exact q2.append ⟨e, he, htl, hh⟩
      · rw [List.map_append, List.nodup_append]
        refine ⟨q3, by simp, ?_⟩
        intro a ha b hb
        simp only [List.map_cons, List.map_nil, List.mem_singleton] at hb
        subst hb
        obtain ⟨p', hp', rfl⟩ := List.mem_map.mp ha
        intro hidx
        obtain ⟨u', w', ⟨e', he', hf', ht', hh'⟩, hu', hw'⟩ := q4 p' hp'
        rw [hidx, he] at he'
        cases he'
        by_cases hr : p'.recip = p.recip
        · rw [hr, hh] at hh'
          rw [← hh'] at hw'
          exact h1 hw'
        · have hr' : p'.recip = !p.recip := by
            cases h : p'.recip <;> cases h' : p.recip <;> simp_all
          have : e.tail p'.recip = e.head p.recip := by
            rw [hr']; cases p.recip <;> simp [Edge.tail, Edge.head]
          rw [this, hh] at ht'
          rw [← ht'] at hu'
          rcases hu' with h | h
          · simp at h
          · exact h1 h
      · intro q hq
        rcases List.mem_append.mp hq with hq | hq
        · obtain ⟨a, b, c, d, e⟩ := q4 q hq
          refine ⟨a, b, c, ?_, List.mem_cons_of_mem _ e⟩
          rcases d with d | d
          · exact Or.inl d
          · exact Or.inr (List.mem_cons_of_mem _ d)
        · simp only [List.mem_singleton] at hq
          subst hq
          refine ⟨u, .inner i, h5, ?_, List.mem_cons_self ..⟩
          rcases h6 with d | d
          · exact Or.inl d
          · exact Or.inr (List.mem_cons_of_mem _ d)
    · obtain ⟨path, q1, q2, q3, q4⟩ := ih v (by
        rcases hv with h | h
        · exact Or.inl h
        · rcases List.mem_cons.mp h with h | h
          · exact absurd h hvi
          · exact Or.inr h)
      refine ⟨path, ?_, q2, q3, ?_⟩
      · intro fuel acc hf
        exact q1 fuel acc (by simp at hf; omega)
      · intro q hq
        obtain ⟨a, b, c, d, e⟩ := q4 q hq
        refine ⟨a, b, c, ?_, List.mem_cons_of_mem _ e⟩
        rcases d with d | d
        · exact Or.inl d
        · exact Or.inr (List.mem_cons_of_mem _ d)

theorem stdMin_le_left (a b : UInt64) : stdMin a b ≤ a := by
  unfold stdMin; split
  · rename_i h; exact UInt64.le_of_lt h
  · exact UInt64.le_refl a

theorem stdMin_le_right (a b : UInt64) : stdMin a b ≤ b := by
  unfold stdMin; split
  · exact UInt64.le_refl b
  · rename_i h; exact UInt64.not_lt.mp h

theorem pathFlow_spec {g : Graph} (path : List EdgePtr)
    (h : ∀ p ∈ path, ∃ e, g.edges[p.index]? = some e ∧ 0 < e.flowAlong p.recip) :
    ∃ c, g.pathFlow path = .ok c ∧ 0 < c ∧
      ∀ p ∈ path, ∀ e, g.edges[p.index]? = some e → c ≤ e.flowAlong p.recip := by
  induction path with
  | nil => exact ⟨_, rfl, by decide, by simp⟩
  | cons p ps ih =>
    obtain ⟨c, h1, h2, h3⟩ := ih (fun q hq => h q (List.mem_cons_of_mem _ hq))
    obtain ⟨e, he, hf⟩ := h p (List.mem_cons_self ..)
    refine ⟨stdMin (e.flowAlong p.recip) c, by simp [Graph.pathFlow, edge_ok he, h1], ?_, ?_⟩
    · unfold stdMin; split
      · exact h2
      · exact hf
    · intro q hq e' he'
      rcases List.mem_cons.mp hq with rfl | hq
      · rw [he] at he'
        cases he'
        exact stdMin_le_left _ _
      · exact UInt64.le_trans (stdMin_le_right _ _) (h3 q hq e' he')

/-- What `find_source_sink_path` returns: a path along which flow can be pushed, or, if there is
none, a set of vertices that residual arcs do not leave within the component. -/
theorem findPath_spec {g : Graph} (hw : WF g) (k : Nat) :
    ∃ ps path c, g.findPath k = .ok (ps, path, c) ∧ ps .source = none ∧
      (∀ x, ¬ HasComp g x k → ps x = g.parents x) ∧
      (path ≠ [] → Steps g.edges .source path .sink ∧ (path.map EdgePtr.index).Nodup ∧ 0 < c ∧
        (∀ p ∈ path, ∃ e, g.edges[p.index]? = some e ∧ c ≤ e.flowAlong p.recip) ∧
        (∀ p ∈ path, ∃ u w, Arc g p u w ∧ (HasComp g u k ∧ u ≠ .source ∧ u ≠ .sink ∨
          HasComp g w k ∧ w ≠ .sink ∧ w ≠ .source))) ∧
      (path = [] → ∃ S : List VertexPtr, (∀ v ∈ S, ∃ i < g.vertices.length, v = .inner i ∧
          HasComp g v k) ∧
        ∀ u, (u = .source ∨ u ∈ S) → ∀ p w, Arc g p u w →
          w ≠ .sink ∧ (w = .source ∨ w ∈ S ∨ ¬ HasComp g w k)) := by
  have hinit : DfsInv g k ⟨[.source], [], g.parents, none⟩ := by
    refine ⟨.nil, hw.psource, by simp, by simp, ?_⟩
    intro _ u hu hns
    simp at hu hns
    exact absurd hu hns
  obtain ⟨st, h1, h2, h3, h4⟩ := dfsLoop_spec hw k (g.vertices.length + 2) _ hinit (by simp; omega)
  simp only at h4
  unfold Graph.findPath
  rw [h1]
  simp only
  cases hs : st.sinkParent with
  | none =>
    refine ⟨st.parents, [], 0, rfl, h2.psource, h4, by simp, ?_⟩
    intro _
    refine ⟨st.visited, h2.tree.inner, ?_⟩
    intro u hu p w ha
    exact h2.closed hs u hu (by rw [h3 hs]; simp) p w ha
  | some q =>
    simp only
    obtain ⟨u, hu, harc⟩ := h2.sink q hs
    obtain ⟨e, he, hf, ht, hh⟩ := id harc
    obtain ⟨path, p1, p2, p3, p4⟩ := walk_spec k h2.tree h2.psource u hu
    rw [edge_ok he]
    simp only [ht]
    rw [p1 _ [q] (by have := h2.tree.length_le; omega)]
    simp only
    have hall : ∀ p ∈ path ++ [q], ∃ u w, Arc g p u w ∧ (u = .source ∨ u ∈ st.visited) ∧
        (w = .sink ∨ w ∈ st.visited) := by
      intro p hp
      rcases List.mem_append.mp hp with hp | hp
      · obtain ⟨a, b, c, d, e⟩ := p4 p hp
        exact ⟨a, b, c, d, Or.inr e⟩
      · simp only [List.mem_singleton] at hp
        subst hp
        exact ⟨u, _, harc, hu, Or.inl rfl⟩
    obtain ⟨c, c1, c2, c3⟩ := pathFlow_spec (g := g) (path ++ [q]) (fun p hp => by
      obtain ⟨_, _, ⟨e, he, hf, -, -⟩, -⟩ := hall p hp
      exact ⟨e, he, hf⟩)
    rw [c1]
    refine ⟨st.parents, path ++ [q], c, rfl, h2.psource, h4, fun _ => ⟨?_, ?_, c2, ?_, ?_⟩, by simp⟩
    · exact p2.append ⟨e, he, ht, hh⟩
    · rw [List.map_append, List.nodup_append]
      refine ⟨p3, by simp, ?_⟩
      intro a ha b hb
      simp only [List.map_cons, List.map_nil, List.mem_singleton] at hb
      subst hb
      obtain ⟨p', hp', rfl⟩ := List.mem_map.mp ha
      intro hidx
      obtain ⟨u', w', ⟨e', he', hf', ht', hh'⟩, hu', hw'⟩ := p4 p' hp'
      rw [hidx, he] at he'
      cases he'
      by_cases hr : p'.recip = q.recip
      · rw [hr, hh] at hh'
        rw [← hh'] at hw'
        exact h2.tree.not_sink hw'
      · have hr' : p'.recip = !q.recip := by
          cases h : p'.recip <;> cases h' : q.recip <;> simp_all
        have : e.tail p'.recip = e.head q.recip := by
          rw [hr']; cases q.recip <;> simp [Edge.tail, Edge.head]
        rw [this, hh] at ht'
        rw [← ht'] at hu'
        rcases hu' with h | h
        · simp at h
        · exact h2.tree.not_sink h
    · intro p hp
      obtain ⟨_, _, ⟨e, he, hf, -, -⟩, -⟩ := hall p hp
      exact ⟨e, he, c3 p hp e he⟩
    · intro p hp
      obtain ⟨a, b, hab, ha, hb⟩ := hall p hp
      refine ⟨a, b, hab, ?_⟩
      have hin : ∀ v ∈ st.visited, HasComp g v k ∧ v ≠ .source ∧ v ≠ .sink := by
        intro v hv
        obtain ⟨i, _, rfl, h⟩ := h2.tree.inner v hv
        exact ⟨h, by simp, by simp⟩
      rcases ha with rfl | ha
      · rcases hb with rfl | hb
        · -- a direct edge from source to sink does not exist
          obtain ⟨e, he, _, ht, hh⟩ := hab
          have hm := List.mem_of_getElem? he
          cases hr : p.recip with
          | false =>
            rw [hr] at ht hh
            simp [Edge.tail, Edge.head] at ht hh
            exact absurd ⟨ht, hh⟩ (hw.direct e hm)
          | true =>
            rw [hr] at ht hh
            simp [Edge.tail, Edge.head] at ht hh
            rcases hw.start e hm with h | ⟨_, _, h⟩ <;> rw [h] at hh <;> cases hh
        · exact Or.inr ⟨(hin b hb).1, (hin b hb).2.2, (hin b hb).2.1⟩
      · exact Or.inl (hin a ha)

end Verif.Tethys
