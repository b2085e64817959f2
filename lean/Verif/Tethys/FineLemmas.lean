import Verif.Tethys.Fine
import Verif.Tethys.SumLemmas

/-! # Helper lemmas: the parallel computation of the flow, edge by edge -/

namespace Verif.Tethys

open Spec

/-! ## What a job touches -/

/-- The source, or a vertex of the component -/
def OnSide (g0 : Graph) (k : Nat) (v : VertexPtr) : Prop :=
  v = .source ∨ ∃ i, v = .inner i ∧ g0.comp i = some k

/-- The vertices and the edges kept by a search are those of its component; the edges it still has to
look at leave the current vertex. -/
def PhaseIn (g0 : Graph) (k : Nat) : Phase → Prop
  | .loop => True
  | .scan r v ps => OnSide g0 k v ∧
      ∀ p ∈ ps, p.recip = false ∧ ∃ e, g0.edges[p.index]? = some e ∧ e.tail r = v
  | .walk v path _ => OnSide g0 k v ∧ ∀ p ∈ path, EdgeIn g0 p.index k

def FJob.In (g0 : Graph) (k : Nat) : FJob → Prop
  | .search l => (∀ v ∈ l.stack, OnSide g0 k v) ∧
      (∀ p, l.sinkParent = some p → EdgeIn g0 p.index k ∧
        ∀ e, g0.edges[p.index]? = some e → OnSide g0 k (e.tail p.recip)) ∧
      PhaseIn g0 k l.phase
  | .update _ path => ∀ p ∈ path, EdgeIn g0 p.index k
  | _ => True

/-- The parent edge of a vertex leads to it. -/
def ParentsIn (g0 : Graph) (ps : Parents) : Prop :=
  ps .source = none ∧ ∀ i p, ps (.inner i) = some p →
    ∃ e, g0.edges[p.index]? = some e ∧ e.head p.recip = .inner i ∧ e.tail p.recip ≠ .sink

theorem look_ok {seen : List Edge} {p : EdgePtr} {e : Edge} :
    look seen p = .ok e ↔ seen[p.index]? = some e := by
  unfold look
  cases seen[p.index]? <;> simp

theorem edge_eq_look (g : Graph) (p : EdgePtr) : g.edge p = look g.edges p := rfl

theorem skel_get {es es' : List Edge} (h : es.map Edge.skel = es'.map Edge.skel) {i : Nat} {e : Edge}
    (he : es[i]? = some e) : ∃ e', es'[i]? = some e' ∧ e'.skel = e.skel := by
  have : (es'.map Edge.skel)[i]? = some e.skel := by rw [← h]; simp [he]
  rw [List.getElem?_map] at this
  cases he' : es'[i]? with
  | none => simp [he'] at this
  | some e' => rw [he'] at this; exact ⟨e', rfl, by simpa using this⟩

/-- An edge that leaves the source or the component is of the component, or leads elsewhere. -/
theorem edge_side {g0 : Graph} (hw : WF g0) {k : Nat} {v : VertexPtr} (hv : OnSide g0 k v) {r : Bool}
    {i : Nat} {e : Edge} (he : g0.edges[i]? = some e) (ht : e.tail r = v) :
    EdgeIn g0 i k ∨ ∃ w c, e.head r = .inner w ∧ g0.comp w = some c ∧ c ≠ k := by
  have hm := List.mem_of_getElem? he
  rcases hv with rfl | ⟨w, rfl, hc⟩
  · cases r with
    | true => exact absurd ht (by simpa [Edge.tail] using stop_ne_source hw hm)
    | false =>
      simp only [Edge.tail, Edge.head, Bool.false_eq_true, if_false] at ht ⊢
      rcases hw.stop e hm with h | ⟨w, hlt, h⟩
      · exact absurd ⟨ht, h⟩ (hw.direct e hm)
      · obtain ⟨c, hc⟩ : ∃ c, g0.comp w = some c :=
          ⟨_, by simp [Graph.comp, List.getElem?_eq_getElem hlt]; rfl⟩
        by_cases hck : c = k
        · exact Or.inl ⟨e, w, he, Or.inr h, hck ▸ hc⟩
        · exact Or.inr ⟨w, c, h, hc, hck⟩
  · refine Or.inl ⟨e, w, he, ?_, hc⟩
    cases r <;> simp [Edge.tail] at ht
    · exact Or.inl ht
    · exact Or.inr ht

/-- An edge that leads to the component, other than from the sink -/
theorem edge_into {g0 : Graph} (hw : WF g0) (hcl : Closed g0) {k i w : Nat} {r : Bool} {e : Edge}
    (he : g0.edges[i]? = some e) (hh : e.head r = .inner w) (hc : g0.comp w = some k)
    (ht : e.tail r ≠ .sink) : EdgeIn g0 i k ∧ OnSide g0 k (e.tail r) := by
  have hm := List.mem_of_getElem? he
  cases r with
  | false =>
    simp only [Edge.tail, Edge.head, Bool.false_eq_true, if_false] at hh ht ⊢
    refine ⟨⟨e, w, he, Or.inr hh, hc⟩, ?_⟩
    rcases hw.start e hm with h | ⟨u, -, h⟩
    · exact Or.inl h
    · exact Or.inr ⟨u, h, by rw [hcl u w ⟨e, hm, Or.inl ⟨h, hh⟩⟩]; exact hc⟩
  | true =>
    simp only [Edge.tail, Edge.head, if_true] at hh ht ⊢
    refine ⟨⟨e, w, he, Or.inl hh, hc⟩, ?_⟩
    rcases hw.stop e hm with h | ⟨u, -, h⟩
    · exact absurd h ht
    · exact Or.inr ⟨u, h, by rw [← hcl w u ⟨e, hm, Or.inl ⟨hh, h⟩⟩]; exact hc⟩

/-- Everything of the graph but the parents -/
theorem vertex_parents (g : Graph) (ps : Parents) (v : VertexPtr) :
    ({ g with parents := ps } : Graph).vertex v = g.vertex v := by cases v <;> rfl

/-- An edge to another component is passed over. -/
theorem edgeStep_skip {g0 g : Graph} (hsh : SameShape g0 g) {seen : List Edge}
    (hseen : seen.map Edge.skel = g0.edges.map Edge.skel) {k : Nat} {r : Bool} {v : VertexPtr}
    {p : EdgePtr} {e : Edge} (he : g0.edges[p.index]? = some e) {w c : Nat} (hh : e.head r = .inner w)
    (hc : g0.comp w = some c) (hne : c ≠ k) (ps : List EdgePtr) (l : Search) :
    edgeStep seen g k r v p ps l = .ok (g, .search { l with phase := .scan r v ps }) := by
  obtain ⟨e', he', hsk⟩ := skel_get hseen.symm he
  unfold edgeStep
  rw [look_ok.mpr he']
  dsimp only
  rw [Edge.skel_head hsk, hh, hsh.vertex]
  obtain ⟨vx, hvx, rfl⟩ := hasComp_inner.mpr hc
  rw [hvx]
  dsimp only
  split
  · rw [if_neg (fun h => hne h.2)]
  · rfl

/-- Same view of the edge, same iteration -/
theorem edgeStep_of {g0 g : Graph} (hsh : SameShape g0 g) {seen : List Edge} {k : Nat} {r : Bool}
    {v : VertexPtr} {p : EdgePtr} {e : Edge} (he : seen[p.index]? = some e) {vx : Vertex}
    (hvx : g0.vertex (e.head r) = .ok vx) (ps : List EdgePtr) (l : Search) :
    (edgeStep seen g k r v p ps l = .ok (g, .search { l with phase := .scan r v ps })) ∨
    (0 < e.flowAlong r ∧ e.head r = .sink ∧ edgeStep seen g k r v p ps l = .ok (g, .search { l with
      sinkParent := some (if r then p.reciprocal else p), phase := .scan r v [] })) ∨
    (0 < e.flowAlong r ∧ ∃ i, e.head r = .inner i ∧ vx.component = k ∧ .inner i ∉ l.visited ∧
      edgeStep seen g k r v p ps l = .ok
        ({ g with parents := setParent g.parents (.inner i) (if r then p.reciprocal else p) },
          .search { l with
            stack := .inner i :: l.stack
            visited := .inner i :: l.visited
            phase := .scan r v ps })) := by
  unfold edgeStep
  rw [look_ok.mpr he]
  dsimp only
  rw [hsh.vertex, hvx]
  dsimp only
  by_cases hf : e.flowAlong r > 0
  · rw [if_pos hf]
    cases hh : e.head r with
    | sink => exact Or.inr (Or.inl ⟨hf, rfl, rfl⟩)
    | source => exact Or.inl rfl
    | inner i =>
      dsimp only
      by_cases hv : VertexPtr.inner i ∉ l.visited ∧ vx.component = k
      · rw [if_pos hv]
        exact Or.inr (Or.inr ⟨hf, i, rfl, hv.2, hv.1, rfl⟩)
      · rw [if_neg hv]
        exact Or.inl rfl
  · rw [if_neg hf]
    exact Or.inl rfl

theorem outEdges_in {g0 : Graph} (hw : WF g0) {v : VertexPtr} {vx : Vertex} (h : g0.vertex v = .ok vx) :
    ∀ p ∈ vx.outEdges, p.recip = false ∧ ∃ e, g0.edges[p.index]? = some e ∧ e.tail false = v := by
  intro p hp
  rw [hw.out v vx h, mem_idxs] at hp
  obtain ⟨h1, e, h2, h3⟩ := hp
  exact ⟨h1, e, h2, by simpa [startsAt, Edge.tail] using h3⟩

theorem inEdges_in {g0 : Graph} (hw : WF g0) {v : VertexPtr} {vx : Vertex} (h : g0.vertex v = .ok vx) :
    ∀ p ∈ vx.inEdges, p.recip = false ∧ ∃ e, g0.edges[p.index]? = some e ∧ e.tail true = v := by
  intro p hp
  rw [hw.inc v vx h, mem_idxs] at hp
  obtain ⟨h1, e, h2, h3⟩ := hp
  exact ⟨h1, e, h2, by simpa [stopsAt, Edge.tail] using h3⟩

theorem arc_recip {p : EdgePtr} (h : p.recip = false) (r : Bool) :
    (if r then p.reciprocal else p).recip = r ∧ (if r then p.reciprocal else p).index = p.index := by
  cases r <;> simp [EdgePtr.reciprocal, h]

theorem OnSide.ne_sink {g0 : Graph} {k : Nat} {v : VertexPtr} (h : OnSide g0 k v) : v ≠ .sink := by
  rcases h with rfl | ⟨_, rfl, _⟩ <;> simp

/-- A step of a search stays in its component, and writes parent edges of its component only. -/
theorem searchStep_inv {g0 g g' : Graph} (hw : WF g0) (hcl : Closed g0) (hsh : SameShape g0 g)
    (hpi : ParentsIn g0 g.parents) {seen : List Edge}
    (hseen : seen.map Edge.skel = g0.edges.map Edge.skel) {k : Nat} {l : Search}
    (hin : FJob.In g0 k (.search l)) {j' : FJob} (h : searchStep seen g k l = .ok (g', j')) :
    FJob.In g0 k j' ∧ ParentsIn g0 g'.parents ∧ g' = { g with parents := g'.parents } ∧
      ∀ i, g0.comp i ≠ some k → g'.parents (.inner i) = g.parents (.inner i) := by
  obtain ⟨h1, h2, h3⟩ := hin
  unfold searchStep at h
  split at h
  · -- head of the loop
    unfold headStep at h
    split at h
    · rename_i p hp
      split at h
      · cases h
      · rename_i e he
        cases h
        obtain ⟨e0, he0, hsk⟩ := skel_get hseen (look_ok.mp he)
        obtain ⟨a, b⟩ := h2 p hp
        refine ⟨⟨h1, h2, ?_, ?_⟩, hpi, rfl, fun _ _ => rfl⟩
        · rw [← Edge.skel_tail hsk]; exact b e0 he0
        · intro q hq
          simp only [List.mem_singleton] at hq
          exact hq ▸ a
    · split at h
      · cases h; exact ⟨trivial, hpi, rfl, fun _ _ => rfl⟩
      · rename_i v rest hst
        split at h
        · cases h
        · rename_i vx hvx
          cases h
          rw [hsh.vertex] at hvx
          refine ⟨⟨fun u hu => h1 u (by rw [hst]; exact List.mem_cons_of_mem _ hu), h2,
            h1 v (by rw [hst]; exact List.mem_cons_self ..), outEdges_in hw hvx⟩, hpi, rfl, fun _ _ => rfl⟩
  · -- an edge
    rename_i r v p ps hph
    rw [hph] at h3
    obtain ⟨hv, hps⟩ := h3
    obtain ⟨hpr, e0, he0, ht0⟩ := hps p (List.mem_cons_self ..)
    have hrest : PhaseIn g0 k (.scan r v ps) := ⟨hv, fun q hq => hps q (List.mem_cons_of_mem _ hq)⟩
    obtain ⟨e, he, hsk⟩ := skel_get hseen.symm he0
    obtain ⟨vx, hvx⟩ := vertex_ok hw (List.mem_of_getElem? he0) r
    rw [← Edge.skel_head hsk] at hvx
    obtain ⟨ar, ai⟩ := arc_recip hpr r
    rcases edgeStep_of hsh (k := k) (v := v) he hvx ps l with hE | ⟨-, hs, hE⟩ | ⟨-, i, hi, hck, -, hE⟩
    · rw [hE] at h; cases h
      exact ⟨⟨h1, h2, hrest⟩, hpi, rfl, fun _ _ => rfl⟩
    · rw [hE] at h; cases h
      refine ⟨⟨h1, ?_, hv, by simp⟩, hpi, rfl, fun _ _ => rfl⟩
      intro q hq
      cases hq
      rw [ai, ar]
      constructor
      · rcases edge_side hw hv he0 ht0 with h | ⟨w, c, h, -⟩
        · exact h
        · rw [← Edge.skel_head hsk, hs] at h; cases h
      · intro e' he'
        rw [he0] at he'; cases he'
        rw [ht0]; exact hv
    · rw [hE] at h; cases h
      have hck' : g0.comp i = some k := by
        rw [hi, vertex_inner_ok] at hvx
        simp [Graph.comp, hvx, hck]
      refine ⟨⟨?_, h2, hrest⟩, ⟨?_, ?_⟩, rfl, ?_⟩
      · intro u hu
        rcases List.mem_cons.mp hu with rfl | hu
        · exact Or.inr ⟨i, rfl, hck'⟩
        · exact h1 u hu
      · simp [setParent, hpi.1]
      · intro w q hq
        simp only [setParent] at hq
        split at hq
        · rename_i hwi
          cases hwi
          cases hq
          rw [ai, ar]
          exact ⟨e0, he0, by rw [← Edge.skel_head hsk]; exact hi, by rw [ht0]; exact hv.ne_sink⟩
        · exact hpi.2 w q hq
      · intro w hw
        simp only [setParent]
        rw [if_neg]
        intro hwi
        cases hwi
        exact hw hck'
  · -- from the outgoing to the incoming edges
    rename_i v hph
    rw [hph] at h3
    split at h
    · cases h
    · rename_i vx hvx
      cases h
      rw [hsh.vertex] at hvx
      exact ⟨⟨h1, h2, h3.1, inEdges_in hw hvx⟩, hpi, rfl, fun _ _ => rfl⟩
  · cases h
    exact ⟨⟨h1, h2, trivial⟩, hpi, rfl, fun _ _ => rfl⟩
  · -- back to the source
    rename_i v path c hph
    rw [hph] at h3
    obtain ⟨hv, hpath⟩ := h3
    unfold walkStep at h
    split at h
    · cases h
      exact ⟨hpath, hpi, rfl, fun _ _ => rfl⟩
    · rename_i p hp
      split at h
      · cases h
      · rename_i e he
        cases h
        obtain ⟨e0, he0, hsk⟩ := skel_get hseen (look_ok.mp he)
        rcases hv with rfl | ⟨i, rfl, hc⟩
        · rw [hpi.1] at hp; cases hp
        · obtain ⟨e1, he1, hh, ht⟩ := hpi.2 i p hp
          rw [he0] at he1; cases he1
          obtain ⟨a, b⟩ := edge_into hw hcl he0 hh hc ht
          refine ⟨⟨h1, h2, ?_, ?_⟩, hpi, rfl, fun _ _ => rfl⟩
          · rw [← Edge.skel_tail hsk]; exact b
          · intro q hq
            rcases List.mem_cons.mp hq with rfl | hq
            · exact a
            · exact hpath q hq

/-- A step of a search only depends on the edges and the parent edges of its component. -/
theorem searchStep_congr {g0 g g2 g' : Graph} (hw : WF g0) (hcl : Closed g0) (hsh : SameShape g0 g)
    (hsh2 : SameShape g0 g2) (hpi2 : ParentsIn g0 g2.parents)
    {seen : List Edge} (hseen : seen.map Edge.skel = g0.edges.map Edge.skel) {k : Nat}
    (hedges : ∀ i, EdgeIn g0 i k → seen[i]? = g.edges[i]?)
    (hpar : ∀ v, OnSide g0 k v → g2.parents v = g.parents v) {l : Search}
    (hin : FJob.In g0 k (.search l)) {j' : FJob} (h : searchStep g.edges g k l = .ok (g', j')) :
    ∃ ps, searchStep seen g2 k l = .ok ({ g2 with parents := ps }, j') ∧
      ∀ v, OnSide g0 k v → ps v = g'.parents v := by
  obtain ⟨h1, h2, h3⟩ := hin
  have hlook : ∀ p : EdgePtr, EdgeIn g0 p.index k → look seen p = look g.edges p := by
    intro p hp
    unfold look
    rw [hedges _ hp]
  unfold searchStep at h ⊢
  split at h
  · unfold headStep at h ⊢
    split at h
    · rename_i p hp
      rw [hlook p (h2 p hp).1]
      split at h
      · cases h
      · cases h
        exact ⟨g2.parents, rfl, hpar⟩
    · rename_i hp
      split at h
      · cases h
        exact ⟨g2.parents, rfl, hpar⟩
      · rename_i hst
        split at h
        · cases h
        · rename_i vx hvx
          cases h
          rw [hsh.vertex] at hvx
          rw [hsh2.vertex, hvx]
          exact ⟨g2.parents, rfl, hpar⟩
  · rename_i r v p ps hph
    rw [hph] at h3
    obtain ⟨hv, hps⟩ := h3
    obtain ⟨hpr, e0, he0, ht0⟩ := hps p (List.mem_cons_self ..)
    rcases edge_side hw hv he0 ht0 with hE | ⟨w, c, hh, hc, hne⟩
    · obtain ⟨e, he, hsk⟩ := skel_get hsh.skel.symm he0
      obtain ⟨vx, hvx⟩ := vertex_ok hw (List.mem_of_getElem? he0) r
      rw [← Edge.skel_head hsk] at hvx
      unfold edgeStep at h ⊢
      rw [hlook p hE]
      rw [look_ok.mpr he] at h ⊢
      dsimp only at h ⊢
      rw [hsh.vertex, hvx] at h
      rw [hsh2.vertex, hvx]
      dsimp only at h ⊢
      split at h
      · rename_i hf
        rw [if_pos hf]
        split at h
        · cases h; exact ⟨g2.parents, rfl, hpar⟩
        · cases h; exact ⟨g2.parents, rfl, hpar⟩
        · rename_i i hi
          split at h
          · rename_i hcond
            rw [if_pos hcond]
            cases h
            refine ⟨_, rfl, ?_⟩
            intro u hu
            simp only [setParent]
            split
            · rfl
            · exact hpar u hu
          · rename_i hcond
            rw [if_neg hcond]
            cases h; exact ⟨g2.parents, rfl, hpar⟩
      · rename_i hf
        rw [if_neg hf]
        cases h; exact ⟨g2.parents, rfl, hpar⟩
    · rw [edgeStep_skip hsh hsh.skel he0 hh hc hne] at h
      cases h
      rw [edgeStep_skip hsh2 hseen he0 hh hc hne]
      exact ⟨g2.parents, rfl, hpar⟩
  · split at h
    · cases h
    · rename_i vx hvx
      cases h
      rw [hsh.vertex] at hvx
      rw [hsh2.vertex, hvx]
      exact ⟨g2.parents, rfl, hpar⟩
  · cases h
    exact ⟨g2.parents, rfl, hpar⟩
  · rename_i v path c hph
    rw [hph] at h3
    obtain ⟨hv, hpath⟩ := h3
    unfold walkStep at h ⊢
    rw [hpar v hv]
    split at h
    · cases h
      exact ⟨g2.parents, rfl, hpar⟩
    · rename_i p hp
      rcases hv with rfl | ⟨i, rfl, hc⟩
      · rw [← hpar _ (Or.inl rfl), hpi2.1] at hp; cases hp
      · rw [← hpar _ (Or.inr ⟨i, rfl, hc⟩)] at hp
        obtain ⟨e1, he1, hh, ht⟩ := hpi2.2 i p hp
        rw [hlook p (edge_into hw hcl he1 hh hc ht).1]
        split at h
        · cases h
        · cases h
          exact ⟨g2.parents, rfl, hpar⟩

/-- A search does not write the parent edge of the sink. -/
theorem searchStep_sink {seen : List Edge} {g g' : Graph} {k : Nat} {l : Search} {j' : FJob}
    (h : searchStep seen g k l = .ok (g', j')) : g'.parents .sink = g.parents .sink := by
  unfold searchStep headStep edgeStep walkStep at h
  repeat' (first | (cases h; rfl) | (split at h))
  all_goals simp_all

/-! ## A search alone -/

/-- A job that makes `n` steps of a search, alone, and gets to a state without a search -/
inductive Solo (k : Nat) : Nat → Graph → FJob → FJob → Prop
  | refl (g : Graph) (j : FJob) : (∀ l, j ≠ .search l) → Solo k 0 g j j
  | step {n : Nat} {g g' : Graph} {l : Search} {j' jt : FJob} :
      searchStep g.edges g k l = .ok (g', j') → Solo k n g' j' jt → Solo k (n + 1) g (.search l) jt

theorem SameShape.withParents {g0 g : Graph} (h : SameShape g0 g) (ps : Parents) :
    SameShape g0 { g with parents := ps } := ⟨h.1, h.2, h.3, h.4, h.5, h.6⟩

theorem Solo.congr {g0 : Graph} (hw : WF g0) (hcl : Closed g0) {k n : Nat} {g : Graph} {j jt : FJob}
    (h : Solo k n g j jt) : ∀ {g2 : Graph}, SameShape g0 g → SameShape g0 g2 →
    ParentsIn g0 g.parents → ParentsIn g0 g2.parents →
    (∀ i, EdgeIn g0 i k → g2.edges[i]? = g.edges[i]?) →
    (∀ v, OnSide g0 k v → g2.parents v = g.parents v) → j.In g0 k → Solo k n g2 j jt := by
  induction h with
  | refl g j hj => intros; exact .refl _ _ hj
  | step hs _ ih =>
    intro g2 hsh hsh2 hpi hpi2 hedges hpar hin
    obtain ⟨a1, a2, a3, -⟩ := searchStep_inv hw hcl hsh hpi hsh.skel hin hs
    obtain ⟨ps, b1, b2⟩ := searchStep_congr hw hcl hsh hsh2 hpi2 hsh2.skel hedges hpar hin hs
    obtain ⟨-, c2, -, -⟩ := searchStep_inv hw hcl hsh2 hpi2 hsh2.skel hin b1
    refine .step b1 (ih ?_ (hsh2.withParents ps) a2 c2 ?_ b2 a1)
    · rw [a3]; exact hsh.withParents _
    · intro i hi
      rw [a3]; exact hedges i hi

theorem solo_scan (g : Graph) (k : Nat) (r : Bool) (v : VertexPtr) {n : Nat} {jt : FJob}
    {st' : Dfs} (hS : Solo k n { g with parents := st'.parents }
      (.search ⟨st'.stack, st'.visited, st'.sinkParent, .scan r v []⟩) jt) (ps : List EdgePtr) :
    ∀ st : Dfs, g.scan k r ps st = .ok st' →
      ∃ m ≤ n + ps.length, Solo k m { g with parents := st.parents }
        (.search ⟨st.stack, st.visited, st.sinkParent, .scan r v ps⟩) jt := by
  induction ps with
  | nil =>
    intro st h
    cases h
    exact ⟨n, by simp, hS⟩
  | cons p ps ih =>
    intro st h
    rw [Graph.scan] at h
    have hstep : ∀ {G J}, edgeStep g.edges { g with parents := st.parents } k r v p ps
        ⟨st.stack, st.visited, st.sinkParent, .scan r v (p :: ps)⟩ = .ok (G, J) →
        (∃ m ≤ n + ps.length, Solo k m G J jt) →
        ∃ m ≤ n + (p :: ps).length, Solo k m { g with parents := st.parents }
          (.search ⟨st.stack, st.visited, st.sinkParent, .scan r v (p :: ps)⟩) jt := by
      rintro G J hG ⟨m, hm, hS'⟩
      exact ⟨m + 1, by simp; omega, .step hG hS'⟩
    cases he : g.edge p with
    | error f => rw [he] at h; cases h
    | ok e =>
      rw [he] at h
      have he' : look g.edges p = .ok e := he
      dsimp only at h
      by_cases hf : e.flowAlong r > 0
      · rw [if_pos hf] at h
        cases hd : g.vertex (e.head r) with
        | error f => rw [hd] at h; cases h
        | ok dest =>
          rw [hd] at h
          dsimp only at h
          cases hh : e.head r with
          | sink =>
            rw [hh] at h
            dsimp only at h
            cases h
            refine hstep (G := { g with parents := st.parents }) ?_ ⟨n, by omega, hS⟩
            unfold edgeStep
            rw [he']
            dsimp only
            rw [if_pos hf, vertex_parents, hd]
            dsimp only
            rw [hh]
          | source =>
            rw [hh] at h
            dsimp only at h
            refine hstep (G := { g with parents := st.parents }) ?_ (ih st h)
            unfold edgeStep
            rw [he']
            dsimp only
            rw [if_pos hf, vertex_parents, hd]
            dsimp only
            rw [hh]
          | inner i =>
            rw [hh] at h
            dsimp only at h
            by_cases hc : VertexPtr.inner i ∉ st.visited ∧ dest.component = k
            · rw [if_pos hc] at h
              refine hstep ?_ (ih _ h)
              unfold edgeStep
              rw [he']
              dsimp only
              rw [if_pos hf, vertex_parents, hd]
              dsimp only
              rw [hh]
              dsimp only
              rw [if_pos hc]
            · rw [if_neg hc] at h
              refine hstep (G := { g with parents := st.parents }) ?_ (ih st h)
              unfold edgeStep
              rw [he']
              dsimp only
              rw [if_pos hf, vertex_parents, hd]
              dsimp only
              rw [hh]
              dsimp only
              rw [if_neg hc]
      · rw [if_neg hf] at h
        refine hstep (G := { g with parents := st.parents }) ?_ (ih st h)
        unfold edgeStep
        rw [he']
        dsimp only
        rw [if_neg hf]

theorem idxs_length_le (P : Edge → Bool) (es : List Edge) : (idxs P es).length ≤ es.length := by
  unfold idxs
  rw [List.length_map]
  exact (List.length_filter_le _ _).trans (by simp)

theorem solo_loop {g : Graph} (hw : WF g) (k : Nat) {n : Nat} {jt : FJob} {st' : Dfs}
    (hS : Solo k n { g with parents := st'.parents }
      (.search ⟨st'.stack, st'.visited, st'.sinkParent, .loop⟩) jt) (fuel : Nat) :
    ∀ st : Dfs, g.dfsLoop k fuel st = .ok st' →
      ∃ m ≤ n + fuel * (2 * g.edges.length + 3), Solo k m { g with parents := st.parents }
        (.search ⟨st.stack, st.visited, st.sinkParent, .loop⟩) jt := by
  induction fuel with
  | zero => intro st h; cases h
  | succ fuel ih =>
    intro st h
    rw [Graph.dfsLoop] at h
    split at h
    · cases h; exact ⟨n, by omega, hS⟩
    · rename_i hns
      split at h
      · rename_i hst
        cases h; exact ⟨n, by omega, hS⟩
      · rename_i v rest hst
        split at h
        · cases h
        · rename_i vx hvx
          split at h
          · cases h
          · rename_i st1 h1
            split at h
            · cases h
            · rename_i st2 h2
              obtain ⟨m2, hm2, hS2⟩ := ih st2 h
              obtain ⟨m1, hm1, hS1⟩ := solo_scan g k true v (.step (by rfl) hS2) vx.inEdges st1 h2
              have hS1' : Solo k (m1 + 1) { g with parents := st1.parents }
                  (.search ⟨st1.stack, st1.visited, st1.sinkParent, .scan false v []⟩) jt := by
                refine .step ?_ hS1
                unfold searchStep
                dsimp only
                rw [vertex_parents, hvx]
              obtain ⟨m0, hm0, hS0⟩ := solo_scan g k false v hS1' vx.outEdges _ h1
              refine ⟨m0 + 1, ?_, .step ?_ hS0⟩
              · have a := idxs_length_le (startsAt v) g.edges
                have b := idxs_length_le (stopsAt v) g.edges
                rw [← hw.out v vx hvx] at a
                rw [← hw.inc v vx hvx] at b
                rw [Nat.add_mul]
                omega
              · unfold searchStep headStep
                dsimp only
                have hn : st.sinkParent = none := by
                  cases hs : st.sinkParent with
                  | none => rfl
                  | some p => rw [hs] at hns; simp at hns
                rw [hn]
                dsimp only
                rw [hst]
                dsimp only
                rw [vertex_parents, hvx]

theorem solo_walk (g : Graph) (k : Nat) (ps : Parents) {path : List EdgePtr} {c : UInt64}
    (hc : g.pathFlow path = .ok c) (fuel : Nat) :
    ∀ (v : VertexPtr) (acc : List EdgePtr) (c0 : UInt64) (stack visited : List VertexPtr)
      (sp : Option EdgePtr), g.pathFlow acc = .ok c0 → g.walk ps fuel v acc = .ok path →
      ∃ m ≤ fuel, Solo k m { g with parents := ps } (.search ⟨stack, visited, sp, .walk v acc c0⟩)
        (.update c path) := by
  induction fuel with
  | zero => intro v acc c0 _ _ _ _ h; cases h
  | succ fuel ih =>
    intro v acc c0 stack visited sp h0 h
    rw [Graph.walk] at h
    split at h
    · rename_i hp
      cases h
      rw [hc] at h0
      cases h0
      refine ⟨1, by omega, .step (g' := { g with parents := ps }) ?_ (.refl _ _ (by simp))⟩
      unfold searchStep walkStep
      dsimp only
      rw [hp]
    · rename_i p hp
      split at h
      · cases h
      · rename_i e he
        obtain ⟨m, hm, hS⟩ := ih (e.tail p.recip) (p :: acc) (stdMin (e.flowAlong p.recip) c0) stack
          visited sp (by rw [Graph.pathFlow, he, h0]) h
        refine ⟨m + 1, by omega, .step ?_ hS⟩
        have he' : look g.edges p = .ok e := he
        unfold searchStep walkStep
        dsimp only
        rw [hp]
        dsimp only
        rw [he']

theorem dfsLoop_end (g : Graph) (k : Nat) (fuel : Nat) :
    ∀ st st' : Dfs, g.dfsLoop k fuel st = .ok st' → st'.sinkParent = none → st'.stack = [] := by
  induction fuel with
  | zero => intro st st' h; cases h
  | succ fuel ih =>
    intro st st' h hn
    rw [Graph.dfsLoop] at h
    split at h
    · rename_i hs; cases h; rw [hn] at hs; cases hs
    · split at h
      · rename_i hst; cases h; exact hst
      · split at h
        · cases h
        · split at h
          · cases h
          · split at h
            · cases h
            · exact ih _ _ h hn

/-- A bound for the length of a search -/
def searchBound (g0 : Graph) : Nat :=
  (g0.vertices.length + 2) * (2 * g0.edges.length + 4) + 1

/-- Jobs that are not searching, in both models -/
def Job.fine : Job → FJob
  | .find => .find
  | .update c path => .update c path
  | .done => .done

/-- A search, alone, gives what `findPath` gives. -/
theorem solo_find {g : Graph} (hw : WF g) (k : Nat) {ps : Parents} {path : List EdgePtr} {c : UInt64}
    (h : g.findPath k = .ok (ps, path, c)) :
    ∃ m ≤ searchBound g, Solo k m g (.search ⟨[.source], [], none, .loop⟩)
      (if path.isEmpty then .done else .update c path) := by
  unfold Graph.findPath at h
  split at h
  · cases h
  · rename_i st hst
    have key : ∀ {n jt}, Solo k n { g with parents := st.parents }
        (.search ⟨st.stack, st.visited, st.sinkParent, .loop⟩) jt → n ≤ g.vertices.length + 3 →
        ∃ m ≤ searchBound g, Solo k m g (.search ⟨[.source], [], none, .loop⟩) jt := by
      intro n jt hS hn
      obtain ⟨m, hm, hS'⟩ := solo_loop hw k hS _ _ hst
      refine ⟨m, ?_, hS'⟩
      unfold searchBound
      have : (g.vertices.length + 2) * (2 * g.edges.length + 4) =
        (g.vertices.length + 2) * (2 * g.edges.length + 3) + (g.vertices.length + 2) := by ring
      omega
    split at h
    · rename_i hs
      cases h
      refine key (n := 1) (.step (g' := { g with parents := st.parents }) ?_ (.refl _ _ (by simp)))
        (by omega)
      unfold searchStep headStep
      dsimp only
      rw [hs]
      dsimp only
      rw [dfsLoop_end g k _ _ _ hst hs]
      simp
    · rename_i p hs
      split at h
      · cases h
      · rename_i e he
        split at h
        · cases h
        · rename_i path' hwk
          split at h
          · cases h
          · rename_i c' hc
            cases h
            have hne : path ≠ [] := by
              have : ∀ fuel v acc, acc ≠ [] → ∀ r, g.walk st.parents fuel v acc = .ok r → r ≠ [] := by
                intro fuel
                induction fuel with
                | zero => intro v acc _ r h; cases h
                | succ fuel ih =>
                  intro v acc ha r h
                  rw [Graph.walk] at h
                  split at h
                  · cases h; exact ha
                  · split at h
                    · cases h
                    · exact ih _ _ (by simp) r h
              exact this _ _ _ (by simp) _ hwk
            rw [if_neg (by simpa using hne)]
            have h0 : g.pathFlow [p] = .ok (stdMin (e.flowAlong p.recip) (UInt64.ofNat (2 ^ 64 - 1))) := by
              simp only [Graph.pathFlow, he]
            obtain ⟨m, hm, hS⟩ := solo_walk g k st.parents hc _ _ _ _ st.stack st.visited
              st.sinkParent h0 hwk
            refine key (n := m + 1) (.step ?_ hS) (by omega)
            have he' : look g.edges p = .ok e := he
            unfold searchStep headStep
            dsimp only
            rw [hs]
            dsimp only
            rw [he']

/-! ## All the jobs -/

/-- Invariant: the state, with each search replaced by its outcome, is a state of the computation
where a search is one step. -/
structure FineInv (g0 : Graph) (s : Fine) (jobs : List Job) (star : List Edge) (left : Nat → Nat) :
    Prop where
  par : ParInv g0 ⟨s.graph, jobs⟩ star
  live : Live ⟨s.graph, jobs⟩
  pin : ParentsIn g0 s.graph.parents
  len : s.jobs.length = jobs.length
  wrote : ∀ k i, (k, i) ∈ s.wrote → EdgeIn g0 i k
  rel : ∀ (k : Nat) fj j, s.jobs[k]? = some fj → jobs[k]? = some j →
    fj.In g0 k ∧ Solo k (left k) s.graph fj j.fine

/-- Steps left -/
def fineLeft (g0 : Graph) (jobs : List Job) (star : List Edge) (left : Nat → Nat) : Int :=
  ((searchBound g0 : Int) + 1) * workLeft g0 ⟨g0, jobs⟩ star +
    (((List.range jobs.length).map left).sum : Nat)

theorem workLeft_graph (g0 g g' : Graph) (jobs : List Job) (star : List Edge) :
    workLeft g0 ⟨g, jobs⟩ star = workLeft g0 ⟨g', jobs⟩ star := rfl

theorem ParInv.withParents {g0 g : Graph} {jobs : List Job} {star : List Edge}
    (h : ParInv g0 ⟨g, jobs⟩ star) {ps : Parents} (hps : ps .source = none) :
    ParInv g0 ⟨{ g with parents := ps }, jobs⟩ star :=
  ⟨h.shape.withParents ps, hps, h.len, h.skel, h.balanced, h.conserved, h.agree, h.paths, h.cuts⟩

theorem Solo.not_search {k n : Nat} {g : Graph} {j jt : FJob} (h : Solo k n g j jt)
    (hj : ∀ l, j ≠ .search l) : jt = j ∧ n = 0 := by
  cases h with
  | refl _ _ _ => exact ⟨rfl, rfl⟩
  | step _ _ => exact absurd rfl (hj _)

theorem FineInv.sees {g0 : Graph} (hcl : Closed g0) {s : Fine} {jobs : List Job} {star : List Edge}
    {left : Nat → Nat} (hI : FineInv g0 s jobs star left) {k : Nat} {seen : List Edge}
    (h : s.Sees k seen) : seen.map Edge.skel = g0.edges.map Edge.skel ∧
      ∀ i, EdgeIn g0 i k → seen[i]? = s.graph.edges[i]? := by
  refine ⟨h.fixed.trans hI.par.shape.skel, ?_⟩
  intro i hi
  rcases h.flows i with h | ⟨k', hne, h | ⟨fj, hj, hwr⟩⟩
  · exact h
  · exact absurd ((hI.wrote k' i h).unique hcl hi) hne
  · exfalso
    have hl : k' < jobs.length := by rw [← hI.len]; exact (List.getElem?_eq_some_iff.mp hj).1
    obtain ⟨hin, -⟩ := hI.rel k' fj _ hj (List.getElem?_eq_getElem hl)
    unfold FJob.writes at hwr
    split at hwr
    · rename_i c p ps
      cases hwr
      exact hne ((hin p (List.mem_cons_self ..)).unique hcl hi)
    · cases hwr

theorem sum_range_map_update (left : Nat → Nat) (k m N : Nat) (hk : k < N) :
    ((List.range N).map (Function.update left k m)).sum + left k =
      ((List.range N).map left).sum + m := by
  induction N with
  | zero => omega
  | succ N ih =>
    rw [List.range_succ, List.map_append, List.map_append, List.sum_append, List.sum_append]
    simp only [List.map_cons, List.map_nil, List.sum_cons, List.sum_nil, Nat.add_zero]
    by_cases h : k = N
    · subst h
      have : (List.range k).map (Function.update left k m) = (List.range k).map left := by
        apply List.map_congr_left
        intro i hi
        rw [Function.update_of_ne]
        have := List.mem_range.mp hi
        omega
      rw [this]
      simp
      omega
    · rw [Function.update_of_ne (fun h' => h h'.symm)]
      have := ih (by omega)
      omega

/-- Replacing the state of one job -/
theorem FineInv.set {g0 : Graph} (hw : WF g0) (hcl : Closed g0) {s : Fine} {jobs : List Job}
    {star star' : List Edge} {left : Nat → Nat} (hI : FineInv g0 s jobs star left) {k : Nat}
    {g' : Graph} {fj' : FJob} {j' : Job} {m : Nat}
    (hpar : ParInv g0 ⟨g', jobs.set k j'⟩ star') (hlive : ∀ c, j' ≠ .update c [])
    (hpin : ParentsIn g0 g'.parents) (hin : fj'.In g0 k) (hsolo : Solo k m g' fj' j'.fine)
    {w : List (Nat × Nat)} (hwr : ∀ k i, (k, i) ∈ w → EdgeIn g0 i k)
    (hedges : ∀ i, ¬ EdgeIn g0 i k → g'.edges[i]? = s.graph.edges[i]?)
    (hparents : ∀ i, g0.comp i ≠ some k → g'.parents (.inner i) = s.graph.parents (.inner i)) :
    FineInv g0 ⟨g', s.jobs.set k fj', w⟩ (jobs.set k j') star' (Function.update left k m) := by
  refine ⟨hpar, ?_, hpin, by simpa using hI.len, hwr, ?_⟩
  · intro i j hj c
    rcases getElem?_set_cases hj with ⟨-, rfl⟩ | ⟨-, hj⟩
    · exact hlive c
    · exact hI.live i j hj c
  · intro i fj j hfj hj
    by_cases hik : k = i
    · subst hik
      rcases getElem?_set_cases hfj with ⟨-, rfl⟩ | ⟨h, -⟩
      · rcases getElem?_set_cases hj with ⟨-, rfl⟩ | ⟨h, -⟩
        · exact ⟨hin, by simpa using hsolo⟩
        · exact absurd rfl h
      · exact absurd rfl h
    · rcases getElem?_set_cases hfj with ⟨h, -⟩ | ⟨-, hfj⟩
      · exact absurd h hik
      · rcases getElem?_set_cases hj with ⟨h, -⟩ | ⟨-, hj⟩
        · exact absurd h hik
        · obtain ⟨a, b⟩ := hI.rel i fj j hfj hj
          rw [Function.update_of_ne (fun h => hik h.symm)]
          refine ⟨a, b.congr hw hcl hI.par.shape hpar.shape hI.pin hpin ?_ ?_ a⟩
          · intro x hx
            exact hedges x (fun h => hik (h.unique hcl hx))
          · rintro v (rfl | ⟨x, rfl, hx⟩)
            · rw [hpin.1, hI.pin.1]
            · exact hparents x (fun h => hik (by rw [hx] at h; simpa using h.symm))

theorem set_eq_modify {es : List Edge} {i : Nat} {e : Edge} (h : es[i]? = some e) (f : Edge → Edge) :
    es.set i (f e) = es.modify i f := by
  apply List.ext_getElem?
  intro x
  rw [List.getElem?_set, List.getElem?_modify]
  by_cases hx : i = x
  · subst hx
    have hi := (List.getElem?_eq_some_iff.mp h).1
    rw [if_pos rfl, if_pos hi, h]
    simp
  · rw [if_neg hx]
    simp [hx]

/-- One step of a job, in the middle of any number of searches: it does not fault, keeps the
invariant and decreases the number of steps left. -/
theorem fineStep_spec {g0 : Graph} (hw : WF g0) (hcl : Closed g0) {s : Fine} {jobs : List Job}
    {star : List Edge} {left : Nat → Nat} (hI : FineInv g0 s jobs star left) {k : Nat} {fj : FJob}
    (hj : s.jobs[k]? = some fj) (hnd : fj ≠ .done) {seen : List Edge} (hsees : s.Sees k seen) :
    ∃ g' fj' jobs' star' left', fineStep seen s.graph k fj = .ok (g', fj') ∧
      FineInv g0 ⟨g', s.jobs.set k fj', fj.writes.toList.map (k, ·) ++ s.wrote⟩ jobs' star' left' ∧
      fineLeft g0 jobs' star' left' < fineLeft g0 jobs star left := by
  obtain ⟨hseen, hagree⟩ := hI.sees hcl hsees
  have hk : k < jobs.length := by rw [← hI.len]; exact (List.getElem?_eq_some_iff.mp hj).1
  have hj2 : jobs[k]? = some jobs[k] := List.getElem?_eq_getElem hk
  obtain ⟨hin, hsolo⟩ := hI.rel k fj _ hj hj2
  have hwf : WF s.graph := hI.par.shape.wf hw hI.par.psource
  generalize hjk : jobs[k] = j at hj2 hsolo
  have hsum := fun m => sum_range_map_update left k m jobs.length hk
  cases fj with
  | done => exact absurd rfl hnd
  | find =>
    obtain ⟨hjt, hl0⟩ := hsolo.not_search (by simp)
    cases j with
    | update c path => cases hjt
    | done => cases hjt
    | find =>
      obtain ⟨ga, ja, star', a1, a2, a3, a4⟩ := parStep_spec hw hcl hI.par hj2 (by simp) (by simp)
      simp only [stepJob] at a1
      split at a1
      · cases a1
      · rename_i ps path c hfp
        obtain ⟨m, hm, hS⟩ := solo_find hwf k hfp
        have hga : ga = { s.graph with parents := ps } ∧
            ja.fine = (if path.isEmpty then .done else .update c path) := by
          split at a1 <;> rename_i hp <;> cases a1 <;> simp [Job.fine, hp]
        obtain ⟨rfl, hja⟩ := hga
        have hmb : m ≤ searchBound g0 := by
          refine hm.trans_eq ?_
          unfold searchBound
          have := congrArg List.length hI.par.shape.skel
          simp only [List.length_map] at this
          rw [this, hI.par.shape.vertices]
        have hp2 : ParInv g0 ⟨s.graph, jobs.set k ja⟩ star' := a3.withParents (ps := s.graph.parents) hI.pin.1
        refine ⟨s.graph, .search ⟨[.source], [], none, .loop⟩, jobs.set k ja, star',
          Function.update left k m, rfl, ?_, ?_⟩
        · have hin0 : FJob.In g0 k (.search ⟨[.source], [], none, .loop⟩) := by
            refine ⟨?_, by simp, trivial⟩
            intro v hv
            simp only [List.mem_singleton] at hv
            exact Or.inl hv
          refine hI.set hw hcl hp2 a2 hI.pin hin0 (hja ▸ hS) ?_ (fun _ _ => rfl) (fun _ _ => rfl)
          · intro k' i h
            exact hI.wrote k' i (by simpa [FJob.writes] using h)
        · unfold fineLeft
          rw [workLeft_graph g0 g0 s.graph, workLeft_graph g0 g0 s.graph]
          have e1 : workLeft g0 ⟨s.graph, jobs.set k ja⟩ star' + 1 ≤ workLeft g0 ⟨s.graph, jobs⟩ star := a4
          have e2 := hsum m
          rw [hl0] at e2
          rw [List.length_set]
          have e3 : ((searchBound g0 : Int) + 1) * (workLeft g0 ⟨s.graph, jobs.set k ja⟩ star' + 1) ≤
              ((searchBound g0 : Int) + 1) * workLeft g0 ⟨s.graph, jobs⟩ star :=
            mul_le_mul_of_nonneg_left e1 (by omega)
          rw [mul_add, mul_one] at e3
          omega
  | search l =>
    generalize hlk : left k = r at hsolo
    generalize hjf : j.fine = jt at hsolo
    cases hsolo with
    | refl _ _ h => exact absurd rfl (h l)
    | @step n _ g1 _ fj' _ hs hS =>
      obtain ⟨a1, a2, a3, -⟩ := searchStep_inv hw hcl hI.par.shape hI.pin hI.par.shape.skel hin hs
      obtain ⟨ps, b1, b2⟩ := searchStep_congr hw hcl hI.par.shape hI.par.shape hI.pin hseen hagree
        (fun _ _ => rfl) hin hs
      obtain ⟨c1, c2, -, c4⟩ := searchStep_inv hw hcl hI.par.shape hI.pin hseen hin b1
      have hset : jobs.set k j = jobs := by
        rw [← hjk]; simp
      refine ⟨{ s.graph with parents := ps }, fj', jobs.set k j, star, Function.update left k n, b1, ?_, ?_⟩
      · refine hI.set hw hcl (by rw [hset]; exact hI.par.withParents c2.1) ?_ c2 c1 ?_ ?_
          (fun _ _ => rfl) c4
        · exact hI.live k j hj2
        · rw [hjf]
          refine hS.congr hw hcl ?_ (hI.par.shape.withParents ps) a2 c2 ?_ b2 c1
          · rw [a3]; exact hI.par.shape.withParents _
          · intro i hi
            rw [a3]
        · intro k' i h
          exact hI.wrote k' i (by simpa [FJob.writes] using h)
      · unfold fineLeft
        rw [hset]
        have e2 := hsum n
        omega
  | update c path =>
    obtain ⟨hjt, hl0⟩ := hsolo.not_search (by simp)
    cases j with
    | find => cases hjt
    | done => cases hjt
    | update c' path' =>
      cases hjt
      cases path with
      | nil => exact absurd rfl (hI.live k _ hj2 c)
      | cons p ps =>
        obtain ⟨ga, ja, star', a1, a2, a3, a4⟩ := parStep_spec hw hcl hI.par hj2 (by simp) (by simp)
        simp only [stepJob] at a1
        cases a1
        have hp : EdgeIn g0 p.index k := hin p (List.mem_cons_self ..)
        obtain ⟨e0, _, he0, -⟩ := hp
        obtain ⟨e, he, -⟩ := skel_get hI.par.shape.skel.symm he0
        have hp : EdgeIn g0 p.index k := hin p (List.mem_cons_self ..)
        have hlook : look seen p = .ok e := look_ok.mpr (by rw [hagree _ hp]; exact he)
        refine ⟨{ s.graph with edges := s.graph.edges.modify p.index (fun e => e.update p.recip c) },
          if ps.isEmpty then .find else .update c ps,
          jobs.set k (if ps.isEmpty then .find else .update c ps), star', Function.update left k 0,
          ?_, ?_, ?_⟩
        · unfold fineStep
          dsimp only
          rw [hlook]
          dsimp only
          rw [set_eq_modify he (fun e => e.update p.recip c)]
        · refine hI.set hw hcl a3 a2 hI.pin ?_ ?_ ?_ ?_ (fun _ _ => rfl)
          · split
            · trivial
            · exact fun q hq => hin q (List.mem_cons_of_mem _ hq)
          · split
            · exact .refl _ _ (by simp)
            · exact .refl _ _ (by simp)
          · intro k' i h
            simp only [FJob.writes, Option.toList_some, List.map_cons, List.map_nil, List.singleton_append,
              List.mem_cons, Prod.mk.injEq] at h
            rcases h with ⟨rfl, rfl⟩ | h
            · exact hp
            · exact hI.wrote k' i h
          · intro i hi
            show (s.graph.edges.modify p.index _)[i]? = _
            rw [getElem?_modify_ne]
            rintro rfl
            exact hi hp
        · unfold fineLeft
          rw [workLeft_graph g0 g0 s.graph, workLeft_graph g0 g0 s.graph]
          generalize hja : (if ps.isEmpty then Job.find else Job.update c ps) = ja at a4 ⊢
          have e1 : workLeft g0 ⟨s.graph, jobs.set k ja⟩ star' + 1 ≤ workLeft g0 ⟨s.graph, jobs⟩ star := a4
          have e2 := hsum 0
          rw [hl0] at e2
          rw [List.length_set]
          have e3 : ((searchBound g0 : Int) + 1) * (workLeft g0 ⟨s.graph, jobs.set k ja⟩ star' + 1) ≤
              ((searchBound g0 : Int) + 1) * workLeft g0 ⟨s.graph, jobs⟩ star :=
            mul_le_mul_of_nonneg_left e1 (by omega)
          rw [mul_add, mul_one] at e3
          omega

theorem fineSteps_spec {g0 : Graph} (hw : WF g0) (hcl : Closed g0) {s0 : Fine} {jobs0 : List Job}
    {star0 : List Edge} {left0 : Nat → Nat} (h0 : FineInv g0 s0 jobs0 star0 left0) {n : Nat} {s : Fine}
    (h : Fine.Steps n s0 s) : ∃ jobs star left, FineInv g0 s jobs star left ∧
      fineLeft g0 jobs star left + n ≤ fineLeft g0 jobs0 star0 left0 := by
  induction h with
  | refl => exact ⟨_, _, _, h0, by simp⟩
  | tail hs hstep ih =>
    obtain ⟨jobs, star, left, hI, hm⟩ := ih h0
    cases hstep with
    | mk hj hnd hsees hok =>
      obtain ⟨g', fj', jobs', star', left', h1, h2, h3⟩ := fineStep_spec hw hcl hI hj hnd hsees
      rw [h1] at hok
      cases hok
      refine ⟨jobs', star', left', h2, ?_⟩
      push_cast
      omega

theorem fineLeft_nonneg {g0 : Graph} (hw : WF g0) {s : Fine} {jobs : List Job} {star : List Edge}
    {left : Nat → Nat} (hI : FineInv g0 s jobs star left) : 0 ≤ fineLeft g0 jobs star left := by
  have := workLeft_nonneg hw hI.par
  unfold fineLeft
  rw [workLeft_graph g0 g0 s.graph]
  have := mul_nonneg (show (0 : Int) ≤ (searchBound g0 : Int) + 1 by omega) this
  omega

theorem FineInv.finished {g0 : Graph} {s : Fine} {jobs : List Job} {star : List Edge}
    {left : Nat → Nat} (hI : FineInv g0 s jobs star left) (h : s.Finished) :
    Par.Finished ⟨s.graph, jobs⟩ := by
  intro j hj
  obtain ⟨k, hk⟩ := List.mem_iff_getElem?.mp hj
  have hl : k < s.jobs.length := by rw [hI.len]; exact (List.getElem?_eq_some_iff.mp hk).1
  have hd : s.jobs[k] = .done := h _ (List.getElem_mem hl)
  obtain ⟨-, hS⟩ := hI.rel k _ j (List.getElem?_eq_getElem hl) hk
  rw [hd] at hS
  obtain ⟨a, -⟩ := hS.not_search (by simp)
  cases j <;> simp [Job.fine] at a ⊢

/-! ## Start -/

theorem apply_parents {g g' : Graph} {op : BuildOp} (h : op.apply g = .ok g') :
    g'.parents = g.parents := by
  cases op <;> simp only [BuildOp.apply, Graph.addEdge, Graph.addEdgeFromSource, Graph.addEdgeToSink] at h <;>
    repeat' (first | cases h; rfl | (split at h))
  all_goals cases h

theorem build_parents {n : Nat} {ops : List BuildOp} {g : Graph} (h : build n ops = .ok g) :
    g.parents = fun _ => none := by
  have hf : ∀ (ops : List BuildOp) (g g' : Graph), buildFrom g ops = .ok g' → g'.parents = g.parents := by
    intro ops
    induction ops with
    | nil => intro g g' h; cases h; rfl
    | cons op ops ih =>
      intro g g' h
      simp only [buildFrom] at h
      split at h
      · cases h
      · rename_i g1 h1
        rw [ih g1 g' h, apply_parents h1]
  unfold build at h
  split at h
  · cases h
  · rename_i g0 h0
    rw [hf ops g0 g h]
    unfold Graph.new at h0
    split at h0
    · cases h0
    · cases h0; rfl

theorem fineInit_spec {n : Nat} {ops : List BuildOp} {g : Graph} (hg : build n ops = .ok g) :
    ∃ g0, WF g0 ∧ Split g g0 ∧
      g.fineInit = .ok ⟨g0, List.replicate (g0.nComponents + 1) .find, []⟩ ∧
      FineInv g0 ⟨g0, List.replicate (g0.nComponents + 1) .find, []⟩
        (List.replicate (g0.nComponents + 1) .find) g0.edges (fun _ => 0) := by
  have hf := fresh_build hg
  obtain ⟨g0, h1, h2, -, h4⟩ := parInit_spec hf
  have hrep : ∀ {α : Type} (x : α) (k : Nat) j, (List.replicate (g0.nComponents + 1) x)[k]? = some j →
      j = x := by
    intro α x k j h
    rw [List.getElem?_replicate] at h
    split at h <;> simp at h
    exact h.symm
  refine ⟨g0, h2.same.wf hf.wf, h2, ?_, ⟨h4, ?_, ?_, by simp, by simp, ?_⟩⟩
  · unfold Graph.fineInit
    rw [if_neg (by simp [hf.state]), h1]
  · intro k j hj c
    rw [hrep _ k j hj]; simp
  · have : g0.parents = fun _ => none := by rw [h2.same.parents, build_parents hg]
    show ParentsIn g0 g0.parents
    rw [this]
    exact ⟨rfl, by simp⟩
  · intro k fj j h h'
    rw [hrep _ k _ h, hrep _ k _ h']
    exact ⟨trivial, .refl _ _ (by simp)⟩

end Verif.Tethys
