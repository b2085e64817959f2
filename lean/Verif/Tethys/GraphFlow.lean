import Verif.Tethys.GraphLemmas
import Verif.Tethys.GraphSpec

/-! # Helper lemmas on the allocation graph: flows, cuts and the augmentation loop -/

namespace Verif.Tethys

/-! ## Sums over edges -/

/-- Sum over a list of edges -/
def esum (f : Edge → Int) (es : List Edge) : Int := (es.map f).sum

@[simp] theorem esum_nil (f : Edge → Int) : esum f [] = 0 := rfl
@[simp] theorem esum_cons (f : Edge → Int) (e : Edge) (es : List Edge) :
    esum f (e :: es) = f e + esum f es := by simp [esum]
theorem esum_append (f : Edge → Int) (es es' : List Edge) :
    esum f (es ++ es') = esum f es + esum f es' := by simp [esum]

theorem esum_modify (f : Edge → Int) (es : List Edge) (k : Nat) (u : Edge → Edge) (e : Edge)
    (h : es[k]? = some e) : esum f (es.modify k u) = esum f es - f e + f (u e) := by
  induction es generalizing k with
  | nil => simp at h
  | cons a es ih =>
    cases k with
    | zero =>
      simp at h
      subst h
      simp [List.modify_cons, add_comm]
    | succ k =>
      simp only [List.getElem?_cons_succ] at h
      simp only [List.modify_succ_cons, esum_cons, ih k h]
      ring

theorem esum_le {f g : Edge → Int} {es : List Edge} (h : ∀ e ∈ es, f e ≤ g e) :
    esum f es ≤ esum g es := by
  induction es with
  | nil => simp
  | cons e es ih =>
    simp only [esum_cons]
    have := h e (List.mem_cons_self ..)
    have := ih (fun x hx => h x (List.mem_cons_of_mem _ hx))
    omega

theorem esum_congr {f g : Edge → Int} {es : List Edge} (h : ∀ e ∈ es, f e = g e) :
    esum f es = esum g es := by
  induction es with
  | nil => rfl
  | cons e es ih =>
    simp only [esum_cons, h e (List.mem_cons_self ..),
      ih (fun x hx => h x (List.mem_cons_of_mem _ hx))]

/-- The flow pushed through an edge -/
def Edge.fl (e : Edge) : Int := (e.recFlow.toNat : Int)

/-- Contribution of an edge to the excess of `v` -/
def Edge.at (v : VertexPtr) (e : Edge) : Int :=
  (if e.stop = v then e.fl else 0) - (if e.start = v then e.fl else 0)

/-- What a vertex receives minus what it sends -/
def excess (es : List Edge) (v : VertexPtr) : Int := esum (Edge.at v) es

/-- The residual bookkeeping is exact: room plus flow is the capacity. -/
def Balanced (es : List Edge) : Prop :=
  ∀ e ∈ es, e.flow.toNat + e.recFlow.toNat = e.capacity.toNat

theorem update_skel (e : Edge) (b : Bool) (c : UInt64) : (e.update b c).skel = e.skel := by
  cases b <;> rfl

theorem update_fl (e : Edge) (b : Bool) (c : UInt64)
    (hb : e.flow.toNat + e.recFlow.toNat = e.capacity.toNat) (hc : c ≤ e.flowAlong b) :
    (e.update b c).flow.toNat + (e.update b c).recFlow.toNat = (e.update b c).capacity.toNat ∧
    (e.update b c).fl = e.fl + (if b then -(c.toNat : Int) else c.toNat) := by
  have hlt := e.capacity.toNat_lt
  cases b with
  | false =>
    simp only [Edge.flowAlong, Bool.false_eq_true, if_false] at hc
    have hc' : c.toNat ≤ e.flow.toNat := UInt64.le_iff_toNat_le.mp hc
    have h1 : (e.flow - c).toNat = e.flow.toNat - c.toNat := UInt64.toNat_sub_of_le _ _ hc
    have h2 : (e.recFlow + c).toNat = e.recFlow.toNat + c.toNat := by
      rw [UInt64.toNat_add, Nat.mod_eq_of_lt (by omega)]
    simp only [Edge.update, Edge.fl, Bool.false_eq_true, if_false, h1, h2]
    constructor
    · omega
    · push_cast; ring
  | true =>
    simp only [Edge.flowAlong, if_true] at hc
    have hc' : c.toNat ≤ e.recFlow.toNat := UInt64.le_iff_toNat_le.mp hc
    have h1 : (e.recFlow - c).toNat = e.recFlow.toNat - c.toNat := UInt64.toNat_sub_of_le _ _ hc
    have h2 : (e.flow + c).toNat = e.flow.toNat + c.toNat := by
      rw [UInt64.toNat_add, Nat.mod_eq_of_lt (by omega)]
    simp only [Edge.update, Edge.fl, if_true, h1, h2]
    constructor
    · omega
    · push_cast [hc']; ring

/-- Pushing `c` along an edge moves `c` units of excess from its tail to its head. -/
theorem update_at (e : Edge) (b : Bool) (c : UInt64) (v : VertexPtr)
    (hb : e.flow.toNat + e.recFlow.toNat = e.capacity.toNat) (hc : c ≤ e.flowAlong b) :
    (e.update b c).at v = e.at v + (if e.head b = v then (c.toNat : Int) else 0) -
      (if e.tail b = v then (c.toNat : Int) else 0) := by
  have h := (update_fl e b c hb hc).2
  have hs := update_skel e b c
  simp only [Edge.skel, Prod.mk.injEq] at hs
  unfold Edge.at
  rw [h, hs.2.2.1, hs.2.2.2]
  cases b <;> simp only [Edge.head, Edge.tail, Bool.false_eq_true, if_false, if_true] <;>
    split <;> split <;> simp <;> ring

theorem modify_skel (es : List Edge) (k : Nat) (b : Bool) (c : UInt64) :
    (es.modify k (fun e => e.update b c)).map Edge.skel = es.map Edge.skel := by
  induction es generalizing k with
  | nil => cases k <;> simp
  | cons e es ih =>
    cases k with
    | zero => simp [List.modify_cons, update_skel]
    | succ k => simp [List.modify_succ_cons, ih]

theorem updatePath_skel (c : UInt64) (path : List EdgePtr) (es : List Edge) :
    (updatePath c path es).map Edge.skel = es.map Edge.skel := by
  induction path generalizing es with
  | nil => rfl
  | cons p ps ih => rw [updatePath, ih, modify_skel]

theorem Steps.congr {es es' : List Edge} (h : es.map Edge.skel = es'.map Edge.skel)
    {u w : VertexPtr} {path : List EdgePtr} (hs : Steps es u path w) : Steps es' u path w := by
  induction path generalizing u with
  | nil => exact hs
  | cons p ps ih =>
    obtain ⟨e, he, ht, hs⟩ := hs
    have : (es'.map Edge.skel)[p.index]? = some e.skel := by rw [← h]; simp [he]
    rw [List.getElem?_map] at this
    cases he' : es'[p.index]? with
    | none => simp [he'] at this
    | some e' =>
      rw [he'] at this
      simp only [Option.map_some, Option.some.injEq] at this
      refine ⟨e', he', by rw [Edge.skel_tail this]; exact ht, ?_⟩
      rw [Edge.skel_head this]
      exact ih hs

theorem getElem?_modify_ne {es : List Edge} {k l : Nat} (u : Edge → Edge) (h : k ≠ l) :
    (es.modify k u)[l]? = es[l]? := by
  rw [List.getElem?_modify]; simp [h]

theorem updatePath_getElem?_of_notMem (c : UInt64) (path : List EdgePtr) (es : List Edge) (k : Nat)
    (h : k ∉ path.map EdgePtr.index) : (updatePath c path es)[k]? = es[k]? := by
  induction path generalizing es with
  | nil => rfl
  | cons p ps ih =>
    simp only [List.map_cons, List.mem_cons, not_or] at h
    rw [updatePath, ih _ h.2, getElem?_modify_ne _ (Ne.symm h.1)]

/-- Pushing flow along a path with room: the books stay balanced and the excess moves from the first
vertex to the last. -/
theorem updatePath_spec (c : UInt64) (path : List EdgePtr) (es : List Edge) (u w : VertexPtr)
    (hs : Steps es u path w) (hnd : (path.map EdgePtr.index).Nodup)
    (hroom : ∀ p ∈ path, ∃ e, es[p.index]? = some e ∧ c ≤ e.flowAlong p.recip)
    (hb : Balanced es) :
    Balanced (updatePath c path es) ∧
    ∀ v, excess (updatePath c path es) v = excess es v + (if w = v then (c.toNat : Int) else 0) -
      (if u = v then (c.toNat : Int) else 0) := by
  induction path generalizing es u with
  | nil =>
    simp only [Steps] at hs
    subst hs
    exact ⟨hb, fun v => by simp [updatePath]⟩
  | cons p ps ih =>
    obtain ⟨e, he, ht, hs'⟩ := hs
    simp only [List.map_cons, List.nodup_cons] at hnd
    obtain ⟨e', he', hc⟩ := hroom p (List.mem_cons_self ..)
    rw [he] at he'
    cases he'
    have hbe := hb e (List.mem_of_getElem? he)
    have hb' : Balanced (es.modify p.index (fun e => e.update p.recip c)) := by
      intro x hx
      obtain ⟨k, hk⟩ := List.mem_iff_getElem?.mp hx
      by_cases hkp : p.index = k
      · subst hkp
        rw [List.getElem?_modify, he] at hk
        simp only [if_true, Option.map_eq_map, Option.map_some, Option.some.injEq] at hk
        subst hk
        exact (update_fl e p.recip c hbe hc).1
      · rw [getElem?_modify_ne _ hkp] at hk
        exact hb x (List.mem_of_getElem? hk)
    obtain ⟨h1, h2⟩ := ih (es.modify p.index (fun e => e.update p.recip c)) (e.head p.recip)
      (hs'.congr (modify_skel _ _ _ _).symm) hnd.2
      (by
        intro q hq
        obtain ⟨e', he', hc'⟩ := hroom q (List.mem_cons_of_mem _ hq)
        refine ⟨e', ?_, hc'⟩
        rw [getElem?_modify_ne _ (fun h => hnd.1 (List.mem_map.mpr ⟨q, hq, h.symm⟩))]
        exact he') hb'
    refine ⟨h1, fun v => ?_⟩
    rw [updatePath, h2 v]
    have : excess (es.modify p.index (fun e => e.update p.recip c)) v =
        excess es v + (if e.head p.recip = v then (c.toNat : Int) else 0) -
          (if e.tail p.recip = v then (c.toNat : Int) else 0) := by
      unfold excess
      rw [esum_modify _ _ _ _ e he, update_at e p.recip c v hbe hc]
      ring
    rw [this, ht]
    ring

/-! ## Transfer of well-formedness -/

/-- Two graphs that differ only by flows and parents -/
structure SameShape (g g' : Graph) : Prop where
  state : g'.state = g.state
  source : g'.source = g.source
  sink : g'.sink = g.sink
  vertices : g'.vertices = g.vertices
  skel : g'.edges.map Edge.skel = g.edges.map Edge.skel
  comps : g'.nComponents = g.nComponents

theorem SameShape.refl (g : Graph) : SameShape g g := ⟨rfl, rfl, rfl, rfl, rfl, rfl⟩

theorem SameShape.trans {a b c : Graph} (h : SameShape a b) (h' : SameShape b c) : SameShape a c :=
  ⟨h'.1.trans h.1, h'.2.trans h.2, h'.3.trans h.3, h'.4.trans h.4, h'.5.trans h.5, h'.6.trans h.6⟩

theorem SameShape.vertex {g g' : Graph} (h : SameShape g g') (v : VertexPtr) :
    g'.vertex v = g.vertex v := by
  cases v <;> simp [Graph.vertex, h.source, h.sink, h.vertices]

theorem SameShape.hasComp {g g' : Graph} (h : SameShape g g') (v : VertexPtr) (k : Nat) :
    HasComp g' v k ↔ HasComp g v k := by simp [HasComp, h.vertex v]

theorem SameShape.mem {g g' : Graph} (h : SameShape g g') {e : Edge} (he : e ∈ g'.edges) :
    ∃ e' ∈ g.edges, e'.skel = e.skel := by
  have : e.skel ∈ g.edges.map Edge.skel := by
    rw [← h.skel]; exact List.mem_map.mpr ⟨e, he, rfl⟩
  obtain ⟨e', h1, h2⟩ := List.mem_map.mp this
  exact ⟨e', h1, h2⟩

theorem SameShape.wf {g g' : Graph} (h : SameShape g g') (hw : WF g)
    (hp : g'.parents .source = none) : WF g' := by
  refine ⟨?_, ?_, ?_, ?_, ?_, hp⟩
  · intro e he
    obtain ⟨e', h1, h2⟩ := h.mem he
    simp only [Edge.skel, Prod.mk.injEq] at h2
    rw [← h2.2.2.1, h.vertices]
    exact hw.start e' h1
  · intro e he
    obtain ⟨e', h1, h2⟩ := h.mem he
    simp only [Edge.skel, Prod.mk.injEq] at h2
    rw [← h2.2.2.2, h.vertices]
    exact hw.stop e' h1
  · intro e he
    obtain ⟨e', h1, h2⟩ := h.mem he
    simp only [Edge.skel, Prod.mk.injEq] at h2
    rw [← h2.2.2.2, ← h2.2.2.1]
    exact hw.direct e' h1
  · intro v vx hv
    rw [h.vertex v] at hv
    rw [hw.out v vx hv]
    exact idxs_congr (startsAt_skel v) h.skel.symm
  · intro v vx hv
    rw [h.vertex v] at hv
    rw [hw.inc v vx hv]
    exact idxs_congr (stopsAt_skel v) h.skel.symm

/-! ## The augmentation loop -/

/-- Everything sent at inner vertices is received. -/
def Conserved (es : List Edge) : Prop := ∀ i, excess es (.inner i) = 0

/-- The value of the flow -/
def flowValue (es : List Edge) : Int := - excess es .source

def capSum (es : List Edge) : Nat := (es.map (fun e => e.capacity.toNat)).sum

theorem capSum_skel {es es' : List Edge} (h : es.map Edge.skel = es'.map Edge.skel) :
    capSum es = capSum es' := by
  have : ∀ es : List Edge, es.map (fun e => e.capacity.toNat) =
      (es.map Edge.skel).map (fun s => s.2.1.toNat) := by
    intro es; simp [Edge.skel, Function.comp_def]
  unfold capSum
  rw [this, this, h]

theorem flowValue_le_capSum {g : Graph} (hw : WF g) (hb : Balanced g.edges) :
    flowValue g.edges ≤ capSum g.edges := by
  have : ∀ es : List Edge, (∀ e ∈ es, e ∈ g.edges) → -(excess es .source) ≤ capSum es := by
    intro es
    induction es with
    | nil => intro _; simp [excess, capSum]
    | cons e es ih =>
      intro h
      have h1 := ih (fun x hx => h x (List.mem_cons_of_mem _ hx))
      have h2 := hb e (h e (List.mem_cons_self ..))
      have h3 : e.stop ≠ .source := by
        rcases hw.stop e (h e (List.mem_cons_self ..)) with h | ⟨_, _, h⟩ <;> rw [h] <;> simp
      simp only [excess, esum_cons, capSum, List.map_cons, List.sum_cons, Edge.at, h3, if_false] at h1 ⊢
      unfold Edge.fl
      push_cast
      split <;> omega
  exact this g.edges (fun e h => h)

/-- The result of the augmentation loop: same graph, valid flow, and no augmenting path left. -/
structure Augmented (k : Nat) (g g' : Graph) : Prop where
  shape : SameShape g g'
  psource : g'.parents .source = none
  balanced : Balanced g'.edges
  inner : ∀ i, excess g'.edges (.inner i) = excess g.edges (.inner i)
  final : ∃ S : List VertexPtr,
    (∀ v ∈ S, ∃ i < g.vertices.length, v = .inner i ∧ HasComp g v k) ∧
    ∀ u, (u = .source ∨ u ∈ S) → ∀ p w, Arc g' p u w →
      w ≠ .sink ∧ (w = .source ∨ w ∈ S ∨ ¬ HasComp g w k)

theorem arc_parents (g : Graph) (ps : Parents) (p : EdgePtr) (u w : VertexPtr) :
    Arc { g with parents := ps } p u w ↔ Arc g p u w := Iff.rfl

theorem augmentLoop_spec (k : Nat) (fuel : Nat) (g : Graph) (hw : WF g) (hb : Balanced g.edges)
    (hfuel : (capSum g.edges : Int) - flowValue g.edges < fuel) :
    ∃ g', g.augmentLoop k fuel = .ok g' ∧ Augmented k g g' := by
  induction fuel generalizing g with
  | zero =>
    have := flowValue_le_capSum hw hb
    omega
  | succ fuel ih =>
    obtain ⟨ps, path, c, h1, h2, h3, h4, h5⟩ := findPath_spec hw k
    rw [Graph.augmentLoop, h1]
    simp only
    by_cases hp : path = []
    · rw [if_pos (by simp [hp])]
      obtain ⟨S, hS1, hS2⟩ := h5 hp
      exact ⟨_, rfl, ⟨⟨rfl, rfl, rfl, rfl, rfl, rfl⟩, h2, hb, fun _ => rfl, S, hS1, hS2⟩⟩
    · rw [if_neg (by simpa using hp)]
      obtain ⟨p1, p2, p3, p4, -⟩ := h4 hp
      obtain ⟨q1, q2⟩ := updatePath_spec c path g.edges _ _ p1 p2 p4 hb
      have hsh : SameShape g { g with parents := ps, edges := updatePath c path g.edges } :=
        ⟨rfl, rfl, rfl, rfl, updatePath_skel c path g.edges, rfl⟩
      have hc : 0 < c.toNat := by simpa using UInt64.lt_iff_toNat_lt.mp p3
      obtain ⟨g', r1, r2⟩ := ih { g with parents := ps, edges := updatePath c path g.edges }
        (hsh.wf hw h2) q1 (by
          show (capSum (updatePath c path g.edges) : Int) - flowValue (updatePath c path g.edges) < fuel
          rw [capSum_skel (updatePath_skel c path g.edges)]
          unfold flowValue at hfuel ⊢
          rw [q2 .source]
          simp only [reduceCtorEq, if_false, if_true]
          push_cast at hfuel
          omega)
      refine ⟨g', r1, hsh.trans r2.shape, r2.psource, r2.balanced, ?_, ?_⟩
      · intro i
        rw [r2.inner i]
        show excess (updatePath c path g.edges) _ = _
        rw [q2 (.inner i)]
        simp
      · obtain ⟨S, hS1, hS2⟩ := r2.final
        exact ⟨S, hS1, hS2⟩

end Verif.Tethys
