import Verif.Tethys.TrimLemmas
import Verif.Tethys.AllocSpec

/-! # Helper lemmas: the allocation -/

namespace Verif.Tethys

open Spec

/-! ## Construction of the graph -/

def listOp (l : ListInfo) : BuildOp := .edge l.index l.len l.h0 l.h1

def slackOp (page d : UInt64) (i : Nat) : List BuildOp :=
  if d > page then [.fromSource emptyIndex (d - page) i]
  else if d < page then [.toSink emptyIndex (page - d) i]
  else []

/-- Sum of the capacities of the edges leaving `v` -/
def outCap (sk : List (UInt64 × UInt64 × VertexPtr × VertexPtr)) (v : Nat) : Nat :=
  (sk.map (fun s => if s.2.2.1 = .inner v then s.2.1.toNat else 0)).sum

theorem outCap_append (a b : List (UInt64 × UInt64 × VertexPtr × VertexPtr)) (v : Nat) :
    outCap (a ++ b) v = outCap a v + outCap b v := by simp [outCap]

theorem outCap_eq (es : List Edge) (v : Nat) :
    ((es.filter (startsAt (.inner v))).map (fun e => e.capacity.toNat)).sum =
      outCap (es.map Edge.skel) v := by
  induction es with
  | nil => rfl
  | cons e es ih =>
    simp only [outCap, List.map_cons, List.sum_cons, List.filter_cons, startsAt] at ih ⊢
    by_cases h : e.start = .inner v
    · simp only [h, decide_true, if_true, List.map_cons, List.sum_cons, Edge.skel]
      rw [ih]
    · simp only [h, decide_false, Bool.false_eq_true, if_false, Edge.skel]
      rw [ih]; simp

theorem vertexOutCapacity_spec {g : Graph} (hw : WF g) {i : Nat} (hi : i < g.vertices.length)
    {d : UInt64} (hd : outCap (g.edges.map Edge.skel) i = d.toNat) :
    g.vertexOutCapacity (.inner i) = .ok d := by
  unfold Graph.vertexOutCapacity
  rw [vertex_inner hi]
  simp only
  rw [hw.out _ _ (vertex_inner hi)]
  obtain ⟨r, h1, h2⟩ := sumEdges_idxs g (·.capacity) (startsAt (.inner i)) 0
  rw [h1]
  congr 1
  apply UInt64.toNat_inj.mp
  rw [h2, outCap_eq, hd]
  simp

theorem buildFrom_append (g : Graph) (a b : List BuildOp) :
    buildFrom g (a ++ b) = match buildFrom g a with
      | .error f => .error f
      | .ok g' => buildFrom g' b := by
  induction a generalizing g with
  | nil => rfl
  | cons op a ih =>
    simp only [List.cons_append, buildFrom]
    cases op.apply g with
    | error f => rfl
    | ok g' => exact ih g'

theorem addSlack_spec (page : UInt64) (dd : Nat → UInt64) (is : List Nat) (hnd : is.Nodup)
    (g : Graph) (hf : Fresh g) (hi : ∀ i ∈ is, i < g.vertices.length)
    (hd : ∀ i ∈ is, outCap (g.edges.map Edge.skel) i = (dd i).toNat) :
    ∃ g', addSlack page is g = .ok g' ∧
      buildFrom g (is.flatMap (fun i => slackOp page (dd i) i)) = .ok g' := by
  induction is generalizing g with
  | nil => exact ⟨g, rfl, rfl⟩
  | cons i is ih =>
    rw [List.nodup_cons] at hnd
    have hlt := hi i (List.mem_cons_self ..)
    rw [addSlack, vertexOutCapacity_spec hf.wf hlt (hd i (List.mem_cons_self ..)), List.flatMap_cons,
      buildFrom_append]
    have hnext : ∀ (g1 : Graph) (op : BuildOp), op.apply g = .ok g1 →
        (∀ v, v ≠ i → outCap [op.edgeOf] v = 0) →
        ∃ g', addSlack page is g1 = .ok g' ∧
          buildFrom g1 (is.flatMap (fun i => slackOp page (dd i) i)) = .ok g' := by
      intro g1 op hop hz
      obtain ⟨a, b⟩ := apply_skel hop
      refine ih hnd.2 g1 (fresh_apply hf op hop) ?_ ?_
      · intro j hj; rw [b]; exact hi j (List.mem_cons_of_mem _ hj)
      · intro j hj
        rw [a, outCap_append, hd j (List.mem_cons_of_mem _ hj),
          hz j (fun h => hnd.1 (h ▸ hj)), Nat.add_zero]
    simp only [slackOp]
    by_cases h1 : dd i > page
    · rw [if_pos h1, if_pos h1]
      have hop : ∃ g1, BuildOp.apply g (.fromSource emptyIndex (dd i - page) i) = .ok g1 := by
        simp only [BuildOp.apply, Graph.addEdgeFromSource]
        rw [if_neg (by simp [hf.state]), if_neg (by omega)]
        exact ⟨_, rfl⟩
      obtain ⟨g1, hop⟩ := hop
      obtain ⟨g', x, y⟩ := hnext g1 _ hop (by intro v _; simp [outCap, BuildOp.edgeOf])
      refine ⟨g', ?_, ?_⟩
      · rw [show g.addEdgeFromSource emptyIndex (dd i - page) i = .ok g1 from hop]; exact x
      · simp only [buildFrom, hop]; exact y
    · rw [if_neg h1, if_neg h1]
      by_cases h2 : dd i < page
      · rw [if_pos h2, if_pos h2]
        have hop : ∃ g1, BuildOp.apply g (.toSink emptyIndex (page - dd i) i) = .ok g1 := by
          simp only [BuildOp.apply, Graph.addEdgeToSink]
          rw [if_neg (by simp [hf.state]), if_neg (by omega)]
          exact ⟨_, rfl⟩
        obtain ⟨g1, hop⟩ := hop
        obtain ⟨g', x, y⟩ := hnext g1 _ hop (by
          intro v hv
          simp [outCap, BuildOp.edgeOf, Ne.symm hv])
        refine ⟨g', ?_, ?_⟩
        · rw [show g.addEdgeToSink emptyIndex (page - dd i) i = .ok g1 from hop]; exact x
        · simp only [buildFrom, hop]; exact y
      · rw [if_neg h2, if_neg h2]
        simp only [buildFrom]
        exact ih hnd.2 g hf (fun j hj => hi j (List.mem_cons_of_mem _ hj))
          (fun j hj => hd j (List.mem_cons_of_mem _ hj))

/-- Lists accepted by `insert` -/
def ListInfo.Ok (tableSize : Nat) (page : UInt64) (l : ListInfo) : Prop :=
  l.h0 < tableSize ∧ l.h1 < tableSize ∧ l.len ≤ page ∧ l.index ≠ emptyIndex

theorem insertAll_spec (a : Allocator) (ls : List ListInfo) (ha : a.allocated = false)
    (hf : Fresh a.graph) (hls : ∀ l ∈ ls, l.Ok a.graph.vertices.length a.page) :
    ∃ g', a.insertAll ls = .ok { a with graph := g' } ∧ buildFrom a.graph (ls.map listOp) = .ok g' := by
  induction ls generalizing a with
  | nil => exact ⟨a.graph, rfl, rfl⟩
  | cons l ls ih =>
    obtain ⟨h0, h1, h2, h3⟩ := hls l (List.mem_cons_self ..)
    have hop : ∃ g1, BuildOp.apply a.graph (listOp l) = .ok g1 := by
      simp only [listOp, BuildOp.apply, Graph.addEdge]
      rw [if_neg (by simp [hf.state]), if_neg (by omega), if_neg (by omega)]
      exact ⟨_, rfl⟩
    obtain ⟨g1, hop⟩ := hop
    have hins : a.insert l = .ok { a with graph := g1 } := by
      unfold Allocator.insert
      have hle : ¬ l.len > a.page := by
        intro h
        have h' := UInt64.lt_iff_toNat_lt.mp h
        have h2' := UInt64.le_iff_toNat_le.mp h2
        omega
      rw [if_neg (by simp [ha]), if_neg h3, if_neg hle,
        show a.graph.addEdge l.index l.len l.h0 l.h1 = .ok g1 from hop]
    obtain ⟨g', x, y⟩ := ih { a with graph := g1 } ha (fresh_apply hf _ hop) (by
      intro l' hl'
      have := hls l' (List.mem_cons_of_mem _ hl')
      simp only
      rw [(apply_skel hop).2]; exact this)
    refine ⟨g', ?_, ?_⟩
    · rw [Allocator.insertAll, hins]; exact x
    · simp only [List.map_cons, buildFrom, hop]; exact y

/-! ## Loads -/

/-- What a list has in its second bucket (`b = true`) or in its first one, from its edge -/
def lv (b : Bool) (e : Edge) : Nat := if e.valueIndex = emptyIndex then 0 else (e.flowAlong b).toNat

/-- Contribution of an edge to the load of `v` -/
def contrib (v : Nat) (e : Edge) : Nat :=
  (if e.stop = .inner v then lv true e else 0) + (if e.start = .inner v then lv false e else 0)

theorem sum_idxs_zip (f : Nat → Nat) (P : Edge → Bool) (F : Edge → Nat) (suf : List Edge) (k : Nat)
    (h : ∀ i e, suf[i]? = some e → f (k + i) = F e) :
    (((((suf.zipIdx k).filter (fun x => P x.1)).map (fun x => (⟨false, x.2⟩ : EdgePtr)))).map
      (fun p => f p.index)).sum = (suf.map (fun e => if P e then F e else 0)).sum := by
  induction suf generalizing k with
  | nil => rfl
  | cons e es ih =>
    have h' : ∀ i e, es[i]? = some e → f (k + 1 + i) = F e := by
      intro i x hx
      rw [show k + 1 + i = k + (i + 1) by omega]
      exact h (i + 1) x (by simpa using hx)
    have h0 : f k = F e := by simpa using h 0 e rfl
    simp only [List.zipIdx_cons, List.filter_cons, List.map_cons, List.sum_cons]
    by_cases hP : P e
    · simp only [hP, if_true, List.map_cons, List.sum_cons, h0, ih (k + 1) h']
    · simp only [hP, Bool.false_eq_true, if_false, ih (k + 1) h', Nat.zero_add]

theorem ptrLoad_eq (es : List Edge) (v : Nat) : ptrLoad es v = (es.map (contrib v)).sum := by
  have h : ∀ b i e, es[i]? = some e → val es b (0 + i) = lv b e := by
    intro b i e he
    simp [val, he, lv]
  unfold ptrLoad idxs
  rw [sum_idxs_zip (val es true) _ (lv true) es 0 (h true),
    sum_idxs_zip (val es false) _ (lv false) es 0 (h false)]
  unfold contrib
  rw [List.sum_map_add]
  simp [stopsAt, startsAt]

/-- The items of the specification -/
def itemOf (l : ListInfo) : Item := ⟨l.h0, l.h1, l.len.toNat⟩

/-- The parts read on the edges -/
def partOf (e : Edge) : Nat × Nat := (e.flow.toNat, e.recFlow.toNat)

theorem load_eq (ls : List ListInfo) (es : List Edge)
    (h : es.map Edge.skel = (ls.map listOp).map BuildOp.edgeOf)
    (hi : ∀ l ∈ ls, l.index ≠ emptyIndex) (v : Nat) :
    load (ls.map itemOf) (es.map partOf) v = (es.map (contrib v)).sum := by
  induction ls generalizing es with
  | nil =>
    cases es with
    | nil => rfl
    | cons e es => simp at h
  | cons l ls ih =>
    cases es with
    | nil => simp at h
    | cons e es =>
      simp only [List.map_cons, List.cons.injEq, Edge.skel, listOp, BuildOp.edgeOf, Prod.mk.injEq] at h
      obtain ⟨⟨h1, h2, h3, h4⟩, h5⟩ := h
      have := ih es h5 (fun l hl => hi l (List.mem_cons_of_mem _ hl))
      unfold load at this ⊢
      simp only [List.map_cons, List.zip_cons_cons, List.sum_cons, this]
      congr 1
      have hne : e.valueIndex ≠ emptyIndex := by rw [h1]; exact hi l (List.mem_cons_self ..)
      simp only [contrib, itemOf, partOf, lv, hne, if_false, Edge.flowAlong, if_true, h3, h4,
        VertexPtr.inner.injEq, Bool.false_eq_true]
      by_cases a : l.h0 = v <;> by_cases b : l.h1 = v <;> simp [a, b]; omega

theorem contrib_slack {e : Edge} (h : e.valueIndex = emptyIndex) (v : Nat) : contrib v e = 0 := by
  simp [contrib, lv, h]

/-! ## The effect of the edges to the source and to the sink -/

/-- Net amount a full edge brings to `v` -/
def fullAt (v : Nat) (s : UInt64 × UInt64 × VertexPtr × VertexPtr) : Int :=
  (if s.2.2.2 = .inner v then (s.2.1.toNat : Int) else 0) -
    (if s.2.2.1 = .inner v then (s.2.1.toNat : Int) else 0)

theorem fullAt_slack (page : UInt64) (dd : Nat → UInt64) (is : List Nat) (hnd : is.Nodup) (v : Nat) :
    (((is.flatMap (fun i => slackOp page (dd i) i)).map BuildOp.edgeOf).map (fullAt v)).sum =
      if v ∈ is then ((dd v).toNat : Int) - page.toNat else 0 := by
  induction is with
  | nil => simp
  | cons i is ih =>
    rw [List.nodup_cons] at hnd
    simp only [List.flatMap_cons, List.map_append, List.sum_append, ih hnd.2]
    have h1 : (((slackOp page (dd i) i).map BuildOp.edgeOf).map (fullAt v)).sum =
        if i = v then ((dd v).toNat : Int) - page.toNat else 0 := by
      unfold slackOp
      split
      · rename_i h
        have hle : page.toNat ≤ (dd i).toNat := Nat.le_of_lt (UInt64.lt_iff_toNat_lt.mp h)
        have hs : (dd i - page).toNat = (dd i).toNat - page.toNat :=
          UInt64.toNat_sub_of_le _ _ (UInt64.le_iff_toNat_le.mpr hle)
        by_cases hv : i = v
        · subst hv; simp [fullAt, BuildOp.edgeOf, hs]; omega
        · simp [fullAt, BuildOp.edgeOf, hv]
      · rename_i h
        split
        · rename_i h'
          have hle : (dd i).toNat ≤ page.toNat := Nat.le_of_lt (UInt64.lt_iff_toNat_lt.mp h')
          have hs : (page - dd i).toNat = page.toNat - (dd i).toNat :=
            UInt64.toNat_sub_of_le _ _ (UInt64.le_iff_toNat_le.mpr hle)
          by_cases hv : i = v
          · subst hv; simp [fullAt, BuildOp.edgeOf, hs]; omega
          · simp [fullAt, BuildOp.edgeOf, hv]
        · rename_i h'
          have h1 : ¬ page.toNat < (dd i).toNat := fun x => h (UInt64.lt_iff_toNat_lt.mpr x)
          have h2 : ¬ (dd i).toNat < page.toNat := fun x => h' (UInt64.lt_iff_toNat_lt.mpr x)
          by_cases hv : i = v
          · subst hv; simp; omega
          · simp [hv]
    rw [h1]
    by_cases hv : i = v
    · subst hv; simp [hnd.1]
    · simp [hv, Ne.symm hv]

theorem fullAt_skel (v : Nat) (e : Edge) : fullAt v e.skel =
    (if e.stop = .inner v then (e.capacity.toNat : Int) else 0) -
      (if e.start = .inner v then (e.capacity.toNat : Int) else 0) := rfl

theorem sat_flow_cap {e : Edge} (hb : e.flow.toNat + e.recFlow.toNat = e.capacity.toNat)
    (h : e.flow = 0) : e.recFlow.toNat = e.capacity.toNat := by
  rw [h] at hb; simpa using hb

theorem sum_map_int (es : List Edge) (f : Edge → Nat) :
    (((es.map f).sum : Nat) : Int) = esum (fun e => (f e : Int)) es := by
  induction es with
  | nil => rfl
  | cons e es ih => simp only [List.map_cons, List.sum_cons, esum_cons]; push_cast; rw [ih]

/-- Load of a bucket: its out-degree, minus what comes from the source, plus what goes to the sink -/
theorem load_conserved (esL esS : List Edge) (v : Nat) (hb : Balanced esL)
    (hL : ∀ e ∈ esL, e.valueIndex ≠ emptyIndex)
    (hc : excess (esL ++ esS) (.inner v) = 0) :
    (((esL.map (contrib v)).sum : Nat) : Int) =
      outCap (esL.map Edge.skel) v - esum (Edge.at (.inner v)) esS := by
  unfold excess at hc
  rw [esum_append] at hc
  have h : ∀ es : List Edge, Balanced es → (∀ e ∈ es, e.valueIndex ≠ emptyIndex) →
      (((es.map (contrib v)).sum : Nat) : Int) =
        outCap (es.map Edge.skel) v + esum (Edge.at (.inner v)) es := by
    intro es
    induction es with
    | nil => intro _ _; simp [outCap]
    | cons e es ih =>
      intro hb hl
      have := ih (fun x hx => hb x (List.mem_cons_of_mem _ hx))
        (fun x hx => hl x (List.mem_cons_of_mem _ hx))
      have hbe := hb e (List.mem_cons_self ..)
      have hle := hl e (List.mem_cons_self ..)
      simp only [outCap, List.map_cons, List.sum_cons, esum_cons] at this ⊢
      push_cast
      rw [this]
      simp only [contrib, lv, hle, if_false, Edge.flowAlong, if_true, Bool.false_eq_true, Edge.at,
        Edge.fl, Edge.skel]
      by_cases h1 : e.stop = .inner v <;> by_cases h2 : e.start = .inner v <;> simp [h1, h2] <;> omega
  rw [h esL hb hL]
  omega

theorem slack_bound (esS : List Edge) (S : VertexPtr → Bool) (v : Nat) (hb : Balanced esS)
    (hs : Saturated esS S) (hss : ∀ e ∈ esS, (e.start = .source ∧ e.stop ≠ .sink) ∨
      (e.stop = .sink ∧ e.start ≠ .source)) :
    (S (.inner v) = true → esum (Edge.at (.inner v)) esS ≤ ((esS.map Edge.skel).map (fullAt v)).sum) ∧
    (S (.inner v) = false → ((esS.map Edge.skel).map (fullAt v)).sum ≤ esum (Edge.at (.inner v)) esS) := by
  have heq : ((esS.map Edge.skel).map (fullAt v)).sum = esum (fun e => fullAt v e.skel) esS := by
    simp [esum, Function.comp_def]
  rw [heq]
  constructor
  · intro hv
    apply esum_le
    intro e he
    have hbe := hb e he
    obtain ⟨h1, h2⟩ := hs.2.2 e he
    rw [fullAt_skel]
    simp only [Edge.at, Edge.fl]
    rcases hss e he with ⟨ha, hb'⟩ | ⟨ha, hb'⟩
    · rw [ha]; simp only [reduceCtorEq, if_false]
      split <;> omega
    · rw [ha]; simp only [reduceCtorEq, if_false]
      split
      · rename_i h
        have := sat_flow_cap hbe (h1 (by rw [h]; exact hv) (by rw [ha]; exact hs.2.1))
        omega
      · omega
  · intro hv
    apply esum_le
    intro e he
    have hbe := hb e he
    obtain ⟨h1, h2⟩ := hs.2.2 e he
    rw [fullAt_skel]
    simp only [Edge.at, Edge.fl]
    rcases hss e he with ⟨ha, hb'⟩ | ⟨ha, hb'⟩
    · rw [ha]; simp only [reduceCtorEq, if_false]
      split
      · rename_i h
        have := sat_flow_cap hbe (h1 (by rw [ha]; exact hs.1) (by rw [h]; exact hv))
        omega
      · omega
    · rw [ha]; simp only [reduceCtorEq, if_false]
      split <;> omega

/-! ## Weighted sums of loads -/

/-- Weighted total of the loads, by lists -/
def weigh (w : Nat → Nat) (items : List Item) (parts : List (Nat × Nat)) : Nat :=
  ((items.zip parts).map (fun x => w x.1.h0 * x.2.1 + w x.1.h1 * x.2.2)).sum

theorem weigh_eq (w : Nat → Nat) (n : Nat) (items : List Item) (parts : List (Nat × Nat))
    (h : ∀ it ∈ items, it.h0 < n ∧ it.h1 < n) :
    ∑ v ∈ Finset.range n, w v * load items parts v = weigh w items parts := by
  induction items generalizing parts with
  | nil => simp [load, weigh]
  | cons it items ih =>
    cases parts with
    | nil => simp [load, weigh]
    | cons p parts =>
      have h0 := h it (List.mem_cons_self ..)
      have := ih parts (fun x hx => h x (List.mem_cons_of_mem _ hx))
      simp only [load, weigh, List.zip_cons_cons, List.map_cons, List.sum_cons] at this ⊢
      simp only [Nat.mul_add, Finset.sum_add_distrib, this]
      simp only [Nat.add_right_cancel_iff, mul_ite, mul_zero]
      rw [Finset.sum_ite_eq, Finset.sum_ite_eq, if_pos (Finset.mem_range.mpr h0.1),
        if_pos (Finset.mem_range.mpr h0.2)]

theorem weigh_mono (w : Nat → Nat) (items : List Item) (parts parts' : List (Nat × Nat))
    (hl : parts.length = items.length) (hl' : parts'.length = items.length)
    (h : ∀ (i : Nat) it p p', items[i]? = some it → parts[i]? = some p → parts'[i]? = some p' →
      w it.h0 * p.1 + w it.h1 * p.2 ≤ w it.h0 * p'.1 + w it.h1 * p'.2) :
    weigh w items parts ≤ weigh w items parts' := by
  induction items generalizing parts parts' with
  | nil => simp [weigh]
  | cons it items ih =>
    cases parts with
    | nil => simp at hl
    | cons p parts =>
      cases parts' with
      | nil => simp at hl'
      | cons p' parts' =>
        have := ih parts parts' (by simpa using hl) (by simpa using hl')
          (fun i it p p' a b c => h (i + 1) it p p' (by simpa using a) (by simpa using b)
            (by simpa using c))
        have h0 := h 0 it p p' rfl rfl rfl
        simp only [weigh, List.zip_cons_cons, List.map_cons, List.sum_cons] at this ⊢
        omega

theorem stash_eq (items : List Item) (parts : List (Nat × Nat)) (hl : parts.length = items.length)
    (h : ∀ x ∈ items.zip parts, x.2.1 + x.2.2 ≤ x.1.len) :
    stashSize items parts + weigh (fun _ => 1) items parts = (items.map Item.len).sum := by
  induction items generalizing parts with
  | nil => simp [stashSize, weigh]
  | cons it items ih =>
    cases parts with
    | nil => simp at hl
    | cons p parts =>
      have := ih parts (by simpa using hl) (fun x hx => h x (List.mem_cons_of_mem _ hx))
      have h0 := h (it, p) (List.mem_cons_self ..)
      simp only [stashSize, weigh, List.zip_cons_cons, List.map_cons, List.sum_cons] at this ⊢
      simp only at h0
      omega

end Verif.Tethys
