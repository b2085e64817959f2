import Verif.Tethys.EncoderLemmas
import Verif.Tethys.StoreSpec
import Mathlib.Data.List.Induction

/-! # Helper lemmas: what the store builder writes -/

namespace Verif.Tethys

open Spec

/-! ## Insertions -/

/-- The first bucket of a key -/
def bucket0 (n : Nat) (hash : CoreKey → UInt64 × UInt64) (key : CoreKey) : Nat :=
  (hash key).1.toNat % (n / 2)

/-- The second bucket of a key -/
def bucket1 (n : Nat) (hash : CoreKey → UInt64 × UInt64) (key : CoreKey) : Nat :=
  n / 2 + (hash key).2.toNat % (n - n / 2)

/-- What the allocator receives for the list at position `x.2` -/
def infoOf (n : Nat) (hash : CoreKey → UInt64 × UInt64) (x : (CoreKey × List Index) × Nat) : ListInfo :=
  ⟨bucket0 n hash x.1.1, bucket1 n hash x.1.1, UInt64.ofNat x.1.2.length + 6, UInt64.ofNat x.2⟩

/-- The lists the allocator accepts, with their positions -/
def placed (page : Nat) (ins : List (CoreKey × List Index)) : List ((CoreKey × List Index) × Nat) :=
  ins.zipIdx.filter (fun x => fits page x.1)

theorem placed_fst (page : Nat) (ins : List (CoreKey × List Index)) :
    (placed page ins).map Prod.fst = ins.filter (fits page) := by
  unfold placed
  have : ∀ k, ((ins.zipIdx k).filter (fun x => fits page x.1)).map Prod.fst = ins.filter (fits page) := by
    induction ins with
    | nil => intro k; rfl
    | cons x xs ih =>
      intro k
      simp only [List.zipIdx_cons, List.filter_cons]
      split <;> simp [ih]
  exact this 0

theorem placed_append (page : Nat) (ins : List (CoreKey × List Index)) (x : CoreKey × List Index) :
    placed page (ins ++ [x]) = placed page ins ++ (if fits page x then [(x, ins.length)] else []) := by
  unfold placed
  rw [List.zipIdx_append, List.filter_append]
  congr 1
  by_cases h : fits page x <;> simp [h]

theorem mem_placed {page : Nat} {ins : List (CoreKey × List Index)} {x} (h : x ∈ placed page ins) :
    ins[x.2]? = some x.1 ∧ fits page x.1 = true := by
  unfold placed at h
  rw [List.mem_filter] at h
  refine ⟨?_, h.2⟩
  have := List.mem_zipIdx_iff_getElem?.mp h.1
  simpa using this

theorem insertAll_append (a : Allocator) (xs ys : List ListInfo) :
    a.insertAll (xs ++ ys) = match a.insertAll xs with
      | .error f => .error f
      | .ok a' => a'.insertAll ys := by
  induction xs generalizing a with
  | nil => rfl
  | cons x xs ih =>
    simp only [List.cons_append, Allocator.insertAll]
    cases a.insert x with
    | error f => rfl
    | ok a' => exact ih a'

theorem builder_insertAll_append (b : Builder) (xs ys : List (CoreKey × List Index)) :
    b.insertAll (xs ++ ys) = (b.insertAll xs).insertAll ys := by
  induction xs generalizing b with
  | nil => rfl
  | cons x xs ih => simp only [List.cons_append, Builder.insertAll]; exact ih _

theorem le_sum_of_mem {xs : List (CoreKey × List Index)} {x} (h : x ∈ xs) :
    x.2.length + 6 ≤ (xs.map (fun x => x.2.length + 6)).sum :=
  List.single_le_sum (by simp) _ (List.mem_map.mpr ⟨x, h, rfl⟩)

theorem length_le_sum (xs : List (CoreKey × List Index)) :
    6 * xs.length ≤ (xs.map (fun x => x.2.length + 6)).sum := by
  induction xs with
  | nil => simp
  | cons x xs ih => simp only [List.map_cons, List.sum_cons, List.length_cons]; omega

theorem infoOf_len {n : Nat} {hash} {x : (CoreKey × List Index) × Nat} (h : x.1.2.length + 6 < 2 ^ 64) :
    (infoOf n hash x).len.toNat = x.1.2.length + 6 := by
  simp only [infoOf]
  rw [UInt64.toNat_add, UInt64.toNat_ofNat', Nat.mod_eq_of_lt (a := x.1.2.length) (by omega),
    show UInt64.toNat 6 = 6 from rfl, Nat.mod_eq_of_lt h]

theorem ofNat_ne_empty {i : Nat} (h : i < 2 ^ 64 - 1) : UInt64.ofNat i ≠ emptyIndex := by
  intro he
  have := congrArg UInt64.toNat he
  unfold emptyIndex at this
  rw [UInt64.toNat_ofNat', UInt64.toNat_ofNat', Nat.mod_eq_of_lt (by omega),
    Nat.mod_eq_of_lt (by omega)] at this
  omega

theorem bucket0_lt {n : Nat} (hn : 2 ≤ n) (hash) (k : CoreKey) : bucket0 n hash k < n / 2 :=
  Nat.mod_lt _ (by omega)

theorem bucket1_lt {n : Nat} (hn : 2 ≤ n) (hash) (k : CoreKey) :
    n / 2 ≤ bucket1 n hash k ∧ bucket1 n hash k < n := by
  unfold bucket1
  have := Nat.mod_lt (hash k).2.toNat (y := n - n / 2) (by omega)
  omega

theorem infoOf_ok {page n : Nat} {hash} {ins : List (CoreKey × List Index)} (hn : 2 ≤ n)
    (hs : SmallEnough page ins) {x} (h : x ∈ placed page ins) :
    (infoOf n hash x).Ok n (UInt64.ofNat (page / 8)) := by
  obtain ⟨h1, h2⟩ := mem_placed h
  have hm := le_sum_of_mem (List.mem_of_getElem? h1)
  have hl := length_le_sum ins
  have hi := (List.getElem?_eq_some_iff.mp h1).1
  unfold SmallEnough at hs
  refine ⟨?_, (bucket1_lt hn hash _).2, ?_, ?_⟩
  · have := bucket0_lt hn hash x.1.1
    show bucket0 _ _ _ < _
    omega
  · rw [UInt64.le_iff_toNat_le, infoOf_len (by omega), UInt64.toNat_ofNat', Nat.mod_eq_of_lt (by omega)]
    exact of_decide_eq_true h2
  · exact ofNat_ne_empty (by omega)

theorem insertAll_builder {page n : Nat} (hash : CoreKey → UInt64 × UInt64) (hn : 2 ≤ n)
    (ins : List (CoreKey × List Index)) (hs : SmallEnough page ins) :
    ∃ b0 a0 a, Builder.new page n hash = .ok b0 ∧ Allocator.new n (UInt64.ofNat (page / 8)) = .ok a0 ∧
      a0.insertAll ((placed page ins).map (infoOf n hash)) = .ok a ∧
      b0.insertAll ins = ⟨page, n, hash, a, ins, false⟩ := by
  obtain ⟨g0, hg0⟩ : ∃ g0, Graph.new n = .ok g0 := by
    unfold Graph.new; rw [if_neg (by omega)]; exact ⟨_, rfl⟩
  have hf0 := fresh_new hg0
  have hv0 : g0.vertices.length = n := by
    unfold Graph.new at hg0; rw [if_neg (by omega)] at hg0; cases hg0; simp
  have ha0 : Allocator.new n (UInt64.ofNat (page / 8)) =
      .ok ⟨g0, [], n, UInt64.ofNat (page / 8), false⟩ := by unfold Allocator.new; rw [hg0]
  have hb0 : Builder.new page n hash =
      .ok ⟨page, n, hash, ⟨g0, [], n, UInt64.ofNat (page / 8), false⟩, [], false⟩ := by
    unfold Builder.new; rw [ha0]
  generalize ha : (⟨g0, [], n, UInt64.ofNat (page / 8), false⟩ : Allocator) = a0 at hb0 ha0
  suffices h : ∃ a, a0.insertAll ((placed page ins).map (infoOf n hash)) = .ok a ∧
      (⟨page, n, hash, a0, [], false⟩ : Builder).insertAll ins = ⟨page, n, hash, a, ins, false⟩ by
    obtain ⟨a, h1, h2⟩ := h
    exact ⟨_, a0, a, hb0, ha0, h1, h2⟩
  have hspec := fun ls => insertAll_spec a0 ls (by rw [← ha]) (by rw [← ha]; exact hf0)
  rw [show a0.graph.vertices.length = n by rw [← ha]; exact hv0,
    show a0.page = UInt64.ofNat (page / 8) by rw [← ha]] at hspec
  clear hb0 ha0
  induction ins using List.reverseRecOn with
  | nil => exact ⟨a0, rfl, rfl⟩
  | append_singleton ins x ih =>
    have hs' : SmallEnough page ins := by
      unfold SmallEnough at hs ⊢
      simp only [List.map_append, List.sum_append] at hs
      omega
    obtain ⟨a, h1, h2⟩ := ih hs'
    obtain ⟨g', h3, -⟩ := hspec ((placed page (ins ++ [x])).map (infoOf n hash)) (by
      intro l hl
      obtain ⟨y, hy, rfl⟩ := List.mem_map.mp hl
      exact infoOf_ok hn hs hy)
    obtain ⟨g1, h4, -⟩ := hspec ((placed page ins).map (infoOf n hash)) (by
      intro l hl
      obtain ⟨y, hy, rfl⟩ := List.mem_map.mp hl
      exact infoOf_ok hn hs' hy)
    have haa : a.page = UInt64.ofNat (page / 8) := by
      rw [h1] at h4; rw [Except.ok.inj h4]
    have hx : x.2.length + 6 < 2 ^ 64 := by
      unfold SmallEnough at hs
      have := le_sum_of_mem (xs := ins ++ [x]) (x := x) (by simp)
      omega
    have hpage : (UInt64.ofNat (page / 8)).toNat = page / 8 := by
      unfold SmallEnough at hs
      rw [UInt64.toNat_ofNat', Nat.mod_eq_of_lt (by omega)]
    have hstep : ∀ r, a.insert (infoOf n hash (x, ins.length)) = r →
        (b0' : Builder) → b0' = ⟨page, n, hash, a, ins, false⟩ →
        (b0'.insertList x.1 x.2).1 = match r with
          | .error _ => ⟨page, n, hash, a, ins ++ [x], false⟩
          | .ok a' => ⟨page, n, hash, a', ins ++ [x], false⟩ := by
      rintro r hr b0' rfl
      unfold Builder.insertList
      simp only [Bool.false_eq_true, if_false]
      rw [if_neg (by omega)]
      have he : (⟨(hash x.1).1.toNat % (n / 2), n / 2 + (hash x.1).2.toNat % (n - n / 2),
          UInt64.ofNat x.2.length + 6, UInt64.ofNat ((ins ++ [(x.1, x.2)]).length - 1)⟩ : ListInfo) =
          infoOf n hash (x, ins.length) := by
        simp [infoOf, bucket0, bucket1]
      simp only [he, hr]
      cases r <;> rfl
    rw [builder_insertAll_append, h2]
    simp only [Builder.insertAll]
    rw [placed_append] at h3 ⊢
    by_cases hfit : fits page x
    · rw [if_pos hfit, List.map_append, insertAll_append, h1] at h3
      rw [if_pos hfit, List.map_append, insertAll_append, h1]
      simp only [List.map_cons, List.map_nil, Allocator.insertAll] at h3 ⊢
      cases hr : a.insert (infoOf n hash (x, ins.length)) with
      | error f => rw [hr] at h3; cases h3
      | ok a' =>
        simp only
        exact ⟨a', rfl, hstep _ hr _ rfl⟩
    · rw [if_neg hfit, List.append_nil]
      refine ⟨a, h1, ?_⟩
      have hr : a.insert (infoOf n hash (x, ins.length)) = .error .invalidArgument := by
        apply C22_insert_rejects
        refine Or.inr (Or.inr ?_)
        rw [haa]
        show UInt64.ofNat (page / 8) < UInt64.ofNat x.2.length + 6
        have hlen := infoOf_len (n := n) (hash := hash) (x := (x, ins.length)) hx
        simp only [infoOf] at hlen
        rw [UInt64.lt_iff_toNat_lt, hlen, hpage]
        unfold fits at hfit
        simp at hfit
        omega
      exact hstep _ hr _ rfl

/-! ## The pages -/

/-- A list with the number of entries assigned to its two buckets -/
structure Placed where
  key : CoreKey
  vals : List Index
  a0 : Nat
  a1 : Nat

/-- Number of values in the first bucket -/
def Placed.k0 (r : Placed) : Nat := fit r.a0 r.vals.length
/-- Number of values in the second bucket -/
def Placed.k1 (r : Placed) : Nat := fit r.a1 r.vals.length

/-- The part of the list in the stash -/
def Placed.mid (r : Placed) : List Index := (r.vals.take (r.vals.length - r.k0)).drop r.k1

/-- The bytes of the list in the stash file -/
def Placed.stashBytes (r : Placed) : List UInt8 :=
  if r.mid = [] then [] else r.key.toList ++ leBytes 8 r.mid.length ++ r.mid.flatMap indexBytes

/-- A list of which some entries are not assigned to a bucket -/
def Placed.stashed (r : Placed) : Bool := decide (r.a0 + r.a1 < r.vals.length + 6)

theorem idxs_get (P : Edge → Bool) (es : List Edge) :
    (idxs P es).map (fun p => es[p.index]?) = (es.filter P).map some := by
  unfold idxs
  have key : ∀ (suf pre : List Edge),
      (((suf.zipIdx pre.length).filter (fun x => P x.1)).map (fun x => (⟨false, x.2⟩ : EdgePtr))).map
        (fun p => (pre ++ suf)[p.index]?) = (suf.filter P).map some := by
    intro suf
    induction suf with
    | nil => intro pre; rfl
    | cons e es ih =>
      intro pre
      have h := ih (pre ++ [e])
      simp only [List.length_append, List.length_cons, List.length_nil, Nat.zero_add,
        List.append_assoc, List.singleton_append] at h
      simp only [List.zipIdx_cons, List.filter_cons]
      by_cases hP : P e
      · simp only [hP, if_true, List.map_cons, h]
        simp
      · simp only [hP, Bool.false_eq_true, if_false, h]
  exact key es []

/-- The parts encoded in a bucket -/
def bucketChunks (data : List (CoreKey × List Index)) (es : List Edge) (v : Nat) :
    List (CoreKey × List Index) :=
  (es.filter (stopsAt (.inner v))).flatMap (chunk data .incoming) ++
    (es.filter (startsAt (.inner v))).flatMap (chunk data .outgoing)

/-- The page of a bucket before encryption -/
def pageOf (page : Nat) (cs : List (CoreKey × List Index)) : List UInt8 :=
  cs.flatMap chunkBytes ++ List.replicate (page - (cs.flatMap chunkBytes).length) 0

/-- The page as written -/
def ValueEncoder.seal : ValueEncoder → Nat → List UInt8 → List UInt8
  | .separate, _, p => p
  | .encrypt c k, v, p => xorStream c k v p

theorem xorStream_length (c : Cipher) (k : Vector UInt8 32) (v : Nat) (p : List UInt8) :
    (xorStream c k v p).length = p.length := by simp [xorStream]

theorem seal_length (enc : ValueEncoder) (v : Nat) (p : List UInt8) : (enc.seal v p).length = p.length := by
  cases enc with
  | separate => rfl
  | encrypt c k => exact xorStream_length c k v p

theorem finishSeparate_spec {done todo : List UInt8} :
    ∃ w, finishSeparate (done ++ todo) done.length todo.length =
      .ok (done ++ List.replicate todo.length 0, w) ∧ w = todo.length := by
  unfold finishSeparate
  by_cases h : todo.length = 0
  · rw [if_pos h]
    have : todo = [] := List.length_eq_zero_iff.mp h
    subst this
    exact ⟨0, by simp, rfl⟩
  · rw [if_neg h, writeAt_spec (by simp)]
    refine ⟨todo.length, ?_, rfl⟩
    simp

theorem encodeBucket_spec (enc : ValueEncoder) (page : Nat) (g : Graph) (data : List (CoreKey × List Index))
    (v : Nat) (vx : Vertex) (hv : g.vertices[v]? = some vx)
    (hin : vx.inEdges = idxs (stopsAt (.inner v)) g.edges)
    (hout : vx.outEdges = idxs (startsAt (.inner v)) g.edges)
    (hok : ∀ e ∈ g.edges, EdgeOk data e)
    (hfit : ((bucketChunks data g.edges v).flatMap chunkBytes).length ≤ page) :
    encodeBucket enc page g data v = .ok (enc.seal v (pageOf page (bucketChunks data g.edges v))) := by
  unfold encodeBucket
  rw [hv]
  simp only
  unfold bucketChunks at hfit
  simp only [List.flatMap_append, List.length_append] at hfit
  have h1 := encodeEdges_spec g.edges data .incoming vx.inEdges _ (by rw [hin]; exact idxs_get _ _)
    (fun e he => hok e (List.mem_of_mem_filter he)) [] (List.replicate page 255) (by
      rw [List.length_replicate]; omega)
  simp only [List.nil_append, List.length_nil] at h1
  rw [h1]
  simp only
  have h2 := encodeEdges_spec g.edges data .outgoing vx.outEdges _ (by rw [hout]; exact idxs_get _ _)
    (fun e he => hok e (List.mem_of_mem_filter he))
    (((g.edges.filter (stopsAt (.inner v))).flatMap (chunk data .incoming)).flatMap chunkBytes)
    ((List.replicate page 255).drop
      (((g.edges.filter (stopsAt (.inner v))).flatMap (chunk data .incoming)).flatMap chunkBytes).length)
    (by rw [List.length_drop, List.length_replicate]; omega)
  rw [h2]
  simp only
  rw [← List.flatMap_append, List.drop_drop, ← List.length_append, ← List.flatMap_append]
  have hB : bucketChunks data g.edges v =
    (g.edges.filter (stopsAt (.inner v))).flatMap (chunk data .incoming) ++
    (g.edges.filter (startsAt (.inner v))).flatMap (chunk data .outgoing) := rfl
  rw [← hB]
  have hfit' : ((bucketChunks data g.edges v).flatMap chunkBytes).length ≤ page := by
    unfold bucketChunks
    rw [List.flatMap_append, List.length_append]; exact hfit
  clear hB
  generalize (bucketChunks data g.edges v) = cs at hfit' ⊢
  unfold pageOf
  generalize cs.flatMap chunkBytes = done at hfit' ⊢
  have htodo : ((List.replicate page (255 : UInt8)).drop done.length).length = page - done.length := by
    rw [List.length_drop, List.length_replicate]
  generalize (List.replicate page (255 : UInt8)).drop done.length = todo at htodo ⊢
  have hrem : (done ++ todo).length - done.length = todo.length := by rw [List.length_append]; omega
  rw [hrem]
  obtain ⟨w, hw, rfl⟩ := finishSeparate_spec (done := done) (todo := todo)
  rw [← htodo]
  cases enc with
  | separate =>
    simp only [ValueEncoder.finish, hw]
    rw [if_neg (by simp)]
    rfl
  | encrypt c k =>
    simp only [ValueEncoder.finish, hw]
    rw [if_neg (by rw [xorStream_length]; simp)]
    rfl

theorem encodeBuckets_spec (enc : ValueEncoder) (page : Nat) (g : Graph)
    (data : List (CoreKey × List Index)) (f : Nat → List UInt8) (vs : List Nat)
    (h : ∀ v ∈ vs, encodeBucket enc page g data v = .ok (f v)) :
    encodeBuckets enc page g data vs = .ok (vs.map f) := by
  induction vs with
  | nil => rfl
  | cons v vs ih =>
    unfold encodeBuckets
    rw [h v (List.mem_cons_self ..), ih (fun v hv => h v (List.mem_cons_of_mem _ hv))]
    rfl

/-! ## Sizes -/

theorem chunk_length_le (data : List (CoreKey × List Index)) (o : Orientation) (e : Edge) :
    ((chunk data o e).flatMap chunkBytes).length ≤
      8 * (if e.valueIndex = emptyIndex then 0 else (AssignInfo.of e o).assigned.toNat) := by
  unfold chunk
  split
  · simp
  · split
    · simp
    · rename_i d _
      split
      · simp
      · simp only [List.flatMap_cons, List.flatMap_nil, List.append_nil, chunkBytes_length]
        have hle : fit (AssignInfo.of e o).assigned.toNat d.2.length ≤ d.2.length := Nat.min_le_right _ _
        rw [subList_length _ _ _ hle]
        have : fit (AssignInfo.of e o).assigned.toNat d.2.length ≤ (AssignInfo.of e o).assigned.toNat - 3 :=
          Nat.min_le_left _ _
        omega

theorem bucketChunks_length_le (data : List (CoreKey × List Index)) (es : List Edge) (v : Nat) :
    ((bucketChunks data es v).flatMap chunkBytes).length ≤ 8 * (es.map (contrib v)).sum := by
  unfold bucketChunks
  rw [List.flatMap_append, List.length_append]
  induction es with
  | nil => simp
  | cons e es ih =>
    simp only [List.filter_cons, List.map_cons, List.sum_cons]
    have h1 := chunk_length_le data .incoming e
    have h2 := chunk_length_le data .outgoing e
    simp only [AssignInfo.of] at h1 h2
    have hc : contrib v e = (if e.stop = .inner v then (if e.valueIndex = emptyIndex then 0 else e.recFlow.toNat) else 0) +
      (if e.start = .inner v then (if e.valueIndex = emptyIndex then 0 else e.flow.toNat) else 0) := by
      simp [contrib, lv, Edge.flowAlong]
    rw [hc]
    by_cases a : e.stop = .inner v <;> by_cases b : e.start = .inner v <;>
      simp only [stopsAt, startsAt, a, b, decide_true, decide_false, if_true, if_false,
        List.flatMap_cons, List.flatMap_append, List.length_append, Bool.false_eq_true] at ih ⊢ <;>
      omega

theorem chunkBytes_length_mod (cs : List (CoreKey × List Index)) :
    (cs.flatMap chunkBytes).length % 8 = 0 := by
  induction cs with
  | nil => rfl
  | cons c cs ih =>
    rw [List.flatMap_cons, List.length_append, chunkBytes_length]
    omega

end Verif.Tethys
