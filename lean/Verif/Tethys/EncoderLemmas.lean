import Verif.Tethys.Store
import Verif.Tethys.AllocProps
import Mathlib.Data.List.TakeWhile

/-! # Helper lemmas: decoding what has been encoded -/

namespace Verif.Tethys

/-- The encoding of a part of a list -/
def chunkBytes (c : CoreKey × List Index) : List UInt8 :=
  leBytes 8 c.2.length ++ c.1.toList ++ c.2.flatMap indexBytes

theorem length_flatMap_indexBytes (vs : List Index) : (vs.flatMap indexBytes).length = 8 * vs.length := by
  induction vs with
  | nil => rfl
  | cons v vs ih => simp only [List.flatMap_cons, List.length_append, indexBytes_length, ih,
      List.length_cons]; omega

theorem chunkBytes_length (c : CoreKey × List Index) : (chunkBytes c).length = 24 + 8 * c.2.length := by
  simp only [chunkBytes, List.length_append, leBytes_length, Vector.length_toList,
    length_flatMap_indexBytes]

theorem readValues_spec (vs : List Index) (rest : List UInt8) :
    readValues vs.length (vs.flatMap indexBytes ++ rest) = .ok vs := by
  induction vs with
  | nil => rfl
  | cons v vs ih =>
    simp only [List.length_cons, readValues, List.flatMap_cons, List.append_assoc]
    rw [if_neg (by simp), List.drop_left' (indexBytes_length v), List.take_left' (indexBytes_length v),
      ih, bytesIndex_indexBytes]

theorem toList_inj {n : Nat} {a b : Vector UInt8 n} : a.toList = b.toList ↔ a = b := by
  constructor
  · intro h; exact Vector.toList_inj.mp h
  · rintro rfl; rfl

/-- What the decoder finds among the encoded parts: it stops at the first empty one. -/
def lookupChunk (key : CoreKey) (cs : List (CoreKey × List Index)) : List Index :=
  match (cs.takeWhile (fun c => !c.2.isEmpty)).find? (fun c => decide (c.1 = key)) with
  | some c => c.2
  | none => []

theorem decodeLoop_spec (key : CoreKey) (z : Nat) (hz : z = 0 ∨ 8 ≤ z) (cs : List (CoreKey × List Index))
    (hcs : ∀ c ∈ cs, c.2.length < 2 ^ 60) (fuel : Nat)
    (hf : (cs.flatMap chunkBytes ++ List.replicate z 0).length < fuel) :
    decodeLoop key fuel (cs.flatMap chunkBytes ++ List.replicate z 0) = .ok (lookupChunk key cs) := by
  induction cs generalizing fuel with
  | nil =>
    obtain ⟨fuel, rfl⟩ : ∃ f, fuel = f + 1 := ⟨fuel - 1, by omega⟩
    simp only [List.flatMap_nil, List.nil_append, decodeLoop, List.length_replicate]
    rcases hz with rfl | hz
    · simp [lookupChunk]
    · rw [if_neg (by omega), if_neg (by omega), List.take_replicate, Nat.min_eq_left hz,
        if_pos (by rfl)]
      rfl
  | cons c cs ih =>
    obtain ⟨fuel, rfl⟩ : ∃ f, fuel = f + 1 := ⟨fuel - 1, by omega⟩
    have hl := chunkBytes_length c
    have hc := hcs c (List.mem_cons_self ..)
    simp only [List.flatMap_cons, List.append_assoc] at hf ⊢
    generalize hR : List.flatMap chunkBytes cs ++ List.replicate z 0 = R at *
    have hlen : (chunkBytes c ++ R).length = 24 + 8 * c.2.length + R.length := by
      rw [List.length_append, hl]
    have htake : ofLeBytes ((chunkBytes c ++ R).take 8) = c.2.length := by
      unfold chunkBytes
      simp only [List.append_assoc]
      rw [List.take_left' (leBytes_length _ _), ofLeBytes_leBytes _ _ (by omega)]
    have hkey : ((chunkBytes c ++ R).drop 8).take 16 = c.1.toList := by
      unfold chunkBytes
      simp only [List.append_assoc]
      rw [List.drop_left' (leBytes_length _ _), List.take_left' (by simp)]
    have hdrop : (chunkBytes c ++ R).drop 24 = c.2.flatMap indexBytes ++ R := by
      unfold chunkBytes
      rw [List.append_assoc (leBytes 8 c.2.length ++ c.1.toList), List.drop_left' (by simp)]
    have hdrop' : (chunkBytes c ++ R).drop (24 + 8 * c.2.length) = R := List.drop_left' hl
    unfold decodeLoop
    rw [if_neg (by omega), if_neg (by omega)]
    simp only [htake, hkey, hdrop, hdrop']
    by_cases he : c.2.length = 0
    · rw [if_pos he]
      have : c.2 = [] := List.length_eq_zero_iff.mp he
      simp [lookupChunk, this]
    · rw [if_neg he, if_neg (by omega)]
      have hne : c.2.isEmpty = false := by
        cases h : c.2 with
        | nil => rw [h] at he; simp at he
        | cons => rfl
      by_cases hk : c.1 = key
      · rw [if_pos (by rw [hk]), readValues_spec]
        simp [lookupChunk, hne, hk]
      · rw [if_neg (by rw [toList_inj]; exact hk), if_neg (by omega),
          ih (fun c hc => hcs c (List.mem_cons_of_mem _ hc)) fuel (by omega)]
        simp [lookupChunk, hne, hk]

theorem decodeSingle_spec (key : CoreKey) (z : Nat) (hz : z = 0 ∨ 8 ≤ z) (cs : List (CoreKey × List Index))
    (hcs : ∀ c ∈ cs, c.2.length < 2 ^ 60) :
    decodeSingle key (cs.flatMap chunkBytes ++ List.replicate z 0) = .ok (lookupChunk key cs) :=
  decodeLoop_spec key z hz cs hcs _ (by omega)

theorem lookupChunk_none {key : CoreKey} {cs : List (CoreKey × List Index)}
    (h : ∀ c ∈ cs, c.1 ≠ key) : lookupChunk key cs = [] := by
  unfold lookupChunk
  cases hf : (cs.takeWhile (fun c => !c.2.isEmpty)).find? (fun c => decide (c.1 = key)) with
  | none => rfl
  | some c =>
    have h1 := List.mem_of_find?_eq_some hf
    have h2 := List.find?_some hf
    exact absurd (of_decide_eq_true h2) (h c ((List.takeWhile_sublist _).subset h1))

/-- When only one part bears the key, it is found or an empty list of values is returned. -/
theorem lookupChunk_sound {key : CoreKey} {cs : List (CoreKey × List Index)} {vs : List Index}
    (h : ∀ c ∈ cs, c.1 = key → c.2 = vs) : lookupChunk key cs = vs ∨ lookupChunk key cs = [] := by
  unfold lookupChunk
  cases hf : (cs.takeWhile (fun c => !c.2.isEmpty)).find? (fun c => decide (c.1 = key)) with
  | none => exact Or.inr rfl
  | some c =>
    have h1 := List.mem_of_find?_eq_some hf
    have h2 := List.find?_some hf
    exact Or.inl (h c ((List.takeWhile_sublist _).subset h1) (of_decide_eq_true h2))

theorem lookupChunk_found {key : CoreKey} {cs : List (CoreKey × List Index)} {vs : List Index}
    (hne : ∀ c ∈ cs, c.2 ≠ []) (hex : ∃ c ∈ cs, c.1 = key) (h : ∀ c ∈ cs, c.1 = key → c.2 = vs) :
    lookupChunk key cs = vs := by
  unfold lookupChunk
  have ht : cs.takeWhile (fun c => !c.2.isEmpty) = cs := by
    rw [List.takeWhile_eq_self_iff]
    intro c hc
    have := hne c hc
    cases hc2 : c.2 with
    | nil => exact absurd hc2 this
    | cons => rfl
  rw [ht]
  cases hf : cs.find? (fun c => decide (c.1 = key)) with
  | none =>
    obtain ⟨c, hc, hk⟩ := hex
    have := List.find?_eq_none.mp hf c hc
    exact absurd (decide_eq_true hk) this
  | some c =>
    have h2 := List.find?_some hf
    exact h c (List.mem_of_find?_eq_some hf) (of_decide_eq_true h2)

/-! ## The encoder -/

/-- Number of values that fit in `a` entries: three entries are taken by the length and the key. -/
def fit (a n : Nat) : Nat := min (a - 3) n

theorem stdMin_toNat (a b : UInt64) : (stdMin a b).toNat = min a.toNat b.toNat := by
  unfold stdMin
  split
  · rename_i h; rw [UInt64.lt_iff_toNat_lt] at h; omega
  · rename_i h; rw [UInt64.lt_iff_toNat_lt] at h; omega

/-- The part of the list of an edge that goes to a bucket -/
def subList (values : List Index) (k : Nat) : Orientation → List Index
  | .incoming => values.take k
  | .outgoing => values.drop (values.length - k)

theorem subList_length (values : List Index) (k : Nat) (o : Orientation) (h : k ≤ values.length) :
    (subList values k o).length = k := by
  cases o <;> simp [subList] <;> omega

/-- The encoded part of an edge: nothing for the edges to the source and to the sink, and for parts
of at most three entries -/
def chunk (data : List (CoreKey × List Index)) (o : Orientation) (e : Edge) :
    List (CoreKey × List Index) :=
  if e.valueIndex = emptyIndex then []
  else match data[e.valueIndex.toNat]? with
    | none => []
    | some d =>
      if (AssignInfo.of e o).assigned.toNat ≤ 3 then []
      else [(d.1, subList d.2 (fit (AssignInfo.of e o).assigned.toNat d.2.length) o)]

/-- The edge carries the length of its list. -/
def EdgeOk (data : List (CoreKey × List Index)) (e : Edge) : Prop :=
  e.valueIndex ≠ emptyIndex → ∃ d, data[e.valueIndex.toNat]? = some d ∧
    e.capacity.toNat = d.2.length + 6

theorem AssignInfo.of_listLength (e : Edge) (o : Orientation) :
    (AssignInfo.of e o).listLength = e.capacity := by cases o <;> rfl

theorem AssignInfo.of_orientation (e : Edge) (o : Orientation) :
    (AssignInfo.of e o).orientation = o := by cases o <;> rfl

theorem sub6 {x : UInt64} {n : Nat} (h : x.toNat = n + 6) : (x - 6).toNat = n := by
  rw [UInt64.toNat_sub_of_le _ _ (by rw [UInt64.le_iff_toNat_le, h]; exact Nat.le_add_left 6 n), h]
  exact Nat.add_sub_cancel n 6

theorem sub3 {x : UInt64} (h : ¬ x ≤ 3) : (x - 3).toNat = x.toNat - 3 := by
  rw [UInt64.le_iff_toNat_le] at h
  rw [UInt64.toNat_sub_of_le _ _ (by rw [UInt64.le_iff_toNat_le]; omega)]
  rfl

theorem le3 (x : UInt64) : x ≤ 3 ↔ x.toNat ≤ 3 := by rw [UInt64.le_iff_toNat_le]; rfl

theorem encode_spec {data : List (CoreKey × List Index)} {o : Orientation} {e : Edge} {d}
    (hne : e.valueIndex ≠ emptyIndex) (hd : data[e.valueIndex.toNat]? = some d)
    (hcap : e.capacity.toNat = d.2.length + 6) :
    encode d.1 d.2 (AssignInfo.of e o) = .ok ((chunk data o e).flatMap chunkBytes) := by
  unfold encode chunk
  rw [if_neg hne, hd]
  simp only [AssignInfo.of_listLength, AssignInfo.of_orientation]
  by_cases h3 : (AssignInfo.of e o).assigned ≤ 3
  · rw [if_pos h3, if_pos ((le3 _).mp h3)]; rfl
  · rw [if_neg h3, if_neg (fun h => h3 ((le3 _).mpr h))]
    have hk : (stdMin ((AssignInfo.of e o).assigned - 3) (e.capacity - 6)).toNat =
        fit (AssignInfo.of e o).assigned.toNat d.2.length := by
      rw [stdMin_toNat, sub6 hcap, sub3 h3]; rfl
    have hle : fit (AssignInfo.of e o).assigned.toNat d.2.length ≤ d.2.length := Nat.min_le_right _ _
    rw [hk, if_neg (by omega)]
    simp only [List.flatMap_cons, List.flatMap_nil, List.append_nil, chunkBytes]
    rw [subList_length _ _ _ hle]
    cases o <;> rfl

theorem writeAt_spec {done todo bs : List UInt8} (h : bs.length ≤ todo.length) :
    writeAt (done ++ todo) done.length bs = .ok (done ++ bs ++ todo.drop bs.length) := by
  unfold writeAt
  rw [if_pos (by simp; omega), List.take_left' rfl]
  congr 2
  rw [List.drop_append, List.drop_eq_nil_of_le (by omega), List.nil_append]
  congr 1
  omega

/-- One of the two loops of the builder over the edges of a vertex -/
theorem encodeEdges_spec (edges : List Edge) (data : List (CoreKey × List Index)) (o : Orientation)
    (ps : List EdgePtr) (es : List Edge) (hes : ps.map (fun p => edges[p.index]?) = es.map some)
    (hok : ∀ e ∈ es, EdgeOk data e) (done todo : List UInt8)
    (hfit : ((es.flatMap (chunk data o)).flatMap chunkBytes).length ≤ todo.length) :
    encodeEdges edges data o ps (done ++ todo, done.length) =
      .ok (done ++ (es.flatMap (chunk data o)).flatMap chunkBytes ++
          todo.drop ((es.flatMap (chunk data o)).flatMap chunkBytes).length,
        (done ++ (es.flatMap (chunk data o)).flatMap chunkBytes).length) := by
  induction ps generalizing es done todo with
  | nil =>
    cases es with
    | nil => simp [encodeEdges]
    | cons => simp at hes
  | cons p ps ih =>
    cases es with
    | nil => simp at hes
    | cons e es =>
      simp only [List.map_cons, List.cons.injEq] at hes
      have hok' : ∀ e ∈ es, EdgeOk data e := fun e he => hok e (List.mem_cons_of_mem _ he)
      unfold encodeEdges
      rw [hes.1]
      simp only
      simp only [List.flatMap_cons, List.flatMap_append, List.length_append] at hfit ⊢
      by_cases hne : e.valueIndex = emptyIndex
      · have hc : chunk data o e = [] := by simp [chunk, hne]
        rw [if_pos hne]
        simp only [hc, List.flatMap_nil, List.length_nil, Nat.zero_add, List.nil_append] at hfit ⊢
        rw [ih es hes.2 hok' done todo hfit, List.length_append]
      · obtain ⟨d, hd, hcap⟩ := hok e (List.mem_cons_self ..) hne
        rw [if_neg hne, hd]
        simp only
        rw [encode_spec hne hd hcap]
        simp only
        generalize (chunk data o e).flatMap chunkBytes = bs at hfit ⊢
        rw [writeAt_spec (by omega)]
        simp only
        rw [if_neg (by simp only [List.length_append, List.length_drop]; omega), ← List.length_append,
          ih es hes.2 hok' (done ++ bs) (todo.drop bs.length) (by
            rw [List.length_drop]; omega)]
        simp only [List.append_assoc, List.length_append, List.drop_drop]

end Verif.Tethys
