import Verif.Tethys.StoreBuild

/-! # Helper lemmas: reading the store back -/

namespace Verif.Tethys

open Spec

/-! ## The stash -/

/-- The bytes of a pair in the stash file -/
def kvBytes (x : CoreKey × List Index) : List UInt8 :=
  x.1.toList ++ leBytes 8 x.2.length ++ x.2.flatMap indexBytes

theorem kvBytes_length (x : CoreKey × List Index) : (kvBytes x).length = 24 + 8 * x.2.length := by
  simp only [kvBytes, List.length_append, leBytes_length, Vector.length_toList,
    length_flatMap_indexBytes]

theorem deserializeKV_spec (x : CoreKey × List Index) (rest : List UInt8) (hx : x.2.length < 2 ^ 64) :
    deserializeKV (kvBytes x ++ rest) = .ok (x, rest) := by
  have hl : (kvBytes x ++ rest).length = 24 + 8 * x.2.length + rest.length := by
    rw [List.length_append, kvBytes_length]
  have h1 : ((kvBytes x ++ rest).drop 16).take 8 = leBytes 8 x.2.length := by
    unfold kvBytes
    simp only [List.append_assoc]
    rw [List.drop_left' (by simp), List.take_left' (by simp)]
  have h2 : (kvBytes x ++ rest).drop 24 = x.2.flatMap indexBytes ++ rest := by
    unfold kvBytes
    rw [List.append_assoc (x.1.toList ++ leBytes 8 x.2.length), List.drop_left' (by simp)]
  have h3 : (kvBytes x ++ rest).take 16 = x.1.toList := by
    unfold kvBytes
    simp only [List.append_assoc]
    rw [List.take_left' (by simp)]
  have h4 : (kvBytes x ++ rest).drop (24 + 8 * x.2.length) = rest := List.drop_left' (kvBytes_length x)
  unfold deserializeKV
  rw [dif_neg (by omega)]
  have h5 : ofLeBytes (leBytes 8 x.2.length) = x.2.length := ofLeBytes_leBytes _ _ (by omega)
  simp only [h1, h2, h5, readValues_spec, h4]
  congr 1
  refine Prod.ext (Prod.ext ?_ rfl) rfl
  apply toList_inj.mp
  show ((kvBytes x ++ rest).take 16) = _
  exact h3

theorem deserializeMap_spec (es : List (CoreKey × List Index)) (hes : ∀ x ∈ es, x.2.length < 2 ^ 64)
    (fuel : Nat) (hf : (es.flatMap kvBytes).length < fuel) (m : Map CoreKey (List Index)) :
    deserializeMap fuel (es.flatMap kvBytes) m = .ok (es.foldl (fun m x => m.put x.1 x.2) m) := by
  induction es generalizing fuel m with
  | nil =>
    obtain ⟨fuel, rfl⟩ : ∃ f, fuel = f + 1 := ⟨fuel - 1, by omega⟩
    rfl
  | cons x es ih =>
    obtain ⟨fuel, rfl⟩ : ∃ f, fuel = f + 1 := ⟨fuel - 1, by omega⟩
    have hl := kvBytes_length x
    simp only [List.flatMap_cons, List.length_append] at hf
    unfold deserializeMap
    rw [if_neg (by simp only [List.flatMap_cons, List.length_append]; omega)]
    simp only [List.flatMap_cons]
    rw [deserializeKV_spec x _ (hes x (List.mem_cons_self ..))]
    simp only
    rw [ih (fun y hy => hes y (List.mem_cons_of_mem _ hy)) fuel (by omega)]
    rfl

theorem foldl_put (es : List (CoreKey × List Index)) (m : Map CoreKey (List Index))
    (hd : (es.map Prod.fst).Nodup) (key : CoreKey) :
    (∀ x ∈ es, x.1 = key → es.foldl (fun m x => m.put x.1 x.2) m key = some x.2) ∧
    ((∀ x ∈ es, x.1 ≠ key) → es.foldl (fun m x => m.put x.1 x.2) m key = m key) := by
  induction es generalizing m with
  | nil => simp
  | cons y es ih =>
    simp only [List.map_cons, List.nodup_cons] at hd
    obtain ⟨h1, h2⟩ := ih (m.put y.1 y.2) hd.2
    constructor
    · intro x hx hk
      rcases List.mem_cons.mp hx with rfl | hx
      · simp only [List.foldl_cons]
        rw [h2 (by
          intro z hz hzk
          exact hd.1 (List.mem_map.mpr ⟨z, hz, by rw [hzk, hk]⟩)), ← hk, Map.put_self]
      · exact h1 x hx hk
    · intro h
      simp only [List.foldl_cons]
      rw [h2 (fun x hx => h x (List.mem_cons_of_mem _ hx)),
        Map.put_of_ne _ _ (fun e => h y (List.mem_cons_self ..) e.symm)]

theorem Placed.mid_nil {r : Placed} (h : r.a0 + r.a1 ≤ r.vals.length + 6) (hs : r.stashed = false) :
    r.mid = [] := by
  have h1 := r.mid_length h
  have h2 : ¬ r.a0 + r.a1 < r.vals.length + 6 := of_decide_eq_false hs
  rw [← List.length_eq_zero_iff, h1]
  unfold Placed.k0 Placed.k1 fit
  omega

/-- The pairs of the stash file -/
def stashPairs (recs : List Placed) : List (CoreKey × List Index) :=
  (recs.filter (fun r => decide (r.mid ≠ []))).map (fun r => (r.key, r.mid))

theorem stashBytes_pairs (recs : List Placed) (h : ∀ r ∈ recs, r.a0 + r.a1 ≤ r.vals.length + 6) :
    (recs.filter Placed.stashed).flatMap Placed.stashBytes = (stashPairs recs).flatMap kvBytes := by
  unfold stashPairs
  induction recs with
  | nil => rfl
  | cons r recs ih =>
    have ih := ih (fun r hr => h r (List.mem_cons_of_mem _ hr))
    simp only [List.filter_cons]
    by_cases hs : r.stashed = true
    · rw [if_pos hs, List.flatMap_cons, ih]
      unfold Placed.stashBytes
      by_cases hm : r.mid = []
      · simp [hm]
      · simp only [hm, if_false, ne_eq, not_false_eq_true, decide_true, if_true, List.map_cons,
          List.flatMap_cons]
        rfl
    · rw [if_neg hs, ih]
      have := r.mid_nil (h r (List.mem_cons_self ..)) (by simpa using hs)
      simp [this]

theorem mem_stashPairs {recs : List Placed} {x : CoreKey × List Index} :
    x ∈ stashPairs recs ↔ ∃ r ∈ recs, r.mid ≠ [] ∧ x = (r.key, r.mid) := by
  unfold stashPairs
  simp only [List.mem_map, List.mem_filter, decide_eq_true_eq]
  constructor
  · rintro ⟨r, ⟨h1, h2⟩, rfl⟩; exact ⟨r, h1, h2, rfl⟩
  · rintro ⟨r, h1, h2, rfl⟩; exact ⟨r, ⟨h1, h2⟩, rfl⟩

theorem stashPairs_nodup {recs : List Placed} (h : (recs.map Placed.key).Nodup) :
    ((stashPairs recs).map Prod.fst).Nodup := by
  unfold stashPairs
  rw [List.map_map]
  exact h.sublist ((List.filter_sublist ..).map _)

/-- The map read from a file with these pairs -/
theorem loadPairs_spec (recs : List Placed) (hsp : ∀ r ∈ recs, r.a0 + r.a1 ≤ r.vals.length + 6)
    (hlen : ∀ r ∈ recs, r.vals.length < 2 ^ 64) (hd : (recs.map Placed.key).Nodup) :
    ∃ m, loadStash (some ((stashPairs recs).flatMap kvBytes)) = .ok m ∧
      m = (stashPairs recs).foldl (fun m x => m.put x.1 x.2) Map.empty ∧
      (∀ r ∈ recs, m r.key = if r.mid = [] then none else some r.mid) ∧
      ∀ key, (∀ r ∈ recs, r.key ≠ key) → m key = none := by
  refine ⟨_, ?_, rfl, ?_, ?_⟩
  · unfold loadStash
    refine deserializeMap_spec _ ?_ _ (Nat.lt_succ_self _) _
    intro x hx
    obtain ⟨r, h1, h2, rfl⟩ := mem_stashPairs.mp hx
    have := hlen r h1
    have hm := r.mid_length (hsp r h1)
    show r.mid.length < _
    omega
  · intro r hr
    obtain ⟨h1, h2⟩ := foldl_put (stashPairs recs) Map.empty (stashPairs_nodup hd) r.key
    by_cases hm : r.mid = []
    · rw [if_pos hm, h2]
      · rfl
      · intro x hx hk
        obtain ⟨r', h1', h2', rfl⟩ := mem_stashPairs.mp hx
        have : r' = r := List.inj_on_of_nodup_map hd h1' hr hk
        subst this
        exact h2' hm
    · rw [if_neg hm]
      exact h1 (r.key, r.mid) (mem_stashPairs.mpr ⟨r, hr, hm, rfl⟩) rfl
  · intro key hk
    obtain ⟨-, h2⟩ := foldl_put (stashPairs recs) Map.empty (stashPairs_nodup hd) key
    rw [h2]
    · rfl
    · intro x hx
      obtain ⟨r', h1', h2', rfl⟩ := mem_stashPairs.mp hx
      exact hk r' h1'

/-- The stash after loading the file -/
theorem loadStash_spec (recs : List Placed) (hsp : ∀ r ∈ recs, r.a0 + r.a1 ≤ r.vals.length + 6)
    (hlen : ∀ r ∈ recs, r.vals.length < 2 ^ 64) (hd : (recs.map Placed.key).Nodup) :
    ∃ m, loadStash (if recs.filter Placed.stashed = [] then none
        else some ((recs.filter Placed.stashed).flatMap Placed.stashBytes)) = .ok m ∧
      (∀ r ∈ recs, m r.key = if r.mid = [] then none else some r.mid) ∧
      ∀ key, (∀ r ∈ recs, r.key ≠ key) → m key = none := by
  obtain ⟨m, h1, h2, h3⟩ := loadPairs_spec recs hsp hlen hd
  refine ⟨m, ?_, h3⟩
  by_cases hz : recs.filter Placed.stashed = []
  · rw [if_pos hz, h2]
    have : stashPairs recs = [] := by
      rw [List.eq_nil_iff_forall_not_mem]
      intro x hx
      obtain ⟨r, h1, h2, rfl⟩ := mem_stashPairs.mp hx
      have hs : r.stashed = false := by
        have := List.filter_eq_nil_iff.mp hz r h1
        simpa using this
      exact h2 (r.mid_nil (hsp r h1) hs)
    rw [this]; rfl
  · rw [if_neg hz, stashBytes_pairs recs hsp, h1]

theorem allBytes_pairs (recs : List Placed) :
    recs.flatMap Placed.stashBytes = (stashPairs recs).flatMap kvBytes := by
  unfold stashPairs
  induction recs with
  | nil => rfl
  | cons r recs ih =>
    simp only [List.filter_cons, List.flatMap_cons]
    rw [ih]
    unfold Placed.stashBytes
    by_cases hm : r.mid = []
    · simp [hm]
    · simp only [hm, if_false, ne_eq, not_false_eq_true, decide_true, if_true, List.map_cons,
        List.flatMap_cons]
      rfl

/-! ## The buckets -/

theorem xorStream_xorStream (c : Cipher) (k : Vector UInt8 32) (v : Nat) (p : List UInt8) :
    xorStream c k v (xorStream c k v p) = p := by
  apply List.ext_getElem?
  intro i
  unfold xorStream
  simp only [List.getElem?_mapIdx, Option.map_map]
  cases p[i]? with
  | none => rfl
  | some b =>
    simp only [Option.map_some, Function.comp, UInt8.xor_assoc, UInt8.xor_self, UInt8.xor_zero]

theorem decode_seal (enc : ValueEncoder) (key : CoreKey) (v w : Nat) (p q : List UInt8) :
    enc.decode key (enc.seal v p) v (enc.seal w q) w = decodeBuckets key p q := by
  cases enc with
  | separate => rfl
  | encrypt c k => simp only [ValueEncoder.decode, ValueEncoder.seal, xorStream_xorStream]

theorem flatMap_chunk_mod (cs : List (CoreKey × List Index)) : (cs.flatMap chunkBytes).length % 8 = 0 := by
  induction cs with
  | nil => rfl
  | cons c cs ih => simp only [List.flatMap_cons, List.length_append, chunkBytes_length]; omega

theorem chunk_le_flatMap {cs : List (CoreKey × List Index)} {c} (h : c ∈ cs) :
    8 * c.2.length ≤ (cs.flatMap chunkBytes).length := by
  induction cs with
  | nil => simp at h
  | cons d cs ih =>
    simp only [List.flatMap_cons, List.length_append]
    rcases List.mem_cons.mp h with rfl | h
    · have := chunkBytes_length c; omega
    · have := ih h; omega

theorem decodeSingle_page (key : CoreKey) {page : Nat} (hp : 8 ∣ page) (hp63 : page < 2 ^ 63)
    (cs : List (CoreKey × List Index)) (hcs : (cs.flatMap chunkBytes).length ≤ page) :
    decodeSingle key (pageOf page cs) = .ok (lookupChunk key cs) := by
  unfold pageOf
  apply decodeSingle_spec
  · have := flatMap_chunk_mod cs; omega
  · intro c hc
    have := chunk_le_flatMap hc
    omega

/-- The three parts of a list -/
theorem Placed.parts_append {r : Placed} (h : r.a0 + r.a1 ≤ r.vals.length + 6) :
    r.vals.take r.k1 ++ (r.mid ++ r.vals.drop (r.vals.length - r.k0)) = r.vals := by
  have hk := r.k_le h
  unfold Placed.mid
  have h1 : r.vals.take r.k1 = (r.vals.take (r.vals.length - r.k0)).take r.k1 := by
    rw [List.take_take]; congr 1; omega
  rw [h1, ← List.append_assoc, List.take_append_drop, List.take_append_drop]

theorem Placed.chunk0_mem {r : Placed} {c} (h : c ∈ r.chunk0) :
    c = (r.key, r.vals.drop (r.vals.length - r.k0)) ∧ 3 < r.a0 := by
  unfold Placed.chunk0 at h
  by_cases h3 : r.a0 ≤ 3
  · simp [h3] at h
  · simp only [h3, if_false, List.mem_singleton] at h; exact ⟨h, by omega⟩

theorem Placed.chunk1_mem {r : Placed} {c} (h : c ∈ r.chunk1) :
    c = (r.key, r.vals.take r.k1) ∧ 3 < r.a1 := by
  unfold Placed.chunk1 at h
  by_cases h3 : r.a1 ≤ 3
  · simp [h3] at h
  · simp only [h3, if_false, List.mem_singleton] at h; exact ⟨h, by omega⟩

theorem Placed.chunk_ne {r : Placed} {c} (hne : r.vals ≠ []) (h : c ∈ r.chunk0 ∨ c ∈ r.chunk1) :
    c.2 ≠ [] := by
  have hl : 0 < r.vals.length := List.length_pos_iff.mpr hne
  intro hc
  have hc := congrArg List.length hc
  rcases h with h | h
  · obtain ⟨rfl, h3⟩ := chunk0_mem h
    unfold Placed.k0 fit at hc
    simp only [List.length_drop, List.length_nil] at hc
    omega
  · obtain ⟨rfl, h3⟩ := chunk1_mem h
    unfold Placed.k1 fit at hc
    simp only [List.length_take, List.length_nil] at hc
    omega

/-- Lookups in the buckets and the stash of a store -/
theorem lookup_spec {n : Nat} (hash : CoreKey → UInt64 × UInt64) (hn : 2 ≤ n) (recs : List Placed)
    (cs : Nat → List (CoreKey × List Index)) (hd : (recs.map Placed.key).Nodup)
    (hcs : ∀ v c, c ∈ cs v ↔ ∃ r ∈ recs, (bucket1 n hash r.key = v ∧ c ∈ r.chunk1) ∨
        (bucket0 n hash r.key = v ∧ c ∈ r.chunk0)) :
    (∀ r ∈ recs,
      (lookupChunk r.key (cs (bucket0 n hash r.key)) = r.vals.drop (r.vals.length - r.k0) ∨
        lookupChunk r.key (cs (bucket0 n hash r.key)) = []) ∧
      (lookupChunk r.key (cs (bucket1 n hash r.key)) = r.vals.take r.k1 ∨
        lookupChunk r.key (cs (bucket1 n hash r.key)) = []) ∧
      ((∀ r ∈ recs, r.vals ≠ []) →
        lookupChunk r.key (cs (bucket0 n hash r.key)) = r.vals.drop (r.vals.length - r.k0) ∧
        lookupChunk r.key (cs (bucket1 n hash r.key)) = r.vals.take r.k1)) ∧
    ∀ key, (∀ r ∈ recs, r.key ≠ key) → ∀ v, lookupChunk key (cs v) = [] := by
  have hb : ∀ k k', bucket0 n hash k ≠ bucket1 n hash k' := by
    intro k k' h
    have := bucket0_lt hn hash k
    have := bucket1_lt hn hash k'
    omega
  constructor
  · intro r hr
    have u0 : ∀ c ∈ cs (bucket0 n hash r.key), c.1 = r.key → c.2 = r.vals.drop (r.vals.length - r.k0) := by
      intro c hc hk
      obtain ⟨r', hr', h | h⟩ := (hcs _ _).mp hc
      · exact absurd h.1.symm (hb _ _)
      · have := (Placed.chunk0_mem h.2).1
        subst this
        have : r' = r := List.inj_on_of_nodup_map hd hr' hr hk
        subst this
        rfl
    have u1 : ∀ c ∈ cs (bucket1 n hash r.key), c.1 = r.key → c.2 = r.vals.take r.k1 := by
      intro c hc hk
      obtain ⟨r', hr', h | h⟩ := (hcs _ _).mp hc
      · have := (Placed.chunk1_mem h.2).1
        subst this
        have : r' = r := List.inj_on_of_nodup_map hd hr' hr hk
        subst this
        rfl
      · exact absurd h.1 (hb _ _)
    refine ⟨lookupChunk_sound u0, lookupChunk_sound u1, fun hne => ?_⟩
    have hne' : ∀ v, ∀ c ∈ cs v, c.2 ≠ [] := by
      intro v c hc
      obtain ⟨r', hr', h | h⟩ := (hcs _ _).mp hc
      · exact Placed.chunk_ne (hne r' hr') (Or.inr h.2)
      · exact Placed.chunk_ne (hne r' hr') (Or.inl h.2)
    constructor
    · by_cases h3 : r.a0 ≤ 3
      · have : r.vals.drop (r.vals.length - r.k0) = [] := by
          apply List.drop_eq_nil_of_le
          unfold Placed.k0 fit; omega
        rcases lookupChunk_sound u0 with h | h <;> rw [h]
        rw [this]
      · refine lookupChunk_found (hne' _) ⟨(r.key, r.vals.drop (r.vals.length - r.k0)), ?_, rfl⟩ u0
        refine (hcs _ _).mpr ⟨r, hr, Or.inr ⟨rfl, ?_⟩⟩
        unfold Placed.chunk0
        rw [if_neg h3]; exact List.mem_singleton.mpr rfl
    · by_cases h3 : r.a1 ≤ 3
      · have : r.vals.take r.k1 = [] := by
          have : r.k1 = 0 := by unfold Placed.k1 fit; omega
          rw [this]; rfl
        rcases lookupChunk_sound u1 with h | h <;> rw [h]
        rw [this]
      · refine lookupChunk_found (hne' _) ⟨(r.key, r.vals.take r.k1), ?_, rfl⟩ u1
        refine (hcs _ _).mpr ⟨r, hr, Or.inl ⟨rfl, ?_⟩⟩
        unfold Placed.chunk1
        rw [if_neg h3]; exact List.mem_singleton.mpr rfl
  · intro key hk v
    apply lookupChunk_none
    intro c hc
    obtain ⟨r', hr', h | h⟩ := (hcs _ _).mp hc
    · have := (Placed.chunk1_mem h.2).1; subst this; exact hk r' hr'
    · have := (Placed.chunk0_mem h.2).1; subst this; exact hk r' hr'

theorem getBuckets_spec {n page : Nat} (hash : CoreKey → UInt64 × UInt64) (hn : 2 ≤ n) (enc : ValueEncoder)
    (cs : Nat → List (CoreKey × List Index)) (m : Map CoreKey (List Index)) (key : CoreKey) :
    (Store.mk ((List.range n).map (fun v => enc.seal v (pageOf page (cs v)))) hash m).getBuckets key =
      .ok ⟨bucket0 n hash key, bucket1 n hash key,
        enc.seal (bucket0 n hash key) (pageOf page (cs (bucket0 n hash key))),
        enc.seal (bucket1 n hash key) (pageOf page (cs (bucket1 n hash key)))⟩ := by
  have h0 := bucket0_lt hn hash key
  have h1 := bucket1_lt hn hash key
  unfold Store.getBuckets
  simp only [List.length_map, List.length_range]
  rw [if_neg (by omega)]
  have e0 : (hash key).1.toNat % (n / 2) = bucket0 n hash key := rfl
  have e1 : n / 2 + (hash key).2.toNat % (n - n / 2) = bucket1 n hash key := rfl
  rw [e0, e1]
  have g : ∀ v, v < n → ((List.range n).map (fun v => enc.seal v (pageOf page (cs v))))[v]? =
      some (enc.seal v (pageOf page (cs v))) := by
    intro v hv
    rw [List.getElem?_map, List.getElem?_range hv]; rfl
  rw [g _ (by omega), g _ h1.2]

theorem decode_pages {n page : Nat} (hash : CoreKey → UInt64 × UInt64) (hn : 2 ≤ n) (hp : 8 ∣ page)
    (hp63 : page < 2 ^ 63) (enc : ValueEncoder)
    (cs : Nat → List (CoreKey × List Index)) (hcs : ∀ v < n, ((cs v).flatMap chunkBytes).length ≤ page)
    (key : CoreKey) :
    enc.decode key (enc.seal (bucket0 n hash key) (pageOf page (cs (bucket0 n hash key)))) (bucket0 n hash key)
      (enc.seal (bucket1 n hash key) (pageOf page (cs (bucket1 n hash key)))) (bucket1 n hash key) =
    .ok (lookupChunk key (cs (bucket0 n hash key)) ++ lookupChunk key (cs (bucket1 n hash key))) := by
  have h0 := bucket0_lt hn hash key
  have h1 := bucket1_lt hn hash key
  rw [decode_seal]
  unfold decodeBuckets
  rw [decodeSingle_page key hp hp63 _ (hcs _ (by omega)), decodeSingle_page key hp hp63 _ (hcs _ h1.2)]

end Verif.Tethys
