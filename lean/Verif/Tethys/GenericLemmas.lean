import Verif.Tethys.GenericSpec
import Verif.Tethys.EncoderLemmas

/-! # Helper lemmas: decoding what has been encoded, for arbitrary sizes -/

namespace Verif.Tethys.Generic

/-- The encoding of a part of a list -/
def chunkBytes (c : List UInt8 × List (List UInt8)) : List UInt8 :=
  leBytes 8 c.2.length ++ c.1 ++ c.2.flatten

theorem flatten_length {t : Nat} (vs : List (List UInt8)) (h : ∀ v ∈ vs, v.length = t) :
    vs.flatten.length = t * vs.length := by
  induction vs with
  | nil => simp
  | cons v vs ih =>
    rw [List.flatten_cons, List.length_append, h v (List.mem_cons_self ..),
      ih fun w hw => h w (List.mem_cons_of_mem _ hw), List.length_cons, Nat.mul_succ, Nat.add_comm]

theorem readValues_spec {t : Nat} (vs : List (List UInt8)) (h : ∀ v ∈ vs, v.length = t) (rest : List UInt8) :
    readValues t vs.length (vs.flatten ++ rest) = .ok vs := by
  induction vs with
  | nil => rfl
  | cons v vs ih =>
    have hv := h v (List.mem_cons_self ..)
    simp only [List.length_cons, readValues, List.flatten_cons, List.append_assoc]
    rw [if_neg (by rw [List.length_append, hv]; omega), List.drop_left' hv, List.take_left' hv,
      ih fun w hw => h w (List.mem_cons_of_mem _ hw)]

/-- What the decoder finds among encoded parts that are not empty -/
def lookup (key : List UInt8) (cs : List (List UInt8 × List (List UInt8))) : List (List UInt8) :=
  match cs.find? (fun c => decide (c.1 = key)) with
  | some c => c.2
  | none => []

/-- The encoded parts have the right sizes. -/
def ChunkOk (S : Sizes) (c : List UInt8 × List (List UInt8)) : Prop :=
  c.1.length = S.key ∧ (∀ v ∈ c.2, v.length = S.val) ∧ c.2 ≠ [] ∧ 8 + S.key + S.val * c.2.length < 2 ^ 64 ∧
    c.2.length < 2 ^ 64

theorem chunkBytes_length {S : Sizes} {c : List UInt8 × List (List UInt8)} (h : ChunkOk S c) :
    (chunkBytes c).length = 8 + S.key + S.val * c.2.length := by
  simp only [chunkBytes, List.length_append, leBytes_length, h.1, flatten_length c.2 h.2.1]

theorem decodeLoop_spec (S : Sizes) (key : List UInt8) (z : Nat) (hz : z = 0 ∨ 8 ≤ z)
    (cs : List (List UInt8 × List (List UInt8))) (hcs : ∀ c ∈ cs, ChunkOk S c) (fuel : Nat)
    (hf : (cs.flatMap chunkBytes ++ List.replicate z 0).length < fuel) :
    decodeLoop S key fuel (cs.flatMap chunkBytes ++ List.replicate z 0) = .ok (lookup key cs) := by
  induction cs generalizing fuel with
  | nil =>
    obtain ⟨fuel, rfl⟩ : ∃ f, fuel = f + 1 := ⟨fuel - 1, by omega⟩
    simp only [List.flatMap_nil, List.nil_append, decodeLoop, List.length_replicate]
    rcases hz with rfl | hz
    · simp [lookup]
    · rw [if_neg (by omega), if_neg (by omega), List.take_replicate, Nat.min_eq_left hz,
        if_pos (by rfl)]
      rfl
  | cons c cs ih =>
    obtain ⟨fuel, rfl⟩ : ∃ f, fuel = f + 1 := ⟨fuel - 1, by omega⟩
    have hc := hcs c (List.mem_cons_self ..)
    have hl := chunkBytes_length hc
    obtain ⟨hk, hv, hne, hb, hb'⟩ := hc
    simp only [List.flatMap_cons, List.append_assoc] at hf ⊢
    generalize hR : List.flatMap chunkBytes cs ++ List.replicate z 0 = R at *
    have hlen : (chunkBytes c ++ R).length = 8 + S.key + S.val * c.2.length + R.length := by
      rw [List.length_append, hl]
    have htake : ofLeBytes ((chunkBytes c ++ R).take 8) = c.2.length := by
      unfold chunkBytes
      simp only [List.append_assoc]
      rw [List.take_left' (leBytes_length _ _), ofLeBytes_leBytes _ _ (by omega)]
    have hkey : ((chunkBytes c ++ R).drop 8).take S.key = c.1 := by
      unfold chunkBytes
      simp only [List.append_assoc]
      rw [List.drop_left' (leBytes_length _ _), List.take_left' hk]
    have hdrop : (chunkBytes c ++ R).drop (8 + S.key) = c.2.flatten ++ R := by
      unfold chunkBytes
      rw [List.append_assoc (leBytes 8 c.2.length ++ c.1), List.drop_left' (by simp [hk])]
    have hdrop' : (chunkBytes c ++ R).drop (8 + S.key + S.val * c.2.length) = R := List.drop_left' hl
    have hpos : c.2.length ≠ 0 := fun h => hne (List.length_eq_zero_iff.mp h)
    unfold decodeLoop
    rw [if_neg (by omega), if_neg (by omega)]
    simp only [htake, hkey, hdrop, hdrop']
    rw [if_neg hpos, if_neg (by omega)]
    by_cases hk' : c.1 = key
    · rw [if_pos hk', readValues_spec _ hv]
      simp [lookup, hk']
    · rw [if_neg hk', if_neg (by omega),
        ih (fun c hc => hcs c (List.mem_cons_of_mem _ hc)) fuel (by omega)]
      simp [lookup, hk']

theorem lookup_none {key : List UInt8} {cs : List (List UInt8 × List (List UInt8))}
    (h : ∀ c ∈ cs, c.1 ≠ key) : lookup key cs = [] := by
  unfold lookup
  rw [List.find?_eq_none.mpr (fun c hc => by simpa using h c hc)]

theorem lookup_some {key : List UInt8} {cs : List (List UInt8 × List (List UInt8))}
    {vs : List (List UInt8)} (hm : (key, vs) ∈ cs) (h : ∀ c ∈ cs, c.1 = key → c.2 = vs) :
    lookup key cs = vs := by
  unfold lookup
  cases hf : cs.find? (fun c => decide (c.1 = key)) with
  | none => exact absurd (decide_eq_true rfl) (List.find?_eq_none.mp hf _ hm)
  | some c => exact h c (List.mem_of_find?_eq_some hf) (by simpa using List.find?_some hf)

/-! ## The encoder -/

theorem entries_of_dvd {n t : Nat} (h : t ∣ n) : entries n t = n / t := by
  simp [entries, Nat.mod_eq_zero_of_dvd h]

theorem head_eq {S : Sizes} (h : Spec.Whole S) : S.head = Spec.headEntries S := by
  obtain ⟨hp, h8, hk⟩ := h
  unfold Sizes.head Sizes.addKey Sizes.lenEntries Spec.headEntries
  rw [entries_of_dvd h8, entries_of_dvd hk, Nat.add_comm]
  obtain ⟨a, ha⟩ := h8
  obtain ⟨b, hb⟩ := hk
  rw [hb, ha, ← Nat.mul_add, Nat.mul_div_cancel_left _ hp, Nat.mul_div_cancel_left _ hp,
    Nat.mul_div_cancel_left _ hp]

theorem head_mul {S : Sizes} (h : Spec.Whole S) : S.head * S.val = 8 + S.key := by
  rw [head_eq h, Spec.headEntries, Nat.div_mul_cancel (Nat.dvd_add h.2.1 h.2.2)]

theorem len_mul {S : Sizes} (h : Spec.Whole S) : S.lenEntries * S.val = 8 := by
  unfold Sizes.lenEntries
  rw [entries_of_dvd h.2.1, Nat.div_mul_cancel h.2.1]

/-- The encoded part of a list -/
def chunk (S : Sizes) (p : Part) : List (List UInt8 × List (List UInt8)) :=
  if p.info.assigned.toNat ≤ Spec.headEntries S then [] else [(p.key, Spec.share S p)]

theorem share_length (S : Sizes) (p : Part) :
    (Spec.share S p).length = Spec.stored S p.info.assigned.toNat p.values.length := by
  have : Spec.stored S p.info.assigned.toNat p.values.length ≤ p.values.length := Nat.min_le_right _ _
  unfold Spec.share
  cases p.info.orientation
  · simp only [List.length_take]; omega
  · simp only [List.length_drop]; omega

theorem share_mem (S : Sizes) (p : Part) : ∀ v ∈ Spec.share S p, v ∈ p.values := by
  intro v hv
  unfold Spec.share at hv
  cases ho : p.info.orientation <;> rw [ho] at hv
  · exact List.mem_of_mem_take hv
  · exact List.mem_of_mem_drop hv

theorem toNat_ofNat_le {n : Nat} {x : UInt64} (h : n ≤ x.toNat) : (UInt64.ofNat n).toNat = n := by
  have := x.toNat_lt
  rw [UInt64.toNat_ofNat']
  exact Nat.mod_eq_of_lt (by omega)

theorem sub_ofNat {n : Nat} {x : UInt64} (h : n ≤ x.toNat) :
    (x - UInt64.ofNat n).toNat = x.toNat - n := by
  rw [UInt64.toNat_sub_of_le _ _ (by rw [UInt64.le_iff_toNat_le, toNat_ofNat_le h]; exact h), toNat_ofNat_le h]

theorem encode_spec {S : Sizes} (hS : Spec.Whole S) {p : Part} (hp : Spec.PartOk S p)
    (done todo : List UInt8) (hfit : ((chunk S p).flatMap chunkBytes).length ≤ todo.length) :
    encode S (done ++ todo) done.length p.key p.values p.info =
      .ok (done ++ (chunk S p).flatMap chunkBytes ++ todo.drop ((chunk S p).flatMap chunkBytes).length,
        ((chunk S p).flatMap chunkBytes).length) := by
  obtain ⟨hk, hv, hne, hl⟩ := hp
  have hh := head_eq hS
  have hlt := p.info.listLength.toNat_lt
  have hhn : (UInt64.ofNat S.head).toNat = S.head := by
    apply toNat_ofNat_le (x := p.info.listLength); omega
  unfold encode
  unfold chunk at hfit ⊢
  by_cases h3 : p.info.assigned.toNat ≤ Spec.headEntries S
  · rw [if_pos h3, if_pos (by rw [UInt64.le_iff_toNat_le, hhn, hh]; exact h3)]
    simp
  · rw [if_neg h3] at hfit ⊢
    rw [if_neg (by rw [UInt64.le_iff_toNat_le, hhn, hh]; exact h3)]
    have hkk : (stdMin (p.info.assigned - UInt64.ofNat S.head)
        (p.info.listLength - UInt64.ofNat S.control)).toNat =
        Spec.stored S p.info.assigned.toNat p.values.length := by
      rw [stdMin_toNat, sub_ofNat (by omega), sub_ofNat (by unfold Sizes.control; omega), hh, Spec.stored, hl]
      unfold Sizes.control
      rw [hh, Nat.add_sub_cancel]
    have hle : Spec.stored S p.info.assigned.toNat p.values.length ≤ p.values.length := Nat.min_le_right _ _
    simp only [hkk, len_mul hS, Nat.lt_irrefl, if_false, head_mul hS]
    rw [if_neg (by omega)]
    have hsl := share_length S p
    have hsv : ∀ v ∈ Spec.share S p, v.length = S.val := fun v h => hv v (share_mem S p v h)
    have hsub : subValues p.values (Spec.stored S p.info.assigned.toNat p.values.length) p.info.orientation =
        Spec.share S p := by
      unfold subValues Spec.share
      cases p.info.orientation <;> rfl
    rw [hsub]
    have hfl := flatten_length _ hsv
    simp only [List.flatMap_cons, List.flatMap_nil, List.append_nil, chunkBytes, List.length_append,
      leBytes_length, hk, hfl] at hfit ⊢
    rw [writeAt_spec (by rw [leBytes_length]; omega)]
    simp only [leBytes_length]
    have e1 : done.length + 8 = (done ++ leBytes 8 (Spec.stored S p.info.assigned.toNat p.values.length)).length := by
      simp
    rw [e1, writeAt_spec (by rw [List.length_drop]; omega)]
    simp only [hk, List.drop_drop]
    have e2 : done.length + (8 + S.key) =
        (done ++ leBytes 8 (Spec.stored S p.info.assigned.toNat p.values.length) ++ p.key).length := by
      simp [hk]
    rw [e2, writeAt_spec (by rw [List.length_drop, hfl]; omega)]
    simp only [List.drop_drop, hfl, hsl, List.append_assoc]

theorem encodeParts_spec {S : Sizes} (hS : Spec.Whole S) (ps : List Part) (hps : ∀ p ∈ ps, Spec.PartOk S p)
    (done todo : List UInt8) (hpage : (done ++ todo).length = S.page)
    (hfit : ((ps.flatMap (chunk S)).flatMap chunkBytes).length ≤ todo.length) :
    encodeParts S ps (done ++ todo) done.length =
      .ok (done ++ (ps.flatMap (chunk S)).flatMap chunkBytes ++
          todo.drop ((ps.flatMap (chunk S)).flatMap chunkBytes).length,
        (done ++ (ps.flatMap (chunk S)).flatMap chunkBytes).length) := by
  induction ps generalizing done todo with
  | nil => simp [encodeParts]
  | cons p ps ih =>
    simp only [List.flatMap_cons, List.flatMap_append, List.length_append] at hfit hpage ⊢
    unfold encodeParts
    rw [encode_spec hS (hps p (List.mem_cons_self ..)) done todo (by omega)]
    simp only
    generalize (chunk S p).flatMap chunkBytes = bs at hfit ⊢
    rw [if_neg (by omega), ← List.length_append,
      ih (fun q hq => hps q (List.mem_cons_of_mem _ hq)) (done ++ bs) (todo.drop bs.length)
        (by simp only [List.length_append, List.length_drop]; omega) (by rw [List.length_drop]; omega)]
    simp only [List.append_assoc, List.length_append, List.drop_drop]

theorem chunk_length {S : Sizes} {p : Part} (hp : Spec.PartOk S p) :
    ((chunk S p).flatMap chunkBytes).length = if p.info.assigned.toNat ≤ Spec.headEntries S then 0
      else 8 + S.key + S.val * Spec.stored S p.info.assigned.toNat p.values.length := by
  unfold chunk
  split
  · rfl
  · simp only [List.flatMap_cons, List.flatMap_nil, List.append_nil, chunkBytes, List.length_append,
      leBytes_length, hp.1, flatten_length _ fun v h => hp.2.1 v (share_mem S p v h), share_length]

theorem chunks_length {S : Sizes} (ps : List Part) (hps : ∀ p ∈ ps, Spec.PartOk S p) :
    ((ps.flatMap (chunk S)).flatMap chunkBytes).length = Spec.used S ps := by
  induction ps with
  | nil => rfl
  | cons p ps ih =>
    simp only [List.flatMap_cons, List.flatMap_append, List.length_append,
      chunk_length (hps p (List.mem_cons_self ..)), ih fun q hq => hps q (List.mem_cons_of_mem _ hq),
      Spec.used, List.map_cons, List.sum_cons]

theorem used_le {S : Sizes} (hS : Spec.Whole S) (ps : List Part) :
    Spec.used S ps ≤ S.val * Spec.assigned ps := by
  induction ps with
  | nil => simp [Spec.used, Spec.assigned]
  | cons p ps ih =>
    simp only [Spec.used, Spec.assigned, List.map_cons, List.sum_cons, Nat.mul_add] at ih ⊢
    refine Nat.add_le_add ?_ ih
    split
    · exact Nat.zero_le _
    · rename_i h
      have h1 : 8 + S.key = S.val * Spec.headEntries S := by
        rw [← head_mul hS, head_eq hS, Nat.mul_comm]
      rw [h1, ← Nat.mul_add]
      exact Nat.mul_le_mul_left _ (by unfold Spec.stored; omega)

theorem bucket_spec {S : Sizes} (hS : Spec.Whole S) (ps : List Part) (hps : ∀ p ∈ ps, Spec.PartOk S p)
    (hfit : Spec.used S ps ≤ S.page) :
    bucket S ps = .ok ((ps.flatMap (chunk S)).flatMap chunkBytes ++
      List.replicate (S.page - Spec.used S ps) 0) := by
  have hl := chunks_length ps hps
  have h := encodeParts_spec hS ps hps [] (List.replicate S.page 0xFF) (by simp)
    (by rw [hl, List.length_replicate]; exact hfit)
  simp only [List.nil_append, List.length_nil] at h
  unfold bucket
  rw [h]
  simp only
  rw [hl, List.drop_replicate]
  split
  · rename_i h0
    rw [h0]; rfl
  · rename_i h0
    have := writeAt_spec (done := (ps.flatMap (chunk S)).flatMap chunkBytes)
      (todo := List.replicate (S.page - Spec.used S ps) 0xFF)
      (bs := List.replicate (S.page - Spec.used S ps) 0) (by simp)
    rw [hl] at this
    rw [this]
    simp

theorem share_ne {S : Sizes} {p : Part} (hp : Spec.PartOk S p)
    (h : ¬ p.info.assigned.toNat ≤ Spec.headEntries S) : Spec.share S p ≠ [] := by
  intro he
  have h1 := share_length S p
  rw [he] at h1
  have : p.values.length ≠ 0 := fun h => hp.2.2.1 (List.length_eq_zero_iff.mp h)
  unfold Spec.stored at h1
  simp only [List.length_nil] at h1
  omega

theorem share_empty {S : Sizes} {p : Part} (h : p.info.assigned.toNat ≤ Spec.headEntries S) :
    Spec.share S p = [] := by
  have h1 := share_length S p
  unfold Spec.stored at h1
  rw [← List.length_eq_zero_iff, h1]
  omega

theorem decode_bucket {S : Sizes} (hS : Spec.Whole S) (ps : List Part) (hps : ∀ p ∈ ps, Spec.PartOk S p)
    (hfit : Spec.used S ps ≤ S.page) (hpage : S.page < 2 ^ 64)
    (hrest : S.page - Spec.used S ps = 0 ∨ 8 ≤ S.page - Spec.used S ps) (key : List UInt8) :
    ∃ b, bucket S ps = .ok b ∧ b.length = S.page ∧ decode S key b = .ok (lookup key (ps.flatMap (chunk S))) := by
  have hl := chunks_length ps hps
  refine ⟨_, bucket_spec hS ps hps hfit, ?_, ?_⟩
  · rw [List.length_append, hl, List.length_replicate]; omega
  · unfold decode
    refine decodeLoop_spec S key _ hrest _ ?_ _ (Nat.lt_succ_self _)
    intro c hc
    obtain ⟨p, hp, hcp⟩ := List.mem_flatMap.mp hc
    have hpo := hps p hp
    have hlen : 8 + S.key + S.val * (Spec.share S p).length ≤ Spec.used S ps ∨
        p.info.assigned.toNat ≤ Spec.headEntries S := by
      by_cases h : p.info.assigned.toNat ≤ Spec.headEntries S
      · exact Or.inr h
      · left
        rw [share_length]
        have := List.single_le_sum (l := ps.map fun p => if p.info.assigned.toNat ≤ Spec.headEntries S then 0
          else 8 + S.key + S.val * Spec.stored S p.info.assigned.toNat p.values.length) (by simp)
          (if p.info.assigned.toNat ≤ Spec.headEntries S then 0
          else 8 + S.key + S.val * Spec.stored S p.info.assigned.toNat p.values.length)
          (List.mem_map.mpr ⟨p, hp, rfl⟩)
        rw [if_neg h] at this
        exact this
    unfold chunk at hcp
    split at hcp
    · cases hcp
    · rename_i h
      rw [List.mem_singleton] at hcp
      subst hcp
      have h2 : (Spec.share S p).length ≤ p.values.length := by
        rw [share_length]; exact Nat.min_le_right _ _
      have h3 := p.info.listLength.toNat_lt
      have h4 := hpo.2.2.2
      refine ⟨hpo.1, fun v hv => hpo.2.1 v (share_mem S p v hv), share_ne hpo h, ?_, ?_⟩
      · simp only; rcases hlen with hlen | hlen <;> omega
      · simp only; omega

theorem lookup_chunk {S : Sizes} {ps : List Part}
    (hd : ∀ p ∈ ps, ∀ q ∈ ps, p.key = q.key → p = q) {p : Part} (hp : p ∈ ps) :
    lookup p.key (ps.flatMap (chunk S)) = Spec.share S p := by
  by_cases h : p.info.assigned.toNat ≤ Spec.headEntries S
  · rw [share_empty h]
    apply lookup_none
    intro c hc he
    obtain ⟨q, hq, hcq⟩ := List.mem_flatMap.mp hc
    unfold chunk at hcq
    split at hcq
    · cases hcq
    · rename_i hn
      rw [List.mem_singleton] at hcq
      subst hcq
      rw [hd q hq p hp he] at hn
      exact hn h
  · apply lookup_some
    · exact List.mem_flatMap.mpr ⟨p, hp, by unfold chunk; rw [if_neg h]; simp⟩
    · intro c hc he
      obtain ⟨q, hq, hcq⟩ := List.mem_flatMap.mp hc
      unfold chunk at hcq
      split at hcq
      · cases hcq
      · rw [List.mem_singleton] at hcq
        subst hcq
        rw [hd q hq p hp he]

theorem lookup_absent {S : Sizes} {ps : List Part} {key : List UInt8} (h : ∀ p ∈ ps, p.key ≠ key) :
    lookup key (ps.flatMap (chunk S)) = [] := by
  apply lookup_none
  intro c hc he
  obtain ⟨q, hq, hcq⟩ := List.mem_flatMap.mp hc
  unfold chunk at hcq
  split at hcq
  · cases hcq
  · rw [List.mem_singleton] at hcq
    subst hcq
    exact h q hq he

/-- Control values fit in the length of the list. -/
theorem control_eq {S : Sizes} (hS : Spec.Whole S) : S.control = 2 * Spec.headEntries S := by
  unfold Sizes.control; rw [head_eq hS]

theorem stored_toNat {S : Sizes} (hS : Spec.Whole S) {n : Nat} {l x : UInt64}
    (hl : l.toNat = n + 2 * Spec.headEntries S) :
    (stdMin (if x ≤ UInt64.ofNat S.head then 0 else x - UInt64.ofNat S.head)
      (l - UInt64.ofNat S.control)).toNat = Spec.stored S x.toNat n := by
  have hh := head_eq hS
  have hhn : (UInt64.ofNat S.head).toNat = S.head := by
    apply toNat_ofNat_le (x := l); omega
  rw [stdMin_toNat, sub_ofNat (by rw [control_eq hS]; omega), control_eq hS, hl, Nat.add_sub_cancel, Spec.stored]
  split
  · rename_i h
    rw [UInt64.le_iff_toNat_le, hhn, hh] at h
    have : (0 : UInt64).toNat = 0 := rfl
    omega
  · rename_i h
    rw [UInt64.le_iff_toNat_le, hhn, hh] at h
    rw [sub_ofNat (by omega), hh]

theorem stash_record {S : Sizes} (hS : Spec.Whole S) (key : List UInt8) (hk : key.length = S.key)
    (values : List (List UInt8)) (hv : ∀ v ∈ values, v.length = S.val) (i : AssignInfo)
    (hl : i.listLength.toNat = values.length + 2 * Spec.headEntries S)
    (hsum : Spec.stored S i.assigned.toNat values.length + Spec.stored S i.dual.toNat values.length ≤
      values.length) (mid : List (List UInt8))
    (hmid : mid = (values.take (values.length - Spec.stored S i.dual.toNat values.length)).drop
      (Spec.stored S i.assigned.toNat values.length)) :
    ∃ bytes, serializeKV S key values i = .ok bytes ∧ (bytes = [] ↔ mid = []) ∧
      (mid ≠ [] → ∀ rest, deserializeKV S (bytes ++ rest) = .ok ((key, mid), rest)) := by
  have h1 := stored_toNat hS (x := i.assigned) hl
  have h2 := stored_toNat hS (x := i.dual) hl
  have hlt := i.listLength.toNat_lt
  have hlen : mid.length = values.length - Spec.stored S i.dual.toNat values.length -
      Spec.stored S i.assigned.toNat values.length := by
    rw [hmid, List.length_drop, List.length_take]; omega
  unfold serializeKV
  simp only
  generalize he1 : stdMin (if i.assigned ≤ UInt64.ofNat S.head then 0 else i.assigned - UInt64.ofNat S.head)
    (i.listLength - UInt64.ofNat S.control) = e1 at h1 ⊢
  generalize he2 : stdMin (if i.dual ≤ UInt64.ofNat S.head then 0 else i.dual - UInt64.ofNat S.head)
    (i.listLength - UInt64.ofNat S.control) = e2 at h2 ⊢
  have ho : (i.listLength - UInt64.ofNat S.control).toNat = values.length := by
    rw [sub_ofNat (by rw [control_eq hS]; omega), control_eq hS]; omega
  have hs : (i.listLength - UInt64.ofNat S.control - e1 - e2).toNat = mid.length := by
    have a1 : (i.listLength - UInt64.ofNat S.control - e1).toNat = values.length - e1.toNat := by
      rw [UInt64.toNat_sub_of_le _ _ (by rw [UInt64.le_iff_toNat_le]; omega), ho]
    rw [UInt64.toNat_sub_of_le _ _ (by rw [UInt64.le_iff_toNat_le]; omega), a1]
    omega
  have hst : (UInt64.ofNat values.length - e2).toNat =
      values.length - Spec.stored S i.dual.toNat values.length := by
    have : (UInt64.ofNat values.length).toNat = values.length :=
      toNat_ofNat_le (x := i.listLength) (by omega)
    rw [UInt64.toNat_sub_of_le _ _ (by rw [UInt64.le_iff_toNat_le]; omega), this, h2]
  have hz : (i.listLength - UInt64.ofNat S.control - e1 - e2 = 0) ↔ mid = [] := by
    rw [← List.length_eq_zero_iff, ← hs, ← UInt64.toNat_inj]; rfl
  by_cases hm : mid = []
  · refine ⟨[], by rw [if_pos (hz.mpr hm)], by simp [hm], fun h => absurd hm h⟩
  · refine ⟨key ++ leBytes 8 mid.length ++ mid.flatten, ?_, ?_, fun _ rest => ?_⟩
    · rw [if_neg (fun h => hm (hz.mp h)), hst, if_neg (by omega), hs, h1, hmid]
    · simp only [hm, iff_false]
      intro h
      have := congrArg List.length h
      simp at this
    · have hmv : ∀ v ∈ mid, v.length = S.val := by
        intro v hv'
        rw [hmid] at hv'
        exact hv v (List.mem_of_mem_take (List.mem_of_mem_drop hv'))
      have hfl := flatten_length _ hmv
      unfold deserializeKV
      have e0 : key ++ leBytes 8 mid.length ++ mid.flatten ++ rest =
          key ++ (leBytes 8 mid.length ++ (mid.flatten ++ rest)) := by simp
      rw [e0, if_neg (by simp [hk])]
      have d1 : (key ++ (leBytes 8 mid.length ++ (mid.flatten ++ rest))).drop S.key =
          leBytes 8 mid.length ++ (mid.flatten ++ rest) := List.drop_left' hk
      have d2 : (key ++ (leBytes 8 mid.length ++ (mid.flatten ++ rest))).drop (S.key + 8) =
          mid.flatten ++ rest := by
        rw [← List.drop_drop, d1, List.drop_left' (leBytes_length _ _)]
      have d3 : (key ++ (leBytes 8 mid.length ++ (mid.flatten ++ rest))).take S.key = key := List.take_left' hk
      simp only [d1, d3]
      rw [List.take_left' (leBytes_length _ _), ofLeBytes_leBytes _ _ (by omega), d2, readValues_spec _ hmv]
      simp only
      rw [← List.drop_drop, d2, List.drop_left' hfl]

theorem split_three (values : List (List UInt8)) (a b : Nat) (h : a + b ≤ values.length) :
    values.take a ++ (values.take (values.length - b)).drop a ++ values.drop (values.length - b) = values := by
  have h1 : values.take a = (values.take (values.length - b)).take a := by
    rw [List.take_take, Nat.min_eq_left (by omega)]
  rw [h1, List.take_append_drop, List.take_append_drop]

end Verif.Tethys.Generic
