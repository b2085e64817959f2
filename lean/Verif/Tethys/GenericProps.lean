import Verif.Tethys.GenericLemmas

/-!
# Properties of the encoder of Tethys for arbitrary types of keys and values (C74)
-/

namespace Verif.Tethys.Generic

/-- **C74**, one bucket, for types without filling bytes: when the entries assigned to the lists of a bucket fit
in the page, encoding stays within the page, and the decoder finds for the key of each list exactly its share,
and nothing for other keys. The rest of the page must be empty or have room for a length (8 bytes). -/
theorem C74_bucket_partial (S : Sizes) (hS : Spec.Whole S) (hpage : S.page < 2 ^ 64) (ps : List Part)
    (hps : ∀ p ∈ ps, Spec.PartOk S p) (hd : ∀ p ∈ ps, ∀ q ∈ ps, p.key = q.key → p = q)
    (hfit : S.val * Spec.assigned ps ≤ S.page)
    (hrest : S.page - Spec.used S ps = 0 ∨ 8 ≤ S.page - Spec.used S ps) :
    ∃ b, bucket S ps = .ok b ∧ b.length = S.page ∧ (∀ p ∈ ps, decode S p.key b = .ok (Spec.share S p)) ∧
      ∀ key, (∀ p ∈ ps, p.key ≠ key) → decode S key b = .ok [] := by
  have hu := Nat.le_trans (used_le hS ps) hfit
  obtain ⟨b, hb, hl, -⟩ := decode_bucket hS ps hps hu hpage hrest []
  have hdec : ∀ key, decode S key b = .ok (lookup key (ps.flatMap (chunk S))) := by
    intro key
    obtain ⟨b', hb', -, h⟩ := decode_bucket hS ps hps hu hpage hrest key
    rw [hb] at hb'
    cases hb'
    exact h
  exact ⟨b, hb, hl, fun p hp => by rw [hdec, lookup_chunk hd hp], fun key h => by rw [hdec, lookup_absent h]⟩

/-- Keys of 16 bytes and values of 4 bytes, in pages of 80 bytes. -/
def Sample.four : Sizes := ⟨16, 4, 80⟩

/-- Two lists, the second with its last values only. -/
def Sample.parts : List Part :=
  [⟨List.replicate 16 1, [[1, 0, 0, 0], [2, 0, 0, 0], [3, 0, 0, 0]], ⟨15, 9, 0, .incoming⟩⟩,
   ⟨List.replicate 16 2, [[4, 0, 0, 0], [5, 0, 0, 0], [6, 0, 0, 0]], ⟨15, 7, 6, .outgoing⟩⟩]

example : Spec.Whole Sample.four ∧ (∀ p ∈ Sample.parts, Spec.PartOk Sample.four p) ∧
    (∀ p ∈ Sample.parts, ∀ q ∈ Sample.parts, p.key = q.key → p = q) ∧
    Sample.four.val * Spec.assigned Sample.parts ≤ Sample.four.page ∧
    8 ≤ Sample.four.page - Spec.used Sample.four Sample.parts := by
  refine ⟨⟨by decide, by decide, by decide⟩, ?_, ?_, by decide, by decide⟩
  · simp only [Sample.parts, List.forall_mem_cons]
    refine ⟨⟨by decide, by decide, by decide, by decide⟩, ⟨by decide, by decide, by decide, by decide⟩, ?_⟩
    simp
  · simp [Sample.parts, List.replicate]

example : (do
    let b ← bucket Sample.four Sample.parts
    let r ← decode Sample.four (List.replicate 16 1) b
    let r' ← decode Sample.four (List.replicate 16 2) b
    return (r, r')).toOption = some ([[1, 0, 0, 0], [2, 0, 0, 0], [3, 0, 0, 0]], [[6, 0, 0, 0]]) := by
  decide +kernel

/-- **C74** for values of 8 bytes, keys of any multiple of 8 bytes and pages of any multiple of 8 bytes: no
condition on the rest of the page. -/
theorem C74_words (S : Sizes) (hval : S.val = 8) (hkey : 8 ∣ S.key) (hp8 : 8 ∣ S.page) (hpage : S.page < 2 ^ 64)
    (ps : List Part) (hps : ∀ p ∈ ps, Spec.PartOk S p) (hd : ∀ p ∈ ps, ∀ q ∈ ps, p.key = q.key → p = q)
    (hfit : S.val * Spec.assigned ps ≤ S.page) :
    ∃ b, bucket S ps = .ok b ∧ b.length = S.page ∧ (∀ p ∈ ps, decode S p.key b = .ok (Spec.share S p)) ∧
      ∀ key, (∀ p ∈ ps, p.key ≠ key) → decode S key b = .ok [] := by
  have hS : Spec.Whole S := ⟨by omega, by rw [hval], by rw [hval]; exact hkey⟩
  refine C74_bucket_partial S hS hpage ps hps hd hfit ?_
  have h8 : 8 ∣ Spec.used S ps := by
    unfold Spec.used
    clear hps hd hfit
    induction ps with
    | nil => simp
    | cons p ps ih =>
      rw [List.map_cons, List.sum_cons]
      refine Nat.dvd_add ?_ ih
      split
      · exact Nat.dvd_zero _
      · rw [hval]
        exact Nat.dvd_add (Nat.dvd_add (Nat.dvd_refl _) hkey) (Nat.dvd_mul_right _ _)
  obtain ⟨a, ha⟩ := h8
  obtain ⟨c, hc⟩ := hp8
  omega

example : (do
    let b ← bucket ⟨24, 8, 64⟩ [⟨List.replicate 24 1, [[1, 0, 0, 0, 0, 0, 0, 0], [2, 0, 0, 0, 0, 0, 0, 0]],
      ⟨10, 6, 0, .incoming⟩⟩]
    decode ⟨24, 8, 64⟩ (List.replicate 24 1) b).toOption =
    some [[1, 0, 0, 0, 0, 0, 0, 0], [2, 0, 0, 0, 0, 0, 0, 0]] := by decide +kernel

/-- **C74**, one list: the shares of its two buckets and the record of the stash together are the list. -/
theorem C74_list_partial (S : Sizes) (hS : Spec.Whole S) (key : List UInt8) (values : List (List UInt8))
    (l a b : UInt64) (hok : Spec.PartOk S ⟨key, values, ⟨l, a, b, .incoming⟩⟩)
    (hab : a.toNat + b.toNat ≤ l.toNat) :
    ∃ bytes mid, serializeKV S key values ⟨l, a, b, .incoming⟩ = .ok bytes ∧
      (bytes = [] ∧ mid = [] ∨ ∀ rest, deserializeKV S (bytes ++ rest) = .ok ((key, mid), rest)) ∧
      Spec.share S ⟨key, values, ⟨l, a, b, .incoming⟩⟩ ++ mid ++
        Spec.share S ⟨key, values, ⟨l, b, a, .outgoing⟩⟩ = values := by
  obtain ⟨hk, hv, -, hl⟩ := hok
  simp only at hk hv hl
  have hsum : Spec.stored S a.toNat values.length + Spec.stored S b.toNat values.length ≤ values.length := by
    unfold Spec.stored; omega
  obtain ⟨bytes, h1, h2, h3⟩ := stash_record hS key hk values hv ⟨l, a, b, .incoming⟩ hl hsum _ rfl
  refine ⟨bytes, _, h1, ?_, split_three values _ _ hsum⟩
  by_cases hm : (values.take (values.length - Spec.stored S b.toNat values.length)).drop
      (Spec.stored S a.toNat values.length) = []
  · exact Or.inl ⟨h2.mpr hm, hm⟩
  · exact Or.inr (h3 hm)

example : Spec.PartOk ⟨16, 2, 64⟩ ⟨List.replicate 16 7, [[1, 0], [2, 0], [3, 0]], ⟨27, 13, 13, .incoming⟩⟩ ∧
    (serializeKV ⟨16, 2, 64⟩ (List.replicate 16 7) [[1, 0], [2, 0], [3, 0]] ⟨27, 13, 13, .incoming⟩).toOption =
      some (List.replicate 16 7 ++ [1, 0, 0, 0, 0, 0, 0, 0] ++ [2, 0]) := by
  refine ⟨⟨by decide, by decide, by decide, by decide⟩, by decide +kernel⟩

/-- **C74** fails for values of 16 bytes: the encoder fills the entry of the length up, and the decoder looks for
the key right after the length. The list is stored and not found. -/
theorem C74_filled_violated :
    ∃ (S : Sizes) (p : Part), p.key.length = S.key ∧ (∀ v ∈ p.values, v.length = S.val) ∧
      p.info.listLength.toNat = p.values.length + S.control ∧ S.val * p.info.assigned.toNat ≤ S.page ∧
      ∃ b, bucket S [p] = .ok b ∧ b.length = S.page ∧ p.info.assigned = p.info.listLength ∧
        decode S p.key b = .ok [] := by
  refine ⟨⟨16, 16, 128⟩, ⟨List.replicate 16 7, [List.replicate 16 9], ⟨5, 5, 0, .incoming⟩⟩, by decide, by decide,
    by decide, by decide, (bucket ⟨16, 16, 128⟩ [⟨List.replicate 16 7, [List.replicate 16 9],
      ⟨5, 5, 0, .incoming⟩⟩]).toOption.getD [], by decide +kernel, by decide +kernel, by decide, by decide +kernel⟩

/-- **C74** fails for values of 32 bytes: after the key the encoder fills twice as many entries as it should, and
writes outside the page although the entries assigned fit in it. -/
theorem C74_overwrite_violated :
    ∃ (S : Sizes) (p : Part), p.key.length = S.key ∧ (∀ v ∈ p.values, v.length = S.val) ∧
      p.info.listLength.toNat = p.values.length + S.control ∧ S.val * p.info.assigned.toNat ≤ S.page ∧
      bucket S [p] = .error .outOfBounds := by
  refine ⟨⟨16, 32, 96⟩, ⟨List.replicate 16 7, [List.replicate 32 9, List.replicate 32 8], ⟨6, 3, 3, .incoming⟩⟩,
    by decide, by decide, by decide, by decide, ?_⟩
  decide +kernel

/-- **C74** fails for values of 4 bytes when 4 bytes of the page are left: the decoder reads a length of 8 bytes
there when it looks for a key that is not in the bucket. -/
theorem C74_overread_violated :
    ∃ (S : Sizes) (p : Part) (key : List UInt8), Spec.Whole S ∧ Spec.PartOk S p ∧ key.length = S.key ∧
      S.val * p.info.assigned.toNat ≤ S.page ∧ ∃ b, bucket S [p] = .ok b ∧
        decode S p.key b = .ok p.values ∧
        decode S key b = .error .outOfBounds := by
  refine ⟨⟨16, 4, 40⟩, ⟨List.replicate 16 7, [[1, 0, 0, 0], [2, 0, 0, 0], [3, 0, 0, 0]], ⟨15, 9, 0, .incoming⟩⟩,
    List.replicate 16 8, ⟨by decide, by decide, by decide⟩, ⟨by decide, by decide, by decide, by decide⟩, by decide,
    by decide, (bucket ⟨16, 4, 40⟩ [⟨List.replicate 16 7, [[1, 0, 0, 0], [2, 0, 0, 0], [3, 0, 0, 0]],
      ⟨15, 9, 0, .incoming⟩⟩]).toOption.getD [], by decide +kernel, by decide +kernel, by decide +kernel⟩

end Verif.Tethys.Generic
