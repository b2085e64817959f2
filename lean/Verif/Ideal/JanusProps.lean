import Verif.Ideal.Janus
import Verif.Ideal.DianaProps
import Verif.Janus.Toy

/-!
# Janus with ideal cryptography: C78
-/

namespace Verif.Ideal

section

variable {A B C D E : Type*} [Fintype A] [Fintype B] [Fintype C] [Fintype D] [Fintype E]

theorem prob_equiv {Ω Ω' : Type*} [Fintype Ω] [Fintype Ω'] (e : Ω ≃ Ω') (p : Ω' → Prop) :
    prob (fun ω => p (e ω)) = prob p := by
  unfold prob
  rw [Fintype.card_congr e]
  congr 2
  exact Nat.card_congr (e.subtypeEquiv (fun _ => Iff.rfl))

/-- An event of the first two components. -/
theorem prob_two_le {p : A × B → Prop} {b : ℚ} (h : prob p ≤ b) :
    prob (fun x : A × B × C => p (x.1, x.2.1)) ≤ b := by
  refine le_trans (le_of_eq ?_) (prob_first_le (Ω₂ := C) h)
  exact prob_equiv (Equiv.prodAssoc A B C).symm (fun x : (A × B) × C => p x.1)

/-- An event of the first and of the third component. -/
theorem prob_third_le {p : A × C → Prop} {b : ℚ} (h : prob p ≤ b) :
    prob (fun x : A × B × C × D => p (x.1, x.2.2.1)) ≤ b := by
  refine le_trans (le_of_eq ?_) (prob_first_le (Ω₂ := B × D) h)
  exact prob_equiv (Ω' := (A × C) × (B × D))
    { toFun := fun x => ((x.1, x.2.2.1), (x.2.1, x.2.2.2))
      invFun := fun y => (y.1.1, y.2.1, y.1.2, y.2.2)
      left_inv := fun _ => rfl
      right_inv := fun _ => rfl } (fun x : (A × C) × (B × D) => p x.1)

/-- An event of the last components. -/
theorem prob_skip_le {p : D → Prop} {b : ℚ} (hb : 0 ≤ b) (h : prob p ≤ b) :
    prob (fun x : A × B × C × D => p x.2.2.2) ≤ b :=
  prob_prod_le _ _ hb (fun _ => prob_prod_le _ _ hb (fun _ => prob_prod_le _ _ hb (fun _ => h)))

end

end Verif.Ideal

namespace Verif.Ideal.Janus

open Verif Verif.Janus Verif.Ideal.Diana

variable {PK KS CT Rand : Type}

theorem length_metas (K : List Str) (n : Nat) : (metas K n).length = K.length * (n + 1) := by
  unfold metas
  rw [List.length_flatMap]
  simp

/-- Repeated keywords give the same meta keywords. -/
theorem card_metas (K : List Str) (n : Nat) : (metas K n).toFinset.card ≤ K.toFinset.card * (n + 1) := by
  have : (metas K n).toFinset = K.toFinset.biUnion (fun w => ((List.range (n + 1)).map (fun e => hexFixed 8 e ++ w)).toFinset) := by
    ext x
    simp [metas]
  rw [this]
  refine le_trans (Finset.card_biUnion_le_card_mul _ _ (n + 1) (fun w _ => ?_)) le_rfl
  refine le_trans (List.toFinset_card_le _) (by simp)

theorem sum_bound (K : List Str) (n : Nat) :
    ∑ w ∈ (metas K n).toFinset, Verif.Janus.bound K n w ≤ K.toFinset.card * (n + 1) * n := by
  refine le_trans (Finset.sum_le_card_nsmul _ _ n (fun w _ => ?_)) ?_
  · unfold Verif.Janus.bound; split <;> omega
  · exact Nat.mul_le_mul_right _ (card_metas K n)

/-- There is a collision for `n` operations on the keywords `K` and the documents `D` with a probability of at most `bound`. -/
theorem collision_le {U : Finset Str} (R : Rest PK KS CT Rand) (K : List Str) (D : List Index) (n k d : Nat)
    (hn : n ≤ 2 ^ 32) (hU : stringsOf K D n ⊆ U) (hk : K.toFinset.card ≤ k) (hd : D.toFinset.card ≤ d) :
    prob (fun ω : Choice U => ¬ NoCollision (crypto R ω) K D n) ≤ bound k d n := by
  have hU1 : (metas K n).toFinset ⊆ U := fun x hx => hU (Finset.mem_union_left _ (Finset.mem_union_left _ hx))
  have hU2 : K.toFinset ⊆ U := fun x hx => hU (Finset.mem_union_left _ (Finset.mem_union_right _ hx))
  have hU3 : ∀ w ∈ K.toFinset, D.toFinset.image (keywordDocString w) ⊆ U := fun w hw x hx => hU (by
    obtain ⟨i, hi, rfl⟩ := Finset.mem_image.mp hx
    refine Finset.mem_union_right _ ?_
    rw [List.mem_toFinset, List.mem_flatMap]
    exact ⟨w, List.mem_toFinset.mp hw, List.mem_map_of_mem (List.mem_toFinset.mp hi)⟩)
  have hB : ∀ w, Verif.Janus.bound K n w ≤ 2 ^ 32 := by intro w; unfold Verif.Janus.bound; split <;> omega
  have hpos : ∀ w, 0 < Verif.Janus.bound K n w → w ∈ (metas K n).toFinset := by
    intro w h
    unfold Verif.Janus.bound at h
    split at h
    · next h1 => exact List.mem_toFinset.mpr h1
    · omega
  have hsum := sum_bound K n
  have hdb : ∀ V (R' : Diana.Rest V), prob (fun ω : Diana.Choice U => ¬ Diana.NoCollision (Diana.crypto R' R.hash ω) (Verif.Janus.bound K n)) ≤
      Diana.bound (k * (n + 1)) (k * (n + 1) * n) := fun V R' =>
    le_trans (C78_diana_collision R' R.hash _ _ _ hU1 hpos hB hsum)
      (bound_mono (le_trans (card_metas K n) (Nat.mul_le_mul_right _ hk)) (by gcongr))
  refine le_trans (prob_mono (q := fun ω =>
    ((¬ Diana.NoCollision (Diana.crypto R.ins R.hash (ω.1, ω.2.1)) (Verif.Janus.bound K n) ∨
      ¬ Diana.NoCollision (Diana.crypto R.del R.hash (ω.1, ω.2.2.1)) (Verif.Janus.bound K n)) ∨
      (∃ a ∈ K.toFinset, ∃ b ∈ K.toFinset, a ≠ b ∧ extend R.kwToken ω.2.2.2.1 a = extend R.kwToken ω.2.2.2.1 b)) ∨
      (∃ w ∈ K.toFinset, ∃ a ∈ D.toFinset.image (keywordDocString w), ∃ b ∈ D.toFinset.image (keywordDocString w),
        a ≠ b ∧ extend R.tagPrf ω.2.2.2.2 a = extend R.tagPrf ω.2.2.2.2 b)) ?_) ?_
  · intro ω hω
    by_contra hc
    simp only [not_or, not_not] at hc
    obtain ⟨⟨⟨h1, h2⟩, h3⟩, h4⟩ := hc
    apply hω
    refine ⟨h1, h2, ?_, ?_⟩
    · intro v hv w hw e
      by_contra hne
      exact h3 ⟨v, List.mem_toFinset.mpr hv, w, List.mem_toFinset.mpr hw, hne, e⟩
    · intro w hw i hi j hj e
      by_contra hne
      refine h4 ⟨w, List.mem_toFinset.mpr hw, _, Finset.mem_image_of_mem _ (List.mem_toFinset.mpr hi), _,
        Finset.mem_image_of_mem _ (List.mem_toFinset.mpr hj), fun h => hne (C14_tag_injective w w i j h).2, e⟩
  · unfold bound
    rw [two_mul]
    refine prob_or_le (prob_or_le (prob_or_le ?_ ?_) ?_) ?_
    · exact prob_two_le (A := U → Diana.Token) (B := Instance) (C := Instance × (U → Vector UInt8 16) × (U → Tag))
        (p := fun x => ¬ Diana.NoCollision (Diana.crypto R.ins R.hash x) (Verif.Janus.bound K n)) (hdb _ R.ins)
    · exact prob_third_le (A := U → Diana.Token) (B := Instance) (C := Instance) (D := (U → Vector UInt8 16) × (U → Tag))
        (p := fun x => ¬ Diana.NoCollision (Diana.crypto R.del R.hash x) (Verif.Janus.bound K n)) (hdb _ R.del)
    · have := extend_le (Ω₂ := U → Tag) (C := Vector UInt8 16) hU2 R.kwToken
      rw [card_bytes] at this
      have h2 := choose_two_mono hk (256 ^ 16)
      push_cast at this h2
      exact prob_skip_le (A := U → Diana.Token) (B := Instance) (C := Instance) (p := fun x : (U → Vector UInt8 16) × (U → Tag) =>
        ∃ a ∈ K.toFinset, ∃ b ∈ K.toFinset, a ≠ b ∧ extend R.kwToken x.1 a = extend R.kwToken x.1 b) (by positivity)
        (le_trans this h2)
    · refine le_trans (prob_exists_le K.toFinset _ ((d.choose 2 : ℚ) / 256 ^ 16) (fun w hw => ?_)) ?_
      · have := extend_collision_le (C := Tag) (hU3 w hw) R.tagPrf
        rw [card_bytes] at this
        have h2 := choose_two_mono (le_trans (Finset.card_image_le (f := keywordDocString w) (s := D.toFinset)) hd) (256 ^ 16)
        push_cast at this h2
        exact prob_skip_le (A := U → Diana.Token) (B := Instance) (C := Instance) (p := fun x : (U → Vector UInt8 16) × (U → Tag) =>
          ∃ a ∈ D.toFinset.image (keywordDocString w), ∃ b ∈ D.toFinset.image (keywordDocString w),
            a ≠ b ∧ extend R.tagPrf x.2 a = extend R.tagPrf x.2 b) (by positivity)
          (prob_prod_le _ _ (by positivity) (fun _ => le_trans this h2))
      · exact mul_mono hk _ (by positivity)

/-- **C78**, Janus: there is a collision for the points used by a history with a probability of at most `bound`. -/
theorem C78_janus_collision {U : Finset Str} (R : Rest PK KS CT Rand) (ops : List (Op Rand)) (k d : Nat)
    (hn : ops.length ≤ 2 ^ 32) (hU : strings ops ⊆ U) (hk : (ops.map Spec.Op.kw).toFinset.card ≤ k)
    (hd : (ops.flatMap Spec.Op.docs).toFinset.card ≤ d) :
    prob (fun ω : Choice U => ¬ NoCollisionFor (crypto R ω) ops) ≤ bound k d ops.length :=
  collision_le R _ _ _ k d hn hU hk hd

/-- **C78**, Janus: for the histories of C12, with random functions, the results are wrong with a probability of at most
`bound`. -/
theorem C78_janus_search_partial {U : Finset Str} (R : Rest PK KS CT Rand) (ops : List (Op Rand)) (k d : Nat)
    (laws : ∀ ω : Choice U, PunctLaws (crypto R ω))
    (hn : ops.length + 1 < 2 ^ 32) (hU : strings ops ⊆ U) (hk : (ops.map Spec.Op.kw).toFinset.card ≤ k)
    (hd : (ops.flatMap Spec.Op.docs).toFinset.card ≤ d)
    (hadm : Spec.admissible (fun _ => ⟨[], []⟩) ops = true) :
    prob (fun ω : Choice U => ¬ ∃ s, run (crypto R ω) Sys.init ops = .ok (s, Spec.run Spec.empty ops)) ≤
      bound k d ops.length := by
  refine le_trans (prob_mono ?_) (C78_janus_collision R ops k d (by omega) hU hk hd)
  intro ω hω hnc
  exact hω (C12_search_exact_partial (crypto R ω) (laws ω) ops hn hnc hadm)

/-- **C78**, Janus: for all histories, the server fails with a probability of at most `bound`. -/
theorem C78_janus_no_fault {U : Finset Str} (R : Rest PK KS CT Rand) (ops : List (Op Rand)) (k d : Nat)
    (hn : ops.length + 1 < 2 ^ 32) (hU : strings ops ⊆ U) (hk : (ops.map Spec.Op.kw).toFinset.card ≤ k)
    (hd : (ops.flatMap Spec.Op.docs).toFinset.card ≤ d) :
    prob (fun ω : Choice U => ¬ ∃ s outs, run (crypto R ω) Sys.init ops = .ok (s, outs)) ≤ bound k d ops.length := by
  refine le_trans (prob_mono ?_) (C78_janus_collision R ops k d (by omega) hU hk hd)
  intro ω hω hnc
  exact hω (C12_no_fault (crypto R ω) ops hn hnc)

/-- The puncturable encryption of any cryptography. -/
def Rest.of (c : Crypto PK KS CT Rand) : Rest PK KS CT Rand where
  ins := ⟨c.ins.kwToken, c.ins.mask, c.ins.xor, c.ins.xor_xor⟩
  del := ⟨c.del.kwToken, c.del.mask, c.del.xor, c.del.xor_xor⟩
  hash := c.ins.hash
  kwToken := c.kwToken
  tagPrf := c.tagPrf
  derive := c.derive
  initialKeyshare := c.initialKeyshare
  incPuncture := c.incPuncture
  encrypt := c.encrypt
  decrypt := c.decrypt
  ksTag := c.ksTag
  ctTag := c.ctTag
  ksTag_incPuncture := c.ksTag_incPuncture
  ctTag_encrypt := c.ctTag_encrypt

/-- Its contract does not depend on the choice. -/
theorem laws_of (c : Crypto PK KS CT Rand) (h : PunctLaws c) {U : Finset Str} (ω : Choice U) :
    PunctLaws (crypto (Rest.of c) ω) := ⟨h.decrypts, h.refuses⟩

/-- With a thousand keywords, a million documents and a million operations, the bound is below `2^-27`. -/
theorem C78_janus_number : bound (2 ^ 10) (2 ^ 20) (2 ^ 20) < 1 / 2 ^ 27 := by
  unfold bound Diana.bound
  rw [Nat.choose_two_right, Nat.choose_two_right, Nat.choose_two_right, Nat.choose_two_right]
  norm_num

/-- A history with a removal; the hypotheses hold for it. -/
example : prob (fun ω : Choice (strings [.insert [97] 3 (), .insert [97] 4 (), .remove [97] 3, .search [97]]) =>
    ¬ ∃ s, run (crypto (Rest.of Toy.crypto) ω) Sys.init [.insert [97] 3 (), .insert [97] 4 (), .remove [97] 3, .search [97]] =
      .ok (s, Spec.run Spec.empty [Op.insert [97] 3 (), .insert [97] 4 (), .remove [97] 3, .search [97]])) ≤ bound 1 2 4 :=
  C78_janus_search_partial _ _ 1 2 (laws_of _ Toy.laws) (by decide) (Finset.Subset.refl _) (by decide) (by decide)
    (by decide +kernel)

example : Spec.run Spec.empty [Op.insert [97] 3 (), .insert [97] 4 (), .remove [97] 3, .search [97]] = [[4]] := by
  decide +kernel

end Verif.Ideal.Janus
