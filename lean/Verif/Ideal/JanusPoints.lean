import Verif.Ideal.JanusProps
import Verif.Ideal.JanusKeys

/-!
# Janus with ideal cryptography: C78 and C80 with the points that a history uses

A history with `a` insertions and `b` removals uses `a` and `b` positions of the two instances of Diana, under at most `a` and `b`
meta keywords, and at most `a + b` tags (`/repo/lib/janus/janus_client.cpp` L81-178).
-/

namespace Verif.Ideal.Janus

open Verif Verif.Janus Verif.Ideal.Diana

variable {PK KS CT Rand : Type}

/-- The number of insertions of a history -/
def insertions (ops : List (Op Rand)) : Nat := ops.countP (fun op => match op with | .insert _ _ _ => true | _ => false)

/-- The number of removals of a history -/
def removals (ops : List (Op Rand)) : Nat := ops.countP (fun op => match op with | .remove _ _ => true | _ => false)

/-- The strings of the tags of a history -/
def tagStrings (ops : List (Op Rand)) : List Str := ops.flatMap (fun op => (Spec.Op.docs op).map (keywordDocString (Spec.Op.kw op)))

/-- The strings used by a history: meta keywords, keywords, and keywords with documents -/
def points (ops : List (Op Rand)) : Finset Str :=
  (Spec.insertMetas (fun _ => (0, false)) ops).toFinset ∪ (Spec.removeMetas (fun _ => (0, false)) ops).toFinset ∪
    (ops.map Spec.Op.kw).toFinset ∪ (tagStrings ops).toFinset

/-- The bound on the probability of a collision for `k` keywords, `a` insertions and `b` removals -/
def pointsBound (k a b : Nat) : ℚ :=
  Diana.bound a a + Diana.bound b b + (k.choose 2 : ℚ) / 256 ^ 16 + ((a + b).choose 2 : ℚ) / 256 ^ 16

theorem length_insertMetas (E : Str → Nat × Bool) (ops : List (Op Rand)) : (Spec.insertMetas E ops).length = insertions ops := by
  induction ops generalizing E with
  | nil => rfl
  | cons op ops ih => cases op <;> simp [Spec.insertMetas, insertions, ih]

theorem length_removeMetas (E : Str → Nat × Bool) (ops : List (Op Rand)) : (Spec.removeMetas E ops).length = removals ops := by
  induction ops generalizing E with
  | nil => rfl
  | cons op ops ih => cases op <;> simp [Spec.removeMetas, removals, ih]

theorem length_tagStrings (ops : List (Op Rand)) : (tagStrings ops).length = insertions ops + removals ops := by
  induction ops with
  | nil => rfl
  | cons op ops ih =>
    rw [tagStrings, List.flatMap_cons, List.length_append, ← tagStrings, ih]
    cases op <;> simp [Spec.Op.docs, insertions, removals] <;> omega

theorem sum_count (l : List Str) : ∑ w ∈ l.toFinset, l.count w = l.length := by
  rw [← List.sum_toFinset_count_eq_length l]
  refine Finset.sum_congr rfl (fun w _ => ?_)
  congr 1
  exact lawful_beq_subsingleton _ _

/-- **C78**, Janus: there is a collision on the points that a history uses with a probability of at most `pointsBound`. -/
theorem C78_janus_points_collision {U : Finset Str} (R : Rest PK KS CT Rand) (ops : List (Op Rand)) (k a b : Nat)
    (hn : ops.length ≤ 2 ^ 32) (hU : points ops ⊆ U) (hk : (ops.map Spec.Op.kw).toFinset.card ≤ k)
    (ha : insertions ops ≤ a) (hb : removals ops ≤ b) :
    prob (fun ω : Choice U => ¬ NoCollisionAt (crypto R ω) ops) ≤ pointsBound k a b := by
  set LI := Spec.insertMetas (fun _ => (0, false)) ops with hLI
  set LD := Spec.removeMetas (fun _ => (0, false)) ops with hLD
  have hU1 : LI.toFinset ⊆ U := fun x hx =>
    hU (Finset.mem_union_left _ (Finset.mem_union_left _ (Finset.mem_union_left _ hx)))
  have hU2 : LD.toFinset ⊆ U := fun x hx =>
    hU (Finset.mem_union_left _ (Finset.mem_union_left _ (Finset.mem_union_right _ hx)))
  have hU3 : (ops.map Spec.Op.kw).toFinset ⊆ U := fun x hx => hU (Finset.mem_union_left _ (Finset.mem_union_right _ hx))
  have hU4 : (tagStrings ops).toFinset ⊆ U := fun x hx => hU (Finset.mem_union_right _ hx)
  have hlen : LI.length + LD.length ≤ ops.length := length_metasAt (fun _ => (0, false)) ops
  have hlI : LI.length ≤ a := by rw [hLI, length_insertMetas]; exact ha
  have hlD : LD.length ≤ b := by rw [hLD, length_removeMetas]; exact hb
  have hdb : ∀ (V : Type) (R' : Diana.Rest V) (l : List Str) (m : Nat), l.toFinset ⊆ U → l.length ≤ m → l.length ≤ 2 ^ 32 →
      prob (fun ω : Diana.Choice U => ¬ Diana.NoCollision (Diana.crypto R' R.hash ω) (fun mk => l.count mk)) ≤ Diana.bound m m := by
    intro V R' l m h1 h2 h3
    refine le_trans (C78_diana_collision R' R.hash l.toFinset (fun mk => l.count mk) l.length h1 ?_ ?_ (le_of_eq (sum_count l))) ?_
    · intro w hw
      exact List.mem_toFinset.mpr (List.count_pos_iff.mp hw)
    · intro w
      exact le_trans List.count_le_length h3
    · exact bound_mono (le_trans (List.toFinset_card_le _) h2) h2
  refine le_trans (prob_mono (q := fun ω =>
    ((¬ Diana.NoCollision (Diana.crypto R.ins R.hash (ω.1, ω.2.1)) (fun mk => LI.count mk) ∨
      ¬ Diana.NoCollision (Diana.crypto R.del R.hash (ω.1, ω.2.2.1)) (fun mk => LD.count mk)) ∨
      (∃ x ∈ (ops.map Spec.Op.kw).toFinset, ∃ y ∈ (ops.map Spec.Op.kw).toFinset,
        x ≠ y ∧ extend R.kwToken ω.2.2.2.1 x = extend R.kwToken ω.2.2.2.1 y)) ∨
      (∃ x ∈ (tagStrings ops).toFinset, ∃ y ∈ (tagStrings ops).toFinset,
        x ≠ y ∧ extend R.tagPrf ω.2.2.2.2 x = extend R.tagPrf ω.2.2.2.2 y)) ?_) ?_
  · intro ω hω
    by_contra hc
    simp only [not_or, not_not] at hc
    obtain ⟨⟨⟨h1, h2⟩, h3⟩, h4⟩ := hc
    apply hω
    refine ⟨h1, h2, ?_, ?_⟩
    · intro v hv w hw e
      by_contra hne
      exact h3 ⟨v, List.mem_toFinset.mpr hv, w, List.mem_toFinset.mpr hw, hne, e⟩
    · intro w i hi j hj e
      by_contra hne
      have hmem : ∀ i ∈ Spec.docsOf w ops, keywordDocString w i ∈ (tagStrings ops).toFinset := by
        intro i hi
        obtain ⟨op, ho, hd⟩ := List.mem_flatMap.mp hi
        obtain ⟨ho, hw⟩ := List.mem_filter.mp ho
        have hw : Spec.Op.kw op = w := by simpa using hw
        rw [List.mem_toFinset]
        exact List.mem_flatMap.mpr ⟨op, ho, List.mem_map.mpr ⟨i, hd, by rw [hw]⟩⟩
      exact h4 ⟨_, hmem i hi, _, hmem j hj, fun h => hne (C14_tag_injective w w i j h).2, e⟩
  · unfold pointsBound
    refine prob_or_le (prob_or_le (prob_or_le ?_ ?_) ?_) ?_
    · exact prob_two_le (A := U → Diana.Token) (B := Instance) (C := Instance × (U → Vector UInt8 16) × (U → Tag))
        (p := fun x => ¬ Diana.NoCollision (Diana.crypto R.ins R.hash x) (fun mk => LI.count mk))
        (hdb _ R.ins LI a hU1 hlI (by omega))
    · exact prob_third_le (A := U → Diana.Token) (B := Instance) (C := Instance) (D := (U → Vector UInt8 16) × (U → Tag))
        (p := fun x => ¬ Diana.NoCollision (Diana.crypto R.del R.hash x) (fun mk => LD.count mk))
        (hdb _ R.del LD b hU2 hlD (by omega))
    · have := extend_le (Ω₂ := U → Tag) (C := Vector UInt8 16) hU3 R.kwToken
      rw [card_bytes] at this
      have h2 := choose_two_mono hk (256 ^ 16)
      push_cast at this h2
      exact prob_skip_le (A := U → Diana.Token) (B := Instance) (C := Instance) (p := fun x : (U → Vector UInt8 16) × (U → Tag) =>
        ∃ v ∈ (ops.map Spec.Op.kw).toFinset, ∃ w ∈ (ops.map Spec.Op.kw).toFinset,
          v ≠ w ∧ extend R.kwToken x.1 v = extend R.kwToken x.1 w) (by positivity)
        (le_trans this h2)
    · have := extend_collision_le (C := Tag) hU4 R.tagPrf
      rw [card_bytes] at this
      have h2 := choose_two_mono (le_trans (List.toFinset_card_le (tagStrings ops)) (show _ ≤ a + b by rw [length_tagStrings]; omega))
        (256 ^ 16)
      push_cast at this h2
      exact prob_skip_le (A := U → Diana.Token) (B := Instance) (C := Instance) (p := fun x : (U → Vector UInt8 16) × (U → Tag) =>
        ∃ v ∈ (tagStrings ops).toFinset, ∃ w ∈ (tagStrings ops).toFinset, v ≠ w ∧ extend R.tagPrf x.2 v = extend R.tagPrf x.2 w)
        (by positivity) (prob_prod_le _ _ (by positivity) (fun _ => le_trans this h2))

/-- **C78**, Janus: for the histories of C12 with `a` insertions and `b` removals, the results are wrong with a probability of at most
`pointsBound`. -/
theorem C78_janus_points_partial {U : Finset Str} (R : Rest PK KS CT Rand) (ops : List (Op Rand)) (k a b : Nat)
    (laws : ∀ ω : Choice U, PunctLaws (crypto R ω))
    (hn : ops.length + 1 < 2 ^ 32) (hU : points ops ⊆ U) (hk : (ops.map Spec.Op.kw).toFinset.card ≤ k)
    (ha : insertions ops ≤ a) (hb : removals ops ≤ b)
    (hadm : Spec.admissible (fun _ => ⟨[], []⟩) ops = true) :
    prob (fun ω : Choice U => ¬ ∃ s, run (crypto R ω) Sys.init ops = .ok (s, Spec.run Spec.empty ops)) ≤ pointsBound k a b := by
  refine le_trans (prob_mono ?_) (C78_janus_points_collision R ops k a b (by omega) hU hk ha hb)
  intro ω hω hnc
  exact hω (C12_points_partial (crypto R ω) (laws ω) ops hn hnc hadm)

/-- **C78**, Janus: for all histories, the server fails with a probability of at most `pointsBound`. -/
theorem C78_janus_points_no_fault {U : Finset Str} (R : Rest PK KS CT Rand) (ops : List (Op Rand)) (k a b : Nat)
    (hn : ops.length + 1 < 2 ^ 32) (hU : points ops ⊆ U) (hk : (ops.map Spec.Op.kw).toFinset.card ≤ k)
    (ha : insertions ops ≤ a) (hb : removals ops ≤ b) :
    prob (fun ω : Choice U => ¬ ∃ s outs, run (crypto R ω) Sys.init ops = .ok (s, outs)) ≤ pointsBound k a b := by
  refine le_trans (prob_mono ?_) (C78_janus_points_collision R ops k a b (by omega) hU hk ha hb)
  intro ω hω hnc
  exact hω (C12_points_no_fault (crypto R ω) ops hn hnc)

/-- With a million keywords, a million insertions and a million removals, the bound is below `2^-85`. -/
theorem C78_janus_points_number : pointsBound (2 ^ 20) (2 ^ 20) (2 ^ 20) < 1 / 2 ^ 85 := by
  unfold pointsBound Diana.bound
  rw [Nat.choose_two_right, Nat.choose_two_right]
  norm_num

theorem pointsBound_nonneg (k a b : Nat) : 0 ≤ pointsBound k a b := by
  unfold pointsBound Diana.bound
  positivity

/-- **C80**, Janus: the same with the derived keys. -/
theorem C80_janus_points_partial [Fintype KS] [Fintype CT] (N : Inputs) {U : Finset Str} (hUN : U ⊆ N.set) (Q : Params PK KS CT Rand)
    (laws : PunctLaws Q.fixed.rest) (ops : List (Op Rand)) (k a b : Nat)
    (hn : ops.length + 1 < 2 ^ 32) (hU : points ops ⊆ U) (hk : (ops.map Spec.Op.kw).toFinset.card ≤ k)
    (ha : insertions ops ≤ a) (hb : removals ops ≤ b)
    (hadm : Spec.admissible (fun _ => ⟨[], []⟩) ops = true) :
    prob (fun x : Keyed N U KS CT =>
        ¬ ∃ s, run (keyedCrypto Q (families N.label x.1) x.2) Sys.init ops = .ok (s, Spec.run Spec.empty ops)) ≤
      pointsBound k a b + keysBound := by
  refine le_transfer (C80_janus_keys N (fun f (r : Others U KS CT) =>
    ¬ ∃ s, run (keyedCrypto Q f r) Sys.init ops = .ok (s, Spec.run Spec.empty ops))) ?_
  exact prob_others hUN Q (fun c => ¬ ∃ s, run c Sys.init ops = .ok (s, Spec.run Spec.empty ops)) _ (pointsBound_nonneg k a b)
    (fun F m => C78_janus_points_partial (others Q F m) ops k a b (fun ω => ⟨laws.decrypts, laws.refuses⟩) hn hU hk ha hb hadm)

/-! ## Examples -/

/-- The history of the other examples uses three positions; the hypotheses hold for it. -/
example : prob (fun ω : Choice (points sampleHistory) =>
    ¬ ∃ s, run (crypto (Rest.of Toy.crypto) ω) Sys.init sampleHistory = .ok (s, Spec.run Spec.empty sampleHistory)) ≤
      pointsBound 1 2 1 :=
  C78_janus_points_partial _ _ 1 2 1 (laws_of _ Toy.laws) (by decide) (Finset.Subset.refl _) (by decide) (by decide) (by decide)
    (by decide +kernel)

example : Spec.run Spec.empty sampleHistory = [[4]] ∧ insertions sampleHistory = 2 ∧ removals sampleHistory = 1 ∧
    (points sampleHistory).card = 4 := by
  decide +kernel

theorem points_short : ∀ s ∈ points sampleHistory, s.length ≤ 25 := by decide +kernel

example : prob (fun x : Keyed (Inputs.upTo 100 (by decide)) (points sampleHistory) (UInt32 × Tag) (Index × Tag) =>
    ¬ ∃ s, run (keyedCrypto sampleParams (families (Inputs.label _) x.1) x.2) Sys.init sampleHistory = .ok (s, [[4]])) ≤
      pointsBound 1 2 1 + keysBound := by
  have h := C80_janus_points_partial (Inputs.upTo 100 (by decide)) (U := points sampleHistory) (fun s hs => by
    simp only [Inputs.upTo, Set.Finite.mem_toFinset, Set.mem_ofPred_eq]
    exact Nat.le_trans (m := 25) (points_short s hs) (by decide)) sampleParams Toy.laws sampleHistory 1 2 1 (by decide)
    (Finset.Subset.refl _) (by decide) (by decide) (by decide) (by decide +kernel)
  rwa [show Spec.run Spec.empty sampleHistory = [[4]] by decide +kernel] at h

/-- With searches between the updates, a keyword has several meta keywords; the positions are those of the updates. -/
example : Spec.insertMetas (fun _ => (0, false)) [Op.insert [97] 3 (), .search [97], .search [97], .insert [97] 4 (), .remove [98] 1] =
      [hexFixed 8 0 ++ [97], hexFixed 8 1 ++ [97]] ∧
    Spec.removeMetas (fun _ => (0, false)) [Op.insert [97] 3 (), .search [97], .search [97], .insert [97] 4 (), .remove [98] 1] =
      [hexFixed 8 0 ++ [98]] := by
  decide +kernel

end Verif.Ideal.Janus
