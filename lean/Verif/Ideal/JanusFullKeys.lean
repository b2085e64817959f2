import Verif.Ideal.JanusFull
import Verif.Ideal.JanusKeys

/-!
# What the Janus server learns from searches, with derived keys: C80 and C82

As `Verif.Ideal.JanusFull`, with the seven keys that `JanusClient` derives from its master key (`/repo/lib/janus/janus_client.cpp` L19-73) and
one keyed function that is chosen at random, as in `Verif.Ideal.JanusKeys`.
-/

namespace Verif.Ideal.Janus

open Verif Verif.Janus Verif.Janus.Spec Verif.Leak Verif.Ideal.Diana

variable {PK KS CT Rand : Type}

/-- The number of characters before the keyword in the inputs of the functions of Janus itself; the instances of Diana have other inputs. -/
def before : Label → Option Nat
  | .punctEnc => some 8
  | .keywordToken => some 0
  | .tagDerivation => some 18
  | _ => none

/-- Rename the keyword in an input for a label. -/
def relabel (τ : Str → Str) (l : Label) (s : Str) : Str :=
  match before l with
  | some k => lift k τ s
  | none => s

/-- The inputs contain everything that ends with a keyword of the dictionary. -/
def Covers (N : Inputs) (D : Finset Str) : Prop := ends 8 D ⊆ N.set ∧ ends 0 D ⊆ N.set ∧ ends 18 D ⊆ N.set

theorem covers_at {N : Inputs} {D : Finset Str} (h : Covers N D) {l : Label} {k : Nat} (hk : before l = some k) : ends k D ⊆ N.set := by
  obtain ⟨h1, h2, h3⟩ := h
  cases l with
  | punctEnc => obtain rfl := Option.some.inj hk; exact h1
  | keywordToken => obtain rfl := Option.some.inj hk; exact h2
  | tagDerivation => obtain rfl := Option.some.inj hk; exact h3
  | _ => cases hk

theorem lift_mem_inputs {N : Inputs} {D : Finset Str} {k : Nat} (h : ends k D ⊆ N.set) (τ : Str → Str) (hin : ∀ a, τ a ∈ D ↔ a ∈ D)
    (hout : ∀ a, a ∉ D → τ a = a) (s : Str) : lift k τ s ∈ N.set ↔ s ∈ N.set := by
  by_cases hs : s ∈ ends k D
  · exact ⟨fun _ => h hs, fun _ => h ((lift_mem_ends k D τ hin s).mpr hs)⟩
  · rw [lift_outside k D τ hout s hs]

theorem relabel_mem {N : Inputs} {D : Finset Str} (h : Covers N D) (τ : Str → Str) (hin : ∀ a, τ a ∈ D ↔ a ∈ D)
    (hout : ∀ a, a ∉ D → τ a = a) (l : Label) (s : Str) : relabel τ l s ∈ N.set ↔ s ∈ N.set := by
  unfold relabel
  cases hk : before l with
  | none => exact Iff.rfl
  | some k => exact lift_mem_inputs (covers_at h hk) τ hin hout s

/-- The keyed function with renamed keywords -/
def rekeyed {N : Inputs} {D : Finset Str} (h : Covers N D) (τ : Str → Str) (hin : ∀ a, τ a ∈ D ↔ a ∈ D)
    (hout : ∀ a, a ∉ D → τ a = a) (F : Label × N.set → Diana.Leaf) : Label × N.set → Diana.Leaf :=
  fun x => F (x.1, ⟨relabel τ x.1 x.2, (relabel_mem h τ hin hout x.1 x.2).mpr x.2.2⟩)

theorem rekeyed_injective {N : Inputs} {D : Finset Str} (h : Covers N D) (τ : Equiv.Perm Str) (hin : ∀ a, τ a ∈ D ↔ a ∈ D)
    (hout : ∀ a, a ∉ D → τ a = a) : Function.Injective (rekeyed h τ hin hout) := by
  have hin' : ∀ a, τ.symm a ∈ D ↔ a ∈ D := fun a => by rw [← hin (τ.symm a)]; simp
  have hout' : ∀ a, a ∉ D → τ.symm a = a := fun a ha => by rw [Equiv.symm_apply_eq, hout a ha]
  intro F F' he
  funext x
  obtain ⟨l, s, hs⟩ := x
  have := congrFun he (l, ⟨relabel τ.symm l s, (relabel_mem h τ.symm hin' hout' l s).mpr hs⟩)
  have hback : relabel τ l (relabel τ.symm l s) = s := by
    unfold relabel
    cases before l with
    | none => rfl
    | some k => exact lift_comp k τ.symm τ (fun w => by simp) s
  simpa only [rekeyed, hback] using this

theorem apply_rekeyed {N : Inputs} {D : Finset Str} (h : Covers N D) (τ : Str → Str) (hin : ∀ a, τ a ∈ D ↔ a ∈ D)
    (hout : ∀ a, a ∉ D → τ a = a) (Q : Params PK KS CT Rand) (F : Label × N.set → Diana.Leaf) (l : Label) (k : Nat)
    (hk : before l = some k) (s : Str) : apply Q (rekeyed h τ hin hout F) l s = apply Q F l (lift k τ s) := by
  have hr : relabel τ l s = lift k τ s := by unfold relabel; rw [hk]
  have hm := lift_mem_inputs (covers_at h hk) τ hin hout s
  unfold apply
  by_cases hs : s ∈ N.set
  · rw [dif_pos hs, dif_pos (hm.mpr hs)]
    simp only [rekeyed, hr]
  · rw [dif_neg hs, dif_neg (fun hh => hs (hm.mp hh)),
      lift_outside k D τ hout s (fun hh => hs (covers_at h hk hh))]

theorem renames_rekeyed {N : Inputs} {D : Finset Str} (h : Covers N D) (τ : Str → Str) (hin : ∀ a, τ a ∈ D ↔ a ∈ D)
    (hout : ∀ a, a ∉ D → τ a = a) (Q : Params PK KS CT Rand) (F : Label × N.set → Diana.Leaf) :
    Renames τ (rest Q (rekeyed h τ hin hout F)) (rest Q F) := by
  refine ⟨fun s => ?_, fun s => ?_, fun s => ?_, rfl, rfl, rfl⟩
  · simp only [rest, apply_rekeyed h τ hin hout Q F .punctEnc 8 rfl]
  · simp only [rest, apply_rekeyed h τ hin hout Q F .tagDerivation 18 rfl]
  · simp only [rest, apply_rekeyed h τ hin hout Q F .keywordToken 0 rfl]

/-- What the server sees of a history, for a keyed function and the functions of the instances of Diana -/
def keyedSights {N : Inputs} {U : Finset Str} (Q : Params PK KS CT Rand) (y : (Label × N.set → Diana.Leaf) × FullChoice U KS CT)
    (ops : List (Op Rand)) : List (Sight KS CT) := sights (fixedOf Q y.1) y.2 ops

/-- For pairs with the same leakage, there is a permutation of the choices that turns the one view into the other. -/
theorem exists_perm_keyed {N : Inputs} {U : Finset Str} (Q : Params PK KS CT Rand) (D : Finset Str) (hN : Covers N D) (n : Nat)
    (hn : n < 2 ^ 32) (P : List (Op Rand × Op Rand)) (hP : LRules D n P) :
    ∃ π : (Label × N.set → Diana.Leaf) × FullChoice U KS CT → (Label × N.set → Diana.Leaf) × FullChoice U KS CT, Function.Injective π ∧
      (∀ y, (π y).2.1.1 = y.2.1.1) ∧
      ∀ y, ¬ JBad Q.fixed D n y.2 → keyedSights Q (π y) (P.map Prod.fst) = keyedSights Q y (P.map Prod.snd) ∧
        ∀ x, Told (fixedOf Q y.1) D n y.2 (P.map Prod.snd) x → tokensMasks (π y).2 x = tokensMasks y.2 x := by
  obtain ⟨τ, hin, hout, halike⟩ := exists_rename D n P hP
  obtain ⟨-, hD, hl⟩ := hP
  have h0 : Epochs noCells 0 := fun _ => Nat.le_refl _
  have hk : ∀ f : Op Rand × Op Rand → Op Rand, (∀ p ∈ P, Op.kw (f p) ∈ D) → ∀ o ∈ P.map f, Op.kw o ∈ D := by
    intro f hf o ho
    obtain ⟨p, hp, rfl⟩ := List.mem_map.mp ho
    exact hf p hp
  have hex : ∀ F : Label × N.set → Diana.Leaf,
      ∃ (φ : (U → Diana.Token) → (Diana.Leaf × Pos → Diana.Leaf) → Secrets CT → Secrets CT)
      (χ : (U → Diana.Token) → (Diana.Leaf × Pos → Diana.Leaf) → Secrets KS → Secrets KS),
      (∀ h e, Function.Injective (φ h e)) ∧ (∀ h e, Function.Injective (χ h e)) ∧
      ∀ ω : FullChoice U KS CT, ¬ JBad (fixedOf Q F) D n ω →
        sights (fixedOf Q (rekeyed hN τ hin hout F)) ((ω.1.1, φ ω.1.1 ω.2.1 ω.1.2.1, χ ω.1.1 ω.2.2 ω.1.2.2), ω.2) (P.map Prod.fst) =
          sights (fixedOf Q F) ω (P.map Prod.snd) ∧
        ∀ x, Told (fixedOf Q F) D n ω (P.map Prod.snd) x →
          tokensMasks (((ω.1.1, φ ω.1.1 ω.2.1 ω.1.2.1, χ ω.1.1 ω.2.2 ω.1.2.2), ω.2) : FullChoice U KS CT) x = tokensMasks ω x := by
    intro F
    obtain ⟨q1, q2, q3⟩ := parts_rename τ (renames_rekeyed hN τ hin hout Q F) (P.map Prod.fst) noCells noCells (fun _ => rfl)
    obtain ⟨p1, p2, p3⟩ := alike_parts (rest Q F) _ noCells noCells 0 halike (fun _ _ => rfl) h0 h0 (by simp; omega)
    have e1 : (P.map (fun p => (renameOp τ p.1, p.2))).map Prod.fst = (P.map Prod.fst).map (renameOp τ) := by simp [Function.comp_def]
    have e2 : (P.map (fun p => (renameOp τ p.1, p.2))).map Prod.snd = P.map Prod.snd := by simp [Function.comp_def]
    rw [e1, e2] at p1 p2 p3
    exact exists_rekey_janus (U := U) (fixedOf Q F) (rest Q (rekeyed hN τ hin hout F)) D n hn _ _
      (hk Prod.fst (fun p hp => (hD p hp).1)) (hk Prod.snd (fun p hp => (hD p hp).2)) (by simpa using hl) (by simpa using hl)
      (by rw [show (fixedOf Q F).rest = rest Q F from rfl, ← leak_alike p1, q1, leak_rename _ (lift_injective 8 τ)])
      (by rw [show (fixedOf Q F).rest = rest Q F from rfl, ← leak_alike p2, q2, leak_rename _ (lift_injective 8 τ)])
      (by rw [show (fixedOf Q F).rest = rest Q F from rfl, ← p3, q3])
  choose φ χ hφ hχ h using hex
  refine ⟨fun y => (rekeyed hN τ hin hout y.1,
    ((y.2.1.1, φ y.1 y.2.1.1 y.2.2.1 y.2.1.2.1, χ y.1 y.2.1.1 y.2.2.2 y.2.1.2.2), y.2.2)), ?_, fun _ => rfl, ?_⟩
  · rintro ⟨F, ⟨h, ki, kd⟩, e, e'⟩ ⟨F', ⟨h', ki', kd'⟩, f, f'⟩ he
    simp only [Prod.mk.injEq] at he
    obtain ⟨hF, ⟨rfl, h1, h2⟩, rfl, rfl⟩ := he
    obtain rfl := rekeyed_injective hN τ hin hout hF
    rw [hφ F h e h1, hχ F h e' h2]
  · intro y hy
    exact h y.1 y.2 hy

theorem keyedSights_prefix {N : Inputs} {U : Finset Str} (Q : Params PK KS CT Rand) (f : Op Rand × Op Rand → Op Rand)
    (y : (Label × N.set → Diana.Leaf) × FullChoice U KS CT) (P P' : List (Op Rand × Op Rand)) (h : P' <+: P) :
    keyedSights Q y (P'.map f) = (keyedSights Q y (P.map f)).take P'.length := by
  unfold keyedSights
  rw [← sights_take, ← List.map_take, ← List.prefix_iff_eq_take.mp h]

/-- **C82** (Janus), with the seven derived keys of C80. -/
theorem C82_janus_keyed [Fintype KS] [Fintype CT] {N : Inputs} {U : Finset Str} (Q : Params PK KS CT Rand) (D : Finset Str)
    (hN : Covers N D) (n : Nat) (hn : n < 2 ^ 32) (hU : metaSet D n ⊆ U) (σ : List (Sight KS CT) → Option (Op Rand × Op Rand))
    (steps : Nat) (E : List (Sight KS CT) → Prop) :
    |prob (fun x : Keyed N U KS CT => E (sights (fixedOf Q (families N.label x.1)) (choiceOf (families N.label x.1) x.2)
          ((play (LRules D n) σ (fun P => sights (fixedOf Q (families N.label x.1)) (choiceOf (families N.label x.1) x.2)
            (P.map Prod.fst)) steps).map Prod.fst))) -
        prob (fun x : Keyed N U KS CT => E (sights (fixedOf Q (families N.label x.1)) (choiceOf (families N.label x.1) x.2)
          ((play (LRules D n) σ (fun P => sights (fixedOf Q (families N.label x.1)) (choiceOf (families N.label x.1) x.2)
            (P.map Prod.snd)) steps).map Prod.snd)))| ≤
      2 * hidingBound (D.card * (n + 1)) (D.card * (n + 1) * n) + 2 * keysBound := by
  classical
  refine dist_transfer
    (C80_janus_keys N (fun f (r : Others U KS CT) => E (sights (fixedOf Q f) (choiceOf f r)
      ((play (LRules D n) σ (fun P => sights (fixedOf Q f) (choiceOf f r) (P.map Prod.fst)) steps).map Prod.fst))))
    (C80_janus_keys N (fun f (r : Others U KS CT) => E (sights (fixedOf Q f) (choiceOf f r)
      ((play (LRules D n) σ (fun P => sights (fixedOf Q f) (choiceOf f r) (P.map Prod.snd)) steps).map Prod.snd)))) ?_
  rw [prob_choice N Q (fun R ω => E (sights R ω ((play (LRules D n) σ (fun P => sights R ω (P.map Prod.fst)) steps).map Prod.fst))),
    prob_choice N Q (fun R ω => E (sights R ω ((play (LRules D n) σ (fun P => sights R ω (P.map Prod.snd)) steps).map Prod.snd)))]
  have hex : ∀ P : List (Op Rand × Op Rand),
      ∃ π : (Label × N.set → Diana.Leaf) × FullChoice U KS CT → (Label × N.set → Diana.Leaf) × FullChoice U KS CT,
      LRules D n P → Function.Injective π ∧
        ∀ y, ¬ JBad Q.fixed D n y.2 → keyedSights Q (π y) (P.map Prod.fst) = keyedSights Q y (P.map Prod.snd) := by
    intro P
    by_cases hP : LRules D n P
    · obtain ⟨π, hπ⟩ := exists_perm_keyed (U := U) Q D hN n hn P hP
      exact ⟨π, fun _ => ⟨hπ.1, fun y hy => (hπ.2.2 y hy).1⟩⟩
    · exact ⟨id, fun h => absurd h hP⟩
  choose π hπ using hex
  have : Nonempty CT := ⟨Q.fixed.ins.zero⟩
  have : Nonempty KS := ⟨Q.fixed.del.zero⟩
  refine le_trans (adaptive_dist (allowed := LRules D n) ⟨rfl, fun _ h => absurd h List.not_mem_nil, Nat.zero_le _⟩
    (fun (y : (Label × N.set → Diana.Leaf) × FullChoice U KS CT) P => keyedSights Q y (P.map Prod.fst))
    (fun y P => keyedSights Q y (P.map Prod.snd)) (keyedSights_prefix Q Prod.fst) (keyedSights_prefix Q Prod.snd) π
    (fun P hP => (hπ P hP).1) (fun y => JBad Q.fixed D n y.2) (fun P hP => (hπ P hP).2) σ steps E) ?_
  rw [prob_comm (fun y : (Label × N.set → Diana.Leaf) × FullChoice U KS CT => JBad Q.fixed D n y.2)]
  exact prob_first_le (Ω₂ := Label × N.set → Diana.Leaf) (prob_jbad_le Q.fixed D n hU)

/-- **C80** (Janus, observers): the advantage of an observer of the server for two histories with the same leakage, with the derived keys. -/
theorem C80_janus [Fintype KS] [Fintype CT] {N : Inputs} {U : Finset Str} (Q : Params PK KS CT Rand) (D : Finset Str)
    (hN : Covers N D) (H H' : List (Op Rand)) (hleak : jleak H = jleak H') (hD : ∀ o ∈ H, Op.kw o ∈ D) (hD' : ∀ o ∈ H', Op.kw o ∈ D)
    (n : Nat) (hl : H.length ≤ n) (hn : n < 2 ^ 32) (hU : metaSet D n ⊆ U) (E : List (Sight KS CT) → Prop) :
    |prob (fun x : Keyed N U KS CT => E (sights (fixedOf Q (families N.label x.1)) (choiceOf (families N.label x.1) x.2) H)) -
        prob (fun x : Keyed N U KS CT => E (sights (fixedOf Q (families N.label x.1)) (choiceOf (families N.label x.1) x.2) H'))| ≤
      2 * hidingBound (D.card * (n + 1)) (D.card * (n + 1) * n) + 2 * keysBound := by
  refine dist_transfer
    (C80_janus_keys N (fun f (r : Others U KS CT) => E (sights (fixedOf Q f) (choiceOf f r) H)))
    (C80_janus_keys N (fun f (r : Others U KS CT) => E (sights (fixedOf Q f) (choiceOf f r) H'))) ?_
  rw [prob_choice N Q (fun R ω => E (sights R ω H)), prob_choice N Q (fun R ω => E (sights R ω H'))]
  obtain ⟨P, rfl, rfl, hP⟩ := rules_zip hleak hD hD' hl
  obtain ⟨π, hπ, -, h⟩ := exists_perm_keyed (N := N) (U := U) Q D hN n hn _ hP
  refine le_trans (prob_dist_le (Finite.injective_iff_bijective.mp hπ) (fun y => keyedSights Q y (P.map Prod.fst))
    (fun y => keyedSights Q y (P.map Prod.snd)) (fun y => JBad Q.fixed D n y.2) (fun y hy => (h y hy).1) E) ?_
  rw [prob_comm (fun y : (Label × N.set → Diana.Leaf) × FullChoice U KS CT => JBad Q.fixed D n y.2)]
  exact prob_first_le (Ω₂ := Label × N.set → Diana.Leaf) (prob_jbad_le Q.fixed D n hU)

/-! ## An instance -/

/-- The inputs of up to 100 bytes contain everything for keywords of one byte. -/
theorem covers_sample : Covers (Inputs.upTo 100 (by decide)) {[97], [98], [99]} := by
  have h : ∀ k, k ≤ 18 → ends k {[97], [98], [99]} ⊆ (Inputs.upTo 100 (by decide)).set := by
    intro k hk s hs
    obtain ⟨h1, h2⟩ := (mem_ends k _ s).mp hs
    have h3 : (s.drop k).length = 1 := by
      simp only [Finset.mem_insert, Finset.mem_singleton] at h2
      rcases h2 with h | h | h <;> rw [h] <;> rfl
    rw [List.length_drop] at h3
    simp only [Inputs.upTo, Set.Finite.mem_toFinset, Set.mem_ofPred_eq]
    omega
  exact ⟨h 8 (by decide), h 0 (by decide), h 18 (by decide)⟩

/-- The advantage of the strategy of `Verif.Ideal.JanusFull` is small. -/
example (Q : Params Unit Tag Tag Unit) (E : List (Sight Tag Tag) → Prop) :
    |prob (fun x : Keyed (Inputs.upTo 100 (by decide)) (metaSet {[97], [98], [99]} 3) Tag Tag =>
          E (sights (fixedOf Q (families (Inputs.label _) x.1)) (choiceOf (families (Inputs.label _) x.1) x.2)
          ((play (LRules {[97], [98], [99]} 3) sampleGame (fun P => sights (fixedOf Q (families (Inputs.label _) x.1))
            (choiceOf (families (Inputs.label _) x.1) x.2) (P.map Prod.fst)) 3).map Prod.fst))) -
        prob (fun x : Keyed (Inputs.upTo 100 (by decide)) (metaSet {[97], [98], [99]} 3) Tag Tag =>
          E (sights (fixedOf Q (families (Inputs.label _) x.1)) (choiceOf (families (Inputs.label _) x.1) x.2)
          ((play (LRules {[97], [98], [99]} 3) sampleGame (fun P => sights (fixedOf Q (families (Inputs.label _) x.1))
            (choiceOf (families (Inputs.label _) x.1) x.2) (P.map Prod.snd)) 3).map Prod.snd)))| ≤
      2 * hidingBound (3 * 4) (3 * 4 * 3) + 2 * keysBound :=
  C82_janus_keyed Q {[97], [98], [99]} covers_sample 3 (by decide) (Finset.Subset.refl _) sampleGame 3 E

/-- Two histories with the same leakage -/
example (Q : Params Unit Tag Tag Unit) (E : List (Sight Tag Tag) → Prop) :
    |prob (fun x : Keyed (Inputs.upTo 100 (by decide)) (metaSet {[97], [98], [99]} 4) Tag Tag =>
          E (sights (fixedOf Q (families (Inputs.label _) x.1)) (choiceOf (families (Inputs.label _) x.1) x.2)
            [.insert [97] 5 (), .insert [99] 1 (), .remove [97] 5, .search [97]])) -
        prob (fun x : Keyed (Inputs.upTo 100 (by decide)) (metaSet {[97], [98], [99]} 4) Tag Tag =>
          E (sights (fixedOf Q (families (Inputs.label _) x.1)) (choiceOf (families (Inputs.label _) x.1) x.2)
            [.insert [98] 5 (), .insert [97] 2 (), .remove [98] 5, .search [98]]))| ≤
      2 * hidingBound (3 * 5) (3 * 5 * 4) + 2 * keysBound :=
  C80_janus Q {[97], [98], [99]} covers_sample _ _ (by decide) (by decide) (by decide) 4 (by decide) (by decide) (Finset.Subset.refl _) E

end Verif.Ideal.Janus
