import Verif.Ideal.DianaOracle
import Verif.Ideal.JanusFullKeys

/-!
# Observers of Janus who evaluate the public functions themselves: C83

The observer knows the hash function of the keyword indices, and can ask, between the operations, for the token and the mask that either
instance of Diana derives from any leaves (`/repo/lib/diana/diana_common.cpp` L27-36, `/repo/lib/janus/janus_client.cpp` L19-73).
-/

namespace Verif.Ideal.Janus

open Verif Verif.Janus Verif.Janus.Spec Verif.Leak Verif.Ideal.Diana

variable {PK KS CT Rand : Type}

/-- What the observer learns from a leaf -/
abbrev Known (KS CT : Type) := (Diana.Token × CT) × (Diana.Token × KS)

/-- A step of the observer: a pair of operations, of which one is executed, or a leaf -/
abbrev JStep (Rand : Type) := (Op Rand × Op Rand) ⊕ Diana.Leaf

/-- What the observer sees of the steps, with the component `f` of the pairs -/
def joview {U : Finset Str} (R : Fixed PK KS CT Rand) (ω : FullChoice U KS CT) (f : Op Rand × Op Rand → Op Rand)
    (S : List (JStep Rand)) : List (Sight KS CT ⊕ Known KS CT) :=
  Ideal.oview (fun P => sights R ω (P.map f)) (tokensMasks ω) S

/-- The rules are those for the operations; any leaves may be asked for. -/
def JORules (D : Finset Str) (n : Nat) (S : List (JStep Rand)) : Prop := LRules D n (cmdsOf S)

/-! ## Another leaf for a position -/

/-- Another leaf in the instance for insertions -/
def moveIns {U : Finset Str} (p : Diana.Leaf × Pos) (ω : FullChoice U KS CT) (y : Diana.Leaf) : FullChoice U KS CT :=
  ((ω.1.1, (moveLeaf p (insPart ω) y).1.2, ω.1.2.2), ((moveLeaf p (insPart ω) y).2, ω.2.2))

/-- Another leaf in the instance for removals -/
def moveDel {U : Finset Str} (p : Diana.Leaf × Pos) (ω : FullChoice U KS CT) (y : Diana.Leaf) : FullChoice U KS CT :=
  ((ω.1.1, ω.1.2.1, (moveLeaf p (delPart ω) y).1.2), (ω.2.1, (moveLeaf p (delPart ω) y).2))

theorem insPart_moveIns {U : Finset Str} (p : Diana.Leaf × Pos) (ω : FullChoice U KS CT) (y : Diana.Leaf) :
    insPart (moveIns p ω y) = moveLeaf p (insPart ω) y := rfl

theorem delPart_moveDel {U : Finset Str} (p : Diana.Leaf × Pos) (ω : FullChoice U KS CT) (y : Diana.Leaf) :
    delPart (moveDel p ω y) = moveLeaf p (delPart ω) y := rfl

theorem moveIns_moveIns {U : Finset Str} (p : Diana.Leaf × Pos) (ω : FullChoice U KS CT) (y : Diana.Leaf) :
    moveIns p (moveIns p ω y) ((insPart ω).2 p) = ω := by
  have h := moveLeaf_moveLeaf p (insPart ω) y
  have h1 := congrArg (fun z : Diana.FullChoice U CT => z.1.2) h
  have h2 := congrArg (fun z : Diana.FullChoice U CT => z.2) h
  exact Prod.ext (Prod.ext rfl (Prod.ext h1 rfl)) (Prod.ext h2 rfl)

theorem moveDel_moveDel {U : Finset Str} (p : Diana.Leaf × Pos) (ω : FullChoice U KS CT) (y : Diana.Leaf) :
    moveDel p (moveDel p ω y) ((delPart ω).2 p) = ω := by
  have h := moveLeaf_moveLeaf p (delPart ω) y
  have h1 := congrArg (fun z : Diana.FullChoice U KS => z.1.2) h
  have h2 := congrArg (fun z : Diana.FullChoice U KS => z.2) h
  exact Prod.ext (Prod.ext rfl (Prod.ext rfl h1)) (Prod.ext rfl h2)

/-- The numbers of commands and their keywords -/
theorem cmds_fit (R : Fixed PK KS CT Rand) (D : Finset Str) (n : Nat) (H : List (Op Rand)) (hD : ∀ o ∈ H, Op.kw o ∈ D)
    (hl : H.length ≤ n) : (cmdKeywords (insCmds R.rest noCells H) ⊆ metaSet D n ∧ ∀ w, count w (insCmds R.rest noCells H) ≤ n) ∧
      (cmdKeywords (delCmds R.rest noCells H) ⊆ metaSet D n ∧ ∀ w, count w (delCmds R.rest noCells H) ≤ n) := by
  have h0 : Epochs noCells 0 := fun _ => Nat.le_refl _
  obtain ⟨k1, k2⟩ := cmds_metaSet R.rest D n H noCells 0 h0 (by omega) hD
  refine ⟨⟨k1, fun w => ?_⟩, k2, fun w => ?_⟩
  · have h1 := count_le_length w (insCmds R.rest noCells H)
    have h2 := insCmds_length R.rest H noCells
    omega
  · have h3 := count_le_length w (delCmds R.rest noCells H)
    have h4 := delCmds_length R.rest H noCells
    omega

theorem sights_moveIns {U : Finset Str} (R : Fixed PK KS CT Rand) (D : Finset Str) (n : Nat) (hn : n < 2 ^ 32) (ω : FullChoice U KS CT)
    (hω : ¬ JBad R D n ω) (i : Str × Nat) (hi : i ∈ metaSet D n ×ˢ Finset.range n) (y : Diana.Leaf)
    (hy : y ∉ dictLeaves R.hash (metaSet D n) n (insPart ω)) (H : List (Op Rand)) (hD : ∀ o ∈ H, Op.kw o ∈ D) (hl : H.length ≤ n)
    (hex : ¬ Exposed ((insPart ω).2 (place R.hash (insPart ω) i)) (Diana.view R.ins R.hash (insPart ω) (insCmds R.rest noCells H))) :
    sights R (moveIns (place R.hash (insPart ω) i) ω y) H = sights R ω H := by
  simp only [JBad, not_or] at hω
  obtain ⟨⟨k1, k2⟩, -⟩ := cmds_fit R D n H hD hl
  exact sights_ext R R.rest _ ω H H (by omega) (by omega)
    (view_moveLeaf R.ins R.hash (metaSet D n) n hn (insPart ω) hω.1 _ (place_mem _ _ _ _ i hi) y hy _ k1 k2 hex) rfl rfl

theorem sights_moveDel {U : Finset Str} (R : Fixed PK KS CT Rand) (D : Finset Str) (n : Nat) (hn : n < 2 ^ 32) (ω : FullChoice U KS CT)
    (hω : ¬ JBad R D n ω) (i : Str × Nat) (hi : i ∈ metaSet D n ×ˢ Finset.range n) (y : Diana.Leaf)
    (hy : y ∉ dictLeaves R.hash (metaSet D n) n (delPart ω)) (H : List (Op Rand)) (hD : ∀ o ∈ H, Op.kw o ∈ D) (hl : H.length ≤ n)
    (hex : ¬ Exposed ((delPart ω).2 (place R.hash (delPart ω) i)) (Diana.view R.del R.hash (delPart ω) (delCmds R.rest noCells H))) :
    sights R (moveDel (place R.hash (delPart ω) i) ω y) H = sights R ω H := by
  simp only [JBad, not_or] at hω
  obtain ⟨-, k1, k2⟩ := cmds_fit R D n H hD hl
  exact sights_ext R R.rest _ ω H H (by omega) (by omega) rfl
    (view_moveLeaf R.del R.hash (metaSet D n) n hn (delPart ω) hω.2 _ (place_mem _ _ _ _ i hi) y hy _ k1 k2 hex) rfl

/-! ## The leaves are secret -/

/-- The leaf of an entry of the one or the other instance -/
def jpoint {U : Finset Str} (R : Fixed PK KS CT Rand) (ω : FullChoice U KS CT) : (Str × Nat) ⊕ (Str × Nat) → Diana.Leaf
  | .inl i => (insPart ω).2 (place R.hash (insPart ω) i)
  | .inr i => (delPart ω).2 (place R.hash (delPart ω) i)

/-- The server computes this leaf in a search. -/
def jtold {U : Finset Str} (R : Fixed PK KS CT Rand) (ω : FullChoice U KS CT) (ops : List (Op Rand)) : (Str × Nat) ⊕ (Str × Nat) → Prop
  | .inl i => Exposed ((insPart ω).2 (place R.hash (insPart ω) i)) (Diana.view R.ins R.hash (insPart ω) (insCmds R.rest noCells ops))
  | .inr i => Exposed ((delPart ω).2 (place R.hash (delPart ω) i)) (Diana.view R.del R.hash (delPart ω) (delCmds R.rest noCells ops))

/-- Another leaf for an entry -/
def jmove {U : Finset Str} (R : Fixed PK KS CT Rand) (ω : FullChoice U KS CT) (y : Diana.Leaf) :
    (Str × Nat) ⊕ (Str × Nat) → FullChoice U KS CT
  | .inl i => moveIns (place R.hash (insPart ω) i) ω y
  | .inr i => moveDel (place R.hash (delPart ω) i) ω y

theorem insCmds_prefix (c : Crypto PK KS CT Rand) {H H' : List (Op Rand)} (h : H' <+: H) :
    insCmds c noCells H' <+: insCmds c noCells H ∧ delCmds c noCells H' <+: delCmds c noCells H := by
  obtain ⟨R, rfl⟩ := h
  rw [insCmds_append, delCmds_append]
  exact ⟨List.prefix_append _ _, List.prefix_append _ _⟩

/-- The leaves of both dictionaries are secret, until the server computes them. Other functions may depend on `γ`. -/
noncomputable def jsecrecy {Γ : Type*} {U : Finset Str} (Rof : Γ → Fixed PK KS CT Rand) (D : Finset Str) (n : Nat) (hn : n < 2 ^ 32) :
    Secrecy (FullChoice U KS CT × Γ) (Op Rand × Op Rand) (Sight KS CT) (Known KS CT) Diana.Leaf ((Str × Nat) ⊕ (Str × Nat))
      (U → Diana.Token) where
  known ω := ω.1.1.1
  v ω P := sights (Rof ω.2) ω.1 (P.map Prod.snd)
  ask ω := tokensMasks ω.1
  allowed := LRules D n
  good ω := ¬ JBad (Rof ω.2) D n ω.1
  I := (metaSet D n ×ˢ Finset.range n).disjSum (metaSet D n ×ˢ Finset.range n)
  point i ω := jpoint (Rof ω.2) ω.1 i
  told i ω P := jtold (Rof ω.2) ω.1 (P.map Prod.snd) i
  move i ω y := (jmove (Rof ω.2) ω.1 y i, ω.2)
  allowed_nil := ⟨rfl, fun _ h => absurd h List.not_mem_nil, Nat.zero_le _⟩
  v_prefix ω P Q h := by rw [← sights_take, ← List.map_take, ← List.prefix_iff_eq_take.mp h]
  told_mono i ω P Q h := by
    obtain ⟨h1, h2⟩ := insCmds_prefix (Rof ω.2).rest (h.map Prod.snd)
    cases i with
    | inl i => exact exposed_prefix _ _ _ h1
    | inr i => exact exposed_prefix _ _ _ h2
  known_move i _ _ := by cases i <;> rfl
  point_move i ω y := by
    cases i with
    | inl i => exact Function.update_self (place (Rof ω.2).hash (insPart ω.1) i) y (insPart ω.1).2
    | inr i => exact Function.update_self (place (Rof ω.2).hash (delPart ω.1) i) y (delPart ω.1).2
  move_move i ω y := by
    cases i with
    | inl i => exact Prod.ext (moveIns_moveIns (place (Rof ω.2).hash (insPart ω.1) i) ω.1 y) rfl
    | inr i => exact Prod.ext (moveDel_moveDel (place (Rof ω.2).hash (delPart ω.1) i) ω.1 y) rfl
  v_move i hi ω y hg hy P hP ht := by
    obtain ⟨-, hD, hl⟩ := hP
    have hD' : ∀ o ∈ P.map Prod.snd, Op.kw o ∈ D := by
      intro o ho
      obtain ⟨p, hp, rfl⟩ := List.mem_map.mp ho
      exact (hD p hp).2
    have hl' : (P.map Prod.snd).length ≤ n := by simpa using hl
    cases i with
    | inl i =>
      refine sights_moveIns (Rof ω.2) D n hn ω.1 hg i (by simpa using hi) y ?_ _ hD' hl' ht
      rw [mem_dictLeaves]
      rintro ⟨j, hj, he⟩
      exact hy (.inl j) (by simpa using hj) he
    | inr i =>
      refine sights_moveDel (Rof ω.2) D n hn ω.1 hg i (by simpa using hi) y ?_ _ hD' hl' ht
      rw [mem_dictLeaves]
      rintro ⟨j, hj, he⟩
      exact hy (.inr j) (by simpa using hj) he
  ask_move i ω y x h1 h2 := by
    cases i with
    | inl i => exact Prod.ext (tokenMask_moveLeaf (place (Rof ω.2).hash (insPart ω.1) i) (insPart ω.1) y x h1 h2) rfl
    | inr i => exact Prod.ext rfl (tokenMask_moveLeaf (place (Rof ω.2).hash (delPart ω.1) i) (delPart ω.1) y x h1 h2)

/-- A leaf that is told for all entries is told. -/
theorem told_of_all {U : Finset Str} (R : Fixed PK KS CT Rand) (D : Finset Str) (n : Nat) (ω : FullChoice U KS CT) (ops : List (Op Rand))
    (x : Diana.Leaf) (h : ∀ i ∈ (metaSet D n ×ˢ Finset.range n).disjSum (metaSet D n ×ˢ Finset.range n),
      x = jpoint R ω i → jtold R ω ops i) : Told R D n ω ops x := by
  refine ⟨fun hx => ?_, fun hx => ?_⟩
  · obtain ⟨i, hi, rfl⟩ := (mem_dictLeaves _ _ _ _ _).mp hx
    exact h (.inl i) (by simpa using hi) rfl
  · obtain ⟨i, hi, rfl⟩ := (mem_dictLeaves _ _ _ _ _).mp hx
    exact h (.inr i) (by simpa using hi) rfl

theorem guessBound_mono {N k k' q : Nat} (h : k ≤ k') (hN : q + k' < N) : guessBound N k q ≤ guessBound N k' q := by
  have h1 : ((q : ℚ) + k') < N := by exact_mod_cast hN
  have h2 : (k : ℚ) ≤ k' := by exact_mod_cast h
  unfold guessBound
  gcongr
  linarith

/-- The bound, for functions that may depend on `γ` -/
theorem joracle_dist {Γ : Type*} [Fintype Γ] [Nonempty Γ] [Fintype KS] [Fintype CT] {U : Finset Str} (Rof : Γ → Fixed PK KS CT Rand)
    (R : Fixed PK KS CT Rand) (hbad : ∀ γ (D : Finset Str) n (ω : FullChoice U KS CT), JBad (Rof γ) D n ω → JBad R D n ω)
    (D : Finset Str) (n : Nat) (hn : n < 2 ^ 32) (hU : metaSet D n ⊆ U)
    (hπ : ∀ P : List (Op Rand × Op Rand), LRules D n P → ∃ π : FullChoice U KS CT × Γ → FullChoice U KS CT × Γ, Function.Injective π ∧
      (∀ ω, (π ω).1.1.1 = ω.1.1.1) ∧ ∀ ω, ¬ JBad (Rof ω.2) D n ω.1 →
        sights (Rof (π ω).2) (π ω).1 (P.map Prod.fst) = sights (Rof ω.2) ω.1 (P.map Prod.snd) ∧
        ∀ x, Told (Rof ω.2) D n ω.1 (P.map Prod.snd) x → tokensMasks (π ω).1 x = tokensMasks ω.1 x)
    (σ : (U → Diana.Token) → List (Sight KS CT ⊕ Known KS CT) → Option (JStep Rand)) (steps : Nat)
    (hsteps : steps + 2 * (D.card * (n + 1) * n) < 256 ^ 32) (E : (U → Diana.Token) → List (Sight KS CT ⊕ Known KS CT) → Prop) :
    |prob (fun ω : FullChoice U KS CT × Γ => E ω.1.1.1 (joview (Rof ω.2) ω.1 Prod.fst
          (play (JORules D n) (σ ω.1.1.1) (joview (Rof ω.2) ω.1 Prod.fst) steps))) -
        prob (fun ω : FullChoice U KS CT × Γ => E ω.1.1.1 (joview (Rof ω.2) ω.1 Prod.snd
          (play (JORules D n) (σ ω.1.1.1) (joview (Rof ω.2) ω.1 Prod.snd) steps)))| ≤
      2 * hidingBound (D.card * (n + 1)) (D.card * (n + 1) * n) + guessBound (256 ^ 32) (2 * (D.card * (n + 1) * n)) steps := by
  have : Nonempty CT := ⟨R.ins.zero⟩
  have : Nonempty KS := ⟨R.del.zero⟩
  have hcard : Fintype.card Diana.Leaf = 256 ^ 32 := card_bytes 32
  have hI : ((metaSet D n ×ˢ Finset.range n).disjSum (metaSet D n ×ˢ Finset.range n)).card ≤ 2 * (D.card * (n + 1) * n) := by
    rw [Finset.card_disjSum, Finset.card_product, Finset.card_range]
    have := Nat.mul_le_mul_right n (card_metaSet D n)
    omega
  have h := (jsecrecy (U := U) Rof D n hn).dist (fun ω P => sights (Rof ω.2) ω.1 (P.map Prod.fst)) ?_ ?_ σ steps
    (by rw [hcard]; exact lt_of_le_of_lt (Nat.add_le_add_left hI _) hsteps) E
  · refine le_trans h (add_le_add ?_ ?_)
    · exact le_trans (prob_mono (fun ω hω => hbad ω.2 D n ω.1 (not_not.mp hω))) (prob_first_le (Ω₂ := Γ) (prob_jbad_le R D n hU))
    · rw [hcard]
      exact guessBound_mono hI hsteps
  · intro ω P Q h
    rw [← sights_take, ← List.map_take, ← List.prefix_iff_eq_take.mp h]
  · intro P hP
    obtain ⟨π, h1, h2, h3⟩ := hπ P hP
    refine ⟨π, h1, h2, fun ω hω => ⟨(h3 ω hω).1, fun x hx => (h3 ω hω).2 x (told_of_all _ _ _ _ _ _ hx)⟩⟩

/-- **C83** (Janus): a strategy that knows the hash function, sees what the server sees, chooses pairs of operations with the same
leakage, and computes tokens and masks of leaves of its choice, finds out which component is executed with an advantage of at most twice the
bound for the dictionary, and the bound for a guess. -/
theorem C83_janus [Fintype PK] [Nonempty PK] [Fintype KS] [Fintype CT] {U : Finset Str} (R : Fixed PK KS CT Rand) (D : Finset Str)
    (n : Nat) (hn : n < 2 ^ 32) (hU : metaSet D n ⊆ U)
    (σ : (U → Diana.Token) → List (Sight KS CT ⊕ Known KS CT) → Option (JStep Rand)) (steps : Nat)
    (hsteps : steps + 2 * (D.card * (n + 1) * n) < 256 ^ 32) (E : (U → Diana.Token) → List (Sight KS CT ⊕ Known KS CT) → Prop) :
    |prob (fun ω : WholeChoice U D PK KS CT => E ω.1.1.1 (joview (chosen R ω.2) ω.1 Prod.fst
          (play (JORules D n) (σ ω.1.1.1) (joview (chosen R ω.2) ω.1 Prod.fst) steps))) -
        prob (fun ω : WholeChoice U D PK KS CT => E ω.1.1.1 (joview (chosen R ω.2) ω.1 Prod.snd
          (play (JORules D n) (σ ω.1.1.1) (joview (chosen R ω.2) ω.1 Prod.snd) steps)))| ≤
      2 * hidingBound (D.card * (n + 1)) (D.card * (n + 1) * n) + guessBound (256 ^ 32) (2 * (D.card * (n + 1) * n)) steps :=
  joracle_dist (Γ := Functions D PK) (chosen R) R (fun _ _ _ _ h => h) D n hn hU
    (fun P hP => exists_perm_whole (U := U) R D n hn P hP) σ steps hsteps E

/-- **C83** (Janus), with the seven derived keys of C80. -/
theorem C83_janus_keyed [Fintype KS] [Fintype CT] {N : Inputs} {U : Finset Str} (Q : Params PK KS CT Rand) (D : Finset Str)
    (hN : Covers N D) (n : Nat) (hn : n < 2 ^ 32) (hU : metaSet D n ⊆ U)
    (σ : (U → Diana.Token) → List (Sight KS CT ⊕ Known KS CT) → Option (JStep Rand)) (steps : Nat)
    (hsteps : steps + 2 * (D.card * (n + 1) * n) < 256 ^ 32) (E : (U → Diana.Token) → List (Sight KS CT ⊕ Known KS CT) → Prop) :
    |prob (fun x : Keyed N U KS CT => E (choiceOf (families N.label x.1) x.2).1.1
          (joview (fixedOf Q (families N.label x.1)) (choiceOf (families N.label x.1) x.2) Prod.fst
            (play (JORules D n) (σ (choiceOf (families N.label x.1) x.2).1.1)
              (joview (fixedOf Q (families N.label x.1)) (choiceOf (families N.label x.1) x.2) Prod.fst) steps))) -
        prob (fun x : Keyed N U KS CT => E (choiceOf (families N.label x.1) x.2).1.1
          (joview (fixedOf Q (families N.label x.1)) (choiceOf (families N.label x.1) x.2) Prod.snd
            (play (JORules D n) (σ (choiceOf (families N.label x.1) x.2).1.1)
              (joview (fixedOf Q (families N.label x.1)) (choiceOf (families N.label x.1) x.2) Prod.snd) steps)))| ≤
      2 * hidingBound (D.card * (n + 1)) (D.card * (n + 1) * n) + guessBound (256 ^ 32) (2 * (D.card * (n + 1) * n)) steps +
        2 * keysBound := by
  refine dist_transfer
    (C80_janus_keys N (fun f (r : Others U KS CT) => E (choiceOf f r).1.1 (joview (fixedOf Q f) (choiceOf f r) Prod.fst
      (play (JORules D n) (σ (choiceOf f r).1.1) (joview (fixedOf Q f) (choiceOf f r) Prod.fst) steps))))
    (C80_janus_keys N (fun f (r : Others U KS CT) => E (choiceOf f r).1.1 (joview (fixedOf Q f) (choiceOf f r) Prod.snd
      (play (JORules D n) (σ (choiceOf f r).1.1) (joview (fixedOf Q f) (choiceOf f r) Prod.snd) steps)))) ?_
  rw [prob_choice N Q (fun R ω => E ω.1.1 (joview R ω Prod.fst (play (JORules D n) (σ ω.1.1) (joview R ω Prod.fst) steps))),
    prob_choice N Q (fun R ω => E ω.1.1 (joview R ω Prod.snd (play (JORules D n) (σ ω.1.1) (joview R ω Prod.snd) steps)))]
  rw [prob_comm, prob_comm (fun y : (Label × N.set → Diana.Leaf) × FullChoice U KS CT => E y.2.1.1 (joview (fixedOf Q y.1) y.2 Prod.snd
    (play (JORules D n) (σ y.2.1.1) (joview (fixedOf Q y.1) y.2 Prod.snd) steps)))]
  refine joracle_dist (Γ := Label × N.set → Diana.Leaf) (fixedOf Q) Q.fixed (fun _ _ _ _ h => h) D n hn hU (fun P hP => ?_)
    σ steps hsteps E
  obtain ⟨π, h1, h2, h3⟩ := exists_perm_keyed (U := U) Q D hN n hn P hP
  refine ⟨fun ω => (π ω.swap).swap, ?_, fun ω => h2 ω.swap, fun ω hω => h3 ω.swap hω⟩
  exact Prod.swap_injective.comp (h1.comp Prod.swap_injective)

/-- With a thousand keywords, a million operations and `2 ^ 80` steps, the bound is below `2^-66`. -/
theorem C83_janus_number :
    2 * hidingBound (2 ^ 10 * (2 ^ 20 + 1)) (2 ^ 10 * (2 ^ 20 + 1) * 2 ^ 20) +
      guessBound (256 ^ 32) (2 * (2 ^ 10 * (2 ^ 20 + 1) * 2 ^ 20)) (2 ^ 80) < 1 / 2 ^ 66 := by
  unfold hidingBound guessBound
  rw [Nat.choose_two_right, Nat.choose_two_right]
  norm_num

/-! ## An instance -/

/-- A strategy that computes the token of a leaf of zeros, compares it with the update token, and asks for a leaf that the server computed in a search -/
def sampleJAsking (_ : metaSet {[97], [98], [99]} 3 → Diana.Token) (seen : List (Sight Tag Tag ⊕ Known Tag Tag)) : Option (JStep Unit) :=
  match seen with
  | [] => some (.inl (.insert [97] 5 (), .insert [98] 5 ()))
  | [_] => some (.inr (Vector.replicate 32 0))
  | [.inl (.insert t _, _), .inr ((t', _), _)] =>
    if t = t' then some (.inl (.insert [97] 6 (), .insert [99] 7 ())) else some (.inl (.search [97], .search [98]))
  | [_, _, .inl (.search _ _ _ _, some (leaf, _) :: _, _)] => some (.inr leaf)
  | _ => none

/-- The steps of both components are allowed. -/
example : JORules (Rand := Unit) {[97], [98], [99]} 3
    [.inl (.insert [97] 5 (), .insert [98] 5 ()), .inr (Vector.replicate 32 0), .inl (.search [97], .search [98])] := by
  refine ⟨by decide, by decide, by decide⟩

/-- Its advantage is small. -/
example (E : (metaSet {[97], [98], [99]} 3 → Diana.Token) → List (Sight Tag Tag ⊕ Known Tag Tag) → Prop) :
    |prob (fun ω : WholeChoice (metaSet {[97], [98], [99]} 3) {[97], [98], [99]} Unit Tag Tag => E ω.1.1.1
          (joview (chosen sampleFixed ω.2) ω.1 Prod.fst (play (JORules {[97], [98], [99]} 3) (sampleJAsking ω.1.1.1)
            (joview (chosen sampleFixed ω.2) ω.1 Prod.fst) 4))) -
        prob (fun ω : WholeChoice (metaSet {[97], [98], [99]} 3) {[97], [98], [99]} Unit Tag Tag => E ω.1.1.1
          (joview (chosen sampleFixed ω.2) ω.1 Prod.snd (play (JORules {[97], [98], [99]} 3) (sampleJAsking ω.1.1.1)
            (joview (chosen sampleFixed ω.2) ω.1 Prod.snd) 4)))| ≤
      2 * hidingBound (3 * 4) (3 * 4 * 3) + guessBound (256 ^ 32) (2 * (3 * 4 * 3)) 4 :=
  C83_janus sampleFixed {[97], [98], [99]} 3 (by decide) (Finset.Subset.refl _) sampleJAsking 4 (by
    rw [show ({[97], [98], [99]} : Finset Str).card = 3 from rfl]; norm_num) E

end Verif.Ideal.Janus
