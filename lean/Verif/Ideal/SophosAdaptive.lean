import Verif.Ideal.Adaptive
import Verif.Ideal.SophosHiding

/-!
# Sophos with histories that depend on what was seen: C82

As in `Verif.Ideal.SophosHiding`, but the commands are chosen one after the other by a strategy that sees what the server sees. The
keywords are from a dictionary `W`, with at most `n` insertions for each keyword.
-/

namespace Verif.Ideal

open Verif Verif.Leak

/-- The rules for pairs of commands: the leakage of both is the same, the keywords are from `W`, with at most `n` insertions for each. -/
def Rules {Kw D : Type} [DecidableEq Kw] (W : Finset Kw) (n : Nat) (P : List (Cmd Kw D × Cmd Kw D)) : Prop :=
  leak (P.map Prod.fst) = leak (P.map Prod.snd) ∧
    (cmdKeywords (P.map Prod.fst) ⊆ W ∧ cmdKeywords (P.map Prod.snd) ⊆ W) ∧
    ∀ w, count w (P.map Prod.fst) ≤ n ∧ count w (P.map Prod.snd) ≤ n

theorem rules_nil {Kw D : Type} [DecidableEq Kw] (W : Finset Kw) (n : Nat) : Rules (D := D) W n [] :=
  ⟨rfl, ⟨fun _ h => absurd h (by simp [cmdKeywords]), fun _ h => absurd h (by simp [cmdKeywords])⟩,
    fun _ => ⟨Nat.zero_le _, Nat.zero_le _⟩⟩

/-- A permutation that moves points of `S` only maps `S` to itself. -/
theorem image_perm {A : Type} [DecidableEq A] (S : Finset A) (σ : Equiv.Perm A) (h : ∀ s, s ∉ S → σ s = s) (s : A) : s ∈ S ↔ σ s ∈ S := by
  constructor
  · intro hs
    by_contra hn
    have := σ.injective (h _ hn)
    rw [this] at hn
    exact hn hs
  · intro hs
    by_contra hn
    rw [h s hn] at hs
    exact hn hs

end Verif.Ideal

namespace Verif.Ideal.Sophos

open Verif Verif.Sophos Verif.Leak

variable {Kw Seed ST DK : Type} [DecidableEq Kw]

/-- What is seen of a part of the commands is a part of what is seen. -/
theorem transcript_take (c : Crypto Kw Seed ST DK) (garbage : ST × DK) (H : List (Cmd Kw Index)) :
    ∀ (m : Map Kw UInt32) (k : Nat), transcript c garbage m (H.take k) = (transcript c garbage m H).take k := by
  induction H with
  | nil => intro m k; simp [transcript]
  | cons o H ih =>
    intro m k
    cases k with
    | zero => rfl
    | succ k => cases o <;> simp [transcript, ih]

theorem view_take (c : Crypto Kw Seed ST DK) (garbage : ST × DK) (H : List (Cmd Kw Index)) (k : Nat) :
    view c garbage (H.take k) = (view c garbage H).take k := by
  unfold view
  rw [transcript_take, List.map_take]

variable [Fintype Seed] [Fintype ST] [Fintype DK] [DecidableEq Seed] [DecidableEq ST] [DecidableEq DK]

/-- Two keywords of the dictionary have the same index, or a first search token lies on a short cycle, or two keywords have the same
key. -/
def DictBad {U : Finset Kw} (T : Perm ST) (g : Kw → Seed) (W : Finset Kw) (n : Nat) (ω : Choice U Seed ST DK) : Prop :=
  ((∃ a ∈ W, ∃ b ∈ W, a ≠ b ∧ extend g ω.1 a = extend g ω.1 b) ∨
    (∃ s ∈ W.image (extend g ω.1), ω.2.1 s ∈ shortCycles T n)) ∨
    (∃ a ∈ W.image (extend g ω.1), ∃ b ∈ W.image (extend g ω.1), a ≠ b ∧ ω.2.2.1 a = ω.2.2.1 b)

theorem prob_dictBad_le {U : Finset Kw} (T : Perm ST) (g : Kw → Seed) (W : Finset Kw) (n : Nat) (hU : W ⊆ U) :
    prob (DictBad (Seed := Seed) (DK := DK) (U := U) T g W n) ≤ hidingBound Seed DK T W.card n := by
  have hk : ∀ h : Kw → Seed, (W.image h).card ≤ W.card := fun _ => Finset.card_image_le
  unfold hidingBound
  refine prob_or_le (prob_or_le ?_ ?_) ?_
  · exact extend_le hU g
  · exact hit_le₂ (fun h : U → Seed => W.image (extend g h)) _ _ (fun h => hk _)
  · exact collision_le₃ (fun (h : U → Seed) _ => W.image (extend g h)) _ (fun h _ => hk _)

omit [Fintype Seed] [Fintype DK] [DecidableEq ST] [DecidableEq DK] in
theorem dictBad_of_bad {U : Finset Kw} {T : Perm ST} {g : Kw → Seed} {W : Finset Kw} {n : Nat} {ω : Choice U Seed ST DK}
    {H : List (Cmd Kw Index)} (hH : cmdKeywords H ⊆ W) (h : Bad T g H n ω) : DictBad T g W n ω := by
  have hi := Finset.image_subset_image (f := extend g ω.1) hH
  rcases h with (⟨a, ha, b, hb, h⟩ | ⟨s, hs, h⟩) | ⟨a, ha, b, hb, h⟩
  · exact Or.inl (Or.inl ⟨a, hH ha, b, hH hb, h⟩)
  · exact Or.inl (Or.inr ⟨s, hi hs, h⟩)
  · exact Or.inr ⟨a, hi ha, b, hi hb, h⟩

omit [Fintype Seed] [Fintype DK] [DecidableEq ST] [DecidableEq DK] in
/-- Permuting tokens and keys among the keywords of the dictionary does not change whether there are collisions. -/
theorem dictBad_perm {U : Finset Kw} {T : Perm ST} {g : Kw → Seed} {W : Finset Kw} {n : Nat} {ω ω' : Choice U Seed ST DK}
    (σ : Equiv.Perm Seed) (hσ : ∀ s, s ∉ W.image (extend g ω.1) → σ s = s) (h0 : ω'.1 = ω.1) (h1 : ω'.2.1 = ω.2.1 ∘ σ)
    (h2 : ω'.2.2.1 = ω.2.2.1 ∘ σ) (h : DictBad T g W n ω') : DictBad T g W n ω := by
  have hi := image_perm _ σ hσ
  unfold DictBad at h
  rw [h0, h1, h2] at h
  rcases h with (⟨a, ha, b, hb, h⟩ | ⟨s, hs, h⟩) | ⟨a, ha, b, hb, hne, h⟩
  · exact Or.inl (Or.inl ⟨a, ha, b, hb, h⟩)
  · exact Or.inl (Or.inr ⟨σ s, (hi s).mp hs, h⟩)
  · exact Or.inr ⟨σ a, (hi a).mp ha, σ b, (hi b).mp hb, fun e => hne (σ.injective e), h⟩

omit [Fintype Seed] [Fintype DK] [DecidableEq ST] [DecidableEq DK] in
/-- For two histories with the same leakage over the dictionary, there is a permutation of the choices that turns the one view into the
other, unless there are collisions in the dictionary. Tokens and keys are permuted among the keywords of the dictionary, and values of the
function change at hidden points only. -/
theorem exists_perm_values {U : Finset Kw} (T : Perm ST) (g : Kw → Seed) (garbage : ST × DK) (W : Finset Kw) (n : Nat) (hn32 : n < 2 ^ 32)
    (H H' : List (Cmd Kw Index)) (hleak : leak H = leak H') (hW : cmdKeywords H ⊆ W) (hW' : cmdKeywords H' ⊆ W)
    (hn : ∀ w, count w H ≤ n) (hn' : ∀ w, count w H' ≤ n) :
    ∃ π : Choice U Seed ST DK → Choice U Seed ST DK, Function.Injective π ∧ (∀ ω, (π ω).1 = ω.1) ∧
      ∀ ω, ¬ DictBad T g W n ω → view (crypto T g (π ω)) garbage H = view (crypto T g ω) garbage H' ∧
        ¬ Bad T g H n (π ω) ∧
        (∃ σ : Equiv.Perm Seed, (∀ s, s ∉ W.image (extend g ω.1) → σ s = s) ∧ (π ω).2.1 = ω.2.1 ∘ σ ∧ (π ω).2.2.1 = ω.2.2.1 ∘ σ) ∧
        ∀ d s, ¬ Spec.Hidden (crypto T g (π ω)) H (d, s) → ¬ Spec.Hidden (crypto T g ω) H' (d, s) →
          ∀ b, (π ω).2.2.2 (d, s, b) = ω.2.2.2 (d, s, b) := by
  classical
  have hfit : Spec.CountsFit H := fun w => Nat.lt_of_le_of_lt (hn w) hn32
  have hfit' : Spec.CountsFit H' := fun w => Nat.lt_of_le_of_lt (hn' w) hn32
  have hex : ∀ h : U → Seed, ∃ φ : Secret Seed ST DK → Secret Seed ST DK, Function.Bijective φ ∧
      (Spec.SeedsDistinct (base T g garbage h) H → Spec.SeedsDistinct (base T g garbage h) H' →
      (∃ σ : Equiv.Perm Seed,
        (∀ s, (∀ (n : Nat) (w : Kw), H[n]? = some (.search w) ∨ H'[n]? = some (.search w) → extend g h w ≠ s) → σ s = s) ∧
        ∀ k, (φ k).1 = k.1 ∘ σ ∧ (φ k).2.1 = k.2.1 ∘ σ) ∧ ∀ k,
        Spec.PointsDistinct (withSecret (base T g garbage h) (φ k)) H →
        Spec.PointsDistinct (withSecret (base T g garbage h) k) H' →
        transcript (withSecret (base T g garbage h) (φ k)) garbage Map.empty H =
          transcript (withSecret (base T g garbage h) k) garbage Map.empty H' ∧
        ∀ d s, ¬ Spec.Hidden (withSecret (base T g garbage h) (φ k)) H (d, s) →
          ¬ Spec.Hidden (withSecret (base T g garbage h) k) H' (d, s) → ∀ b, (φ k).2.2 d s b = k.2.2 d s b) := by
    intro h
    by_cases hs : Spec.SeedsDistinct (base T g garbage h) H ∧ Spec.SeedsDistinct (base T g garbage h) H'
    · obtain ⟨φ, hb, -, hσ, hφ⟩ := exists_rekey (base T g garbage h) garbage H H' hleak hfit hfit' hs.1 hs.2
      exact ⟨φ, hb, fun _ _ => ⟨hσ, hφ⟩⟩
    · exact ⟨id, Function.bijective_id, fun h1 h2 => absurd ⟨h1, h2⟩ hs⟩
  choose φ hb hφ using hex
  refine ⟨fun ω => (ω.1, secretOf.symm (φ ω.1 (secretOf ω.2))),
    (bijective_fiber (fun h k => secretOf.symm (φ h (secretOf k)))
      (fun h => (secretOf.symm.bijective.comp (hb h)).comp secretOf.bijective)).1, fun _ => rfl, ?_⟩
  intro ω hω
  have hg' : ¬ Bad T g H' n ω := fun h => hω (dictBad_of_bad hW' h)
  have hgH : ¬ Bad T g H n ω := fun h => hω (dictBad_of_bad hW h)
  have hsd : Spec.SeedsDistinct (base T g garbage ω.1) H := seedsDistinct_of T g H n ω hgH
  have hsd' : Spec.SeedsDistinct (base T g garbage ω.1) H' := seedsDistinct_of T g H' n ω hg'
  obtain ⟨⟨σ, hσ, hmat⟩, hφω⟩ := hφ ω.1 hsd hsd'
  have hσW : ∀ s, s ∉ W.image (extend g ω.1) → σ s = s := by
    intro s hs
    refine hσ s (fun m w hw he => hs (Finset.mem_image.mpr ⟨w, ?_, he⟩))
    rcases hw with hw | hw
    · exact hW (mem_cmdKeywords hw)
    · exact hW' (mem_cmdKeywords hw)
  have hg : ¬ Bad T g H n ((ω.1, secretOf.symm (φ ω.1 (secretOf ω.2))) : Choice U Seed ST DK) := fun h =>
    hω (dictBad_perm (ω := ω) (ω' := (ω.1, secretOf.symm (φ ω.1 (secretOf ω.2)))) σ hσW rfl (hmat (secretOf ω.2)).1 (hmat (secretOf ω.2)).2
      (dictBad_of_bad hW h))
  have hpd := pointsDistinct_of T g H n hn _ hg
  have hpd' := pointsDistinct_of T g H' n hn' _ hg'
  obtain ⟨ht, hv⟩ := hφω (secretOf ω.2) hpd hpd'
  change transcript (crypto T g (ω.1, secretOf.symm (φ ω.1 (secretOf ω.2)))) garbage Map.empty H =
    transcript (crypto T g ω) garbage Map.empty H' at ht
  refine ⟨?_, hg, ⟨σ, hσW, (hmat (secretOf ω.2)).1, (hmat (secretOf ω.2)).2⟩, fun d s h1 h2 b => hv d s h1 h2 b⟩
  unfold view
  rw [ht]
  refine List.map_congr_left (fun m hm => ?_)
  refine congrArg (Prod.mk m) ?_
  cases m with
  | update t e => rfl
  | search r =>
    obtain ⟨p, hp⟩ := List.getElem?_of_mem hm
    refine List.map_congr_left (fun i hi => ?_)
    have hi := List.mem_range.mp hi
    have s1 := request_shown _ garbage H hfit hpd p r (ht ▸ hp) i hi
    have s2 := request_shown _ garbage H' hfit' hpd' p r hp i hi
    have := hv r.derivationKey (T.eval^[i] r.token) s1 s2
    exact Prod.ext (this false) (this true)

omit [Fintype Seed] [Fintype DK] [DecidableEq ST] [DecidableEq DK] in
theorem exists_perm {U : Finset Kw} (T : Perm ST) (g : Kw → Seed) (garbage : ST × DK) (W : Finset Kw) (n : Nat) (hn32 : n < 2 ^ 32)
    (H H' : List (Cmd Kw Index)) (hleak : leak H = leak H') (hW : cmdKeywords H ⊆ W) (hW' : cmdKeywords H' ⊆ W)
    (hn : ∀ w, count w H ≤ n) (hn' : ∀ w, count w H' ≤ n) :
    ∃ π : Choice U Seed ST DK → Choice U Seed ST DK, Function.Injective π ∧
      ∀ ω, ¬ DictBad T g W n ω → view (crypto T g (π ω)) garbage H = view (crypto T g ω) garbage H' := by
  obtain ⟨π, h1, -, h2⟩ := exists_perm_values T g garbage W n hn32 H H' hleak hW hW' hn hn'
  exact ⟨π, h1, fun ω hω => (h2 ω hω).1⟩

/-- **C82** (Sophos): a strategy that sees what the server sees, and chooses pairs of commands with the same leakage for both components,
finds out which component is executed with an advantage of at most the bound for the dictionary. -/
theorem C82_sophos [Nonempty Seed] [Nonempty ST] [Nonempty DK] {U : Finset Kw} (T : Perm ST) (g : Kw → Seed) (garbage : ST × DK)
    (W : Finset Kw) (hU : W ⊆ U) (n : Nat) (hn32 : n < 2 ^ 32)
    (σ : List (Msg Token Index (SearchReq ST DK) × List (Token × Token)) → Option (Cmd Kw Index × Cmd Kw Index)) (steps : Nat)
    (E : List (Msg Token Index (SearchReq ST DK) × List (Token × Token)) → Prop) :
    |prob (fun ω : Choice U Seed ST DK => E (view (crypto T g ω) garbage ((play (Rules W n) σ
          (fun P => view (crypto T g ω) garbage (P.map Prod.fst)) steps).map Prod.fst))) -
        prob (fun ω : Choice U Seed ST DK => E (view (crypto T g ω) garbage ((play (Rules W n) σ
          (fun P => view (crypto T g ω) garbage (P.map Prod.snd)) steps).map Prod.snd)))| ≤
      hidingBound Seed DK T W.card n := by
  classical
  have hex : ∀ P : List (Cmd Kw Index × Cmd Kw Index), ∃ π : Choice U Seed ST DK → Choice U Seed ST DK,
      Rules W n P → Function.Injective π ∧ ∀ ω, ¬ DictBad T g W n ω →
        view (crypto T g (π ω)) garbage (P.map Prod.fst) = view (crypto T g ω) garbage (P.map Prod.snd) := by
    intro P
    by_cases hP : Rules W n P
    · obtain ⟨h1, ⟨h2, h3⟩, h4⟩ := hP
      obtain ⟨π, hπ⟩ := exists_perm (U := U) T g garbage W n hn32 _ _ h1 h2 h3 (fun w => (h4 w).1) (fun w => (h4 w).2)
      exact ⟨π, fun _ => hπ⟩
    · exact ⟨id, fun h => absurd h hP⟩
  choose π hπ using hex
  have hpre : ∀ (f : Cmd Kw Index × Cmd Kw Index → Cmd Kw Index) (ω : Choice U Seed ST DK) P Q, Q <+: P →
      view (crypto T g ω) garbage (Q.map f) = (view (crypto T g ω) garbage (P.map f)).take Q.length := by
    intro f ω P Q h
    rw [← view_take, ← List.map_take, ← List.prefix_iff_eq_take.mp h]
  exact le_trans (adaptive_dist (rules_nil W n) (fun (ω : Choice U Seed ST DK) P => view (crypto T g ω) garbage (P.map Prod.fst))
    (fun ω P => view (crypto T g ω) garbage (P.map Prod.snd)) (hpre Prod.fst) (hpre Prod.snd) π (fun P hP => (hπ P hP).1)
    (DictBad T g W n) (fun P hP => (hπ P hP).2) σ steps E) (prob_dictBad_le T g W n hU)

/-! ## An instance -/

/-- A strategy: an insertion and a search for keyword 1 or for keyword 3; then, depending on the update token seen, an insertion for the
keyword searched or for another one, or one for different documents. -/
def sampleStrategy {ST DK : Type} (seen : List (Msg Token Index (SearchReq ST DK) × List (Token × Token))) :
    Option (Cmd Nat Index × Cmd Nat Index) :=
  match seen with
  | [] => some (.insert 1 5, .insert 3 5)
  | [_] => some (.search 1, .search 3)
  | [(.update t _, _), _] => if t[0] = 0 then some (.insert 1 7, .insert 2 9) else some (.insert 1 7, .insert 3 8)
  | _ => none

/-- Its advantage is negligible. -/
example (m : Nat) [NeZero m] (hm : 3 ≤ m) (E : List (Msg Token Index (SearchReq (ZMod m) (Vector UInt8 32)) × List (Token × Token)) → Prop) :
    |prob (fun ω : Choice (Finset.range 10) (Vector UInt8 16) (ZMod m) (Vector UInt8 32) =>
        E (view (crypto (shift m) (fun _ : Nat => Vector.replicate 16 0) ω) (0, Vector.replicate 32 0)
          ((play (Rules (Finset.range 10) 3) sampleStrategy (fun P => view (crypto (shift m) (fun _ : Nat => Vector.replicate 16 0) ω)
            (0, Vector.replicate 32 0) (P.map Prod.fst)) 3).map Prod.fst))) -
      prob (fun ω : Choice (Finset.range 10) (Vector UInt8 16) (ZMod m) (Vector UInt8 32) =>
        E (view (crypto (shift m) (fun _ : Nat => Vector.replicate 16 0) ω) (0, Vector.replicate 32 0)
          ((play (Rules (Finset.range 10) 3) sampleStrategy (fun P => view (crypto (shift m) (fun _ : Nat => Vector.replicate 16 0) ω)
            (0, Vector.replicate 32 0) (P.map Prod.snd)) 3).map Prod.snd)))| < 1 / 2 ^ 88 :=
  lt_of_le_of_lt (C82_sophos (U := Finset.range 10) (shift m) (fun _ : Nat => (Vector.replicate 16 0 : Vector UInt8 16))
    (0, (Vector.replicate 32 0 : Vector UInt8 32)) (Finset.range 10) (Finset.Subset.refl _) 3 (by decide) sampleStrategy 3 E)
    (C79_sophos_number (shift m) _ 3 (shift_cycles _ _ hm) (by decide))

/-- The rules allow all of its commands. -/
example : Rules (Finset.range 10) 3 [((.insert 1 5 : Cmd Nat Index), (.insert 3 5 : Cmd Nat Index)), (.search 1, .search 3), (.insert 1 7, .insert 2 9)] ∧
    Rules (Finset.range 10) 3 [((.insert 1 5 : Cmd Nat Index), (.insert 3 5 : Cmd Nat Index)), (.search 1, .search 3), (.insert 1 7, .insert 3 8)] :=
  ⟨⟨by decide, ⟨by decide, by decide⟩, fun w => ⟨count_le w _, count_le w _⟩⟩,
    ⟨by decide, ⟨by decide, by decide⟩, fun w => ⟨count_le w _, count_le w _⟩⟩⟩

end Verif.Ideal.Sophos
