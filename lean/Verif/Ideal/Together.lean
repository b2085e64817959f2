import Verif.Ideal.Uniform
import Verif.Ideal.DianaAdaptive
import Verif.Ideal.SophosKeys
import Verif.Ideal.DianaKeys
import Verif.Ideal.JanusKeys

/-!
# C81 and C82 with the keys of C80
-/

namespace Verif.Ideal.Sophos

open Verif Verif.Sophos Verif.Leak

variable {Kw Seed ST DK Z X Y : Type} [DecidableEq Kw] [Fintype Seed] [Fintype ST] [Fintype DK] [DecidableEq Seed] [DecidableEq ST]
  [DecidableEq DK] [Fintype Z] [Nonempty Z] [Fintype X] [Fintype Y]

/-- **C81** (Sophos), with the two random keys of C80. -/
theorem C81_sophos_keyed {U : Finset Kw} (a : Z ≃ DK × X) (b : Z ≃ ST × Y) (T : Perm ST) (g : Kw → Seed) (W : Finset Kw) (hU : W ⊆ U)
    (n : Nat) (hn32 : n < 2 ^ 32) :
    prob (fun x : Keyed U Seed ST DK Z => ∃ (garbage : ST × DK) (ops : List (Op Kw)),
      (∀ w, (Spec.docs w (Spec.insertions ops)).length ≤ quota W n w) ∧
      (run (crypto T g (keyed a b x)) garbage Sys.init ops).2 ≠ Spec.run [] ops) ≤ dictBound Seed DK T W.card n + 1 / 256 ^ 32 :=
  le_transfer (C80_sophos_keys a b (fun ω : Choice U Seed ST DK => ∃ (garbage : ST × DK) (ops : List (Op Kw)),
      (∀ w, (Spec.docs w (Spec.insertions ops)).length ≤ quota W n w) ∧
      (run (crypto T g ω) garbage Sys.init ops).2 ≠ Spec.run [] ops))
    (C81_sophos_search T g W hU n hn32)

/-- **C82** (Sophos), with the two random keys of C80. -/
theorem C82_sophos_keyed [Nonempty Seed] {U : Finset Kw} (a : Z ≃ DK × X) (b : Z ≃ ST × Y) (T : Perm ST)
    (g : Kw → Seed) (garbage : ST × DK) (W : Finset Kw) (hU : W ⊆ U) (n : Nat) (hn32 : n < 2 ^ 32)
    (σ : List (Msg Token Index (SearchReq ST DK) × List (Token × Token)) → Option (Cmd Kw Index × Cmd Kw Index)) (steps : Nat)
    (E : List (Msg Token Index (SearchReq ST DK) × List (Token × Token)) → Prop) :
    |prob (fun x : Keyed U Seed ST DK Z => E (view (crypto T g (keyed a b x)) garbage ((play (Rules W n) σ
          (fun P => view (crypto T g (keyed a b x)) garbage (P.map Prod.fst)) steps).map Prod.fst))) -
        prob (fun x : Keyed U Seed ST DK Z => E (view (crypto T g (keyed a b x)) garbage ((play (Rules W n) σ
          (fun P => view (crypto T g (keyed a b x)) garbage (P.map Prod.snd)) steps).map Prod.snd)))| ≤
      hidingBound Seed DK T W.card n + 2 * (1 / 256 ^ 32) := by
  have : Nonempty ST := ⟨garbage.1⟩
  have : Nonempty DK := ⟨garbage.2⟩
  exact dist_transfer
    (C80_sophos_keys a b (fun ω : Choice U Seed ST DK => E (view (crypto T g ω) garbage ((play (Rules W n) σ
      (fun P => view (crypto T g ω) garbage (P.map Prod.fst)) steps).map Prod.fst))))
    (C80_sophos_keys a b (fun ω : Choice U Seed ST DK => E (view (crypto T g ω) garbage ((play (Rules W n) σ
      (fun P => view (crypto T g ω) garbage (P.map Prod.snd)) steps).map Prod.snd))))
    (C82_sophos T g garbage W hU n hn32 σ steps E)

/-- Tokens and derivation keys that are read from the same bytes -/
example (T : Perm (Vector UInt8 32)) : prob (fun x : Keyed (Finset.range 10) (Vector UInt8 16) (Vector UInt8 32) (Vector UInt8 32)
      (Vector UInt8 32) => ∃ (garbage : Vector UInt8 32 × Vector UInt8 32) (ops : List (Op Nat)),
      (∀ w, (Spec.docs w (Spec.insertions ops)).length ≤ quota (Finset.range 10) 3 w) ∧
      (run (crypto T (fun _ => Vector.replicate 16 0) (keyed (Equiv.prodUnique (Vector UInt8 32) Unit).symm
        (Equiv.prodUnique (Vector UInt8 32) Unit).symm x)) garbage Sys.init ops).2 ≠ Spec.run [] ops) ≤
      dictBound (Vector UInt8 16) (Vector UInt8 32) T 10 3 + 1 / 256 ^ 32 :=
  have : Nonempty (Vector UInt8 32) := ⟨Vector.replicate 32 0⟩
  C81_sophos_keyed (U := Finset.range 10) _ _ T (fun _ => Vector.replicate 16 0) (Finset.range 10) (Finset.Subset.refl _) 3 (by decide)

end Verif.Ideal.Sophos

namespace Verif.Ideal.Diana

open Verif Verif.Diana Verif.Leak

variable {Kw V : Type} [DecidableEq Kw] [Fintype V]

/-- **C81** (Diana), with the two random keys of C80. -/
theorem C81_diana_keyed {U : Finset Kw} (M : Masking V) (g : Kw → Token) (W : Finset Kw) (hU : W ⊆ U) (n : Nat) (hn32 : n < 2 ^ 32) :
    prob (fun x : Keyed U V => ∃ ops : List (Op Kw V), (∀ w, Spec.insertions w ops ≤ quota W n w) ∧
      ¬ ∃ s, run (full M g (keyed x)) Sys.init ops = some (s, Spec.run Spec.empty ops)) ≤
      bound W.card (W.card * n) + 1 / 256 ^ 32 := by
  refine le_transfer (C80_diana_keys (fun ω : FullChoice U V => ∃ ops : List (Op Kw V), (∀ w, Spec.insertions w ops ≤ quota W n w) ∧
    ¬ ∃ s, run (full M g ω) Sys.init ops = some (s, Spec.run Spec.empty ops))) ?_
  exact prob_relevant (fun a ω => ∃ ops : List (Op Kw V), (∀ w, Spec.insertions w ops ≤ quota W n w) ∧
    ¬ ∃ s, run (crypto ⟨a.1, a.2, M.xor, M.xor_xor⟩ g ω) Sys.init ops = some (s, Spec.run Spec.empty ops)) _
    (bound_nonneg _ _) (fun a => C81_diana_search _ g W hU n hn32)

/-- **C82** (Diana), with the two random keys of C80. -/
theorem C82_diana_keyed {U : Finset Kw} (M : Masking V) (g : Kw → Token) (W : Finset Kw) (hU : W ⊆ U) (n : Nat)
    (hn32 : n < 2 ^ 32) (σ : List (Message V × List (Option (Leaf × Token × V))) → Option (Cmd Kw V × Cmd Kw V)) (steps : Nat)
    (E : List (Message V × List (Option (Leaf × Token × V))) → Prop) :
    |prob (fun x : Keyed U V => E (view M g (keyed x)
          ((play (Rules W n) σ (fun P => view M g (keyed x) (P.map Prod.fst)) steps).map Prod.fst))) -
        prob (fun x : Keyed U V => E (view M g (keyed x)
          ((play (Rules W n) σ (fun P => view M g (keyed x) (P.map Prod.snd)) steps).map Prod.snd)))| ≤
      hidingBound W.card (W.card * n) + 2 * (1 / 256 ^ 32) :=
  dist_transfer
    (C80_diana_keys (fun ω => E (view M g ω ((play (Rules W n) σ (fun P => view M g ω (P.map Prod.fst)) steps).map Prod.fst))))
    (C80_diana_keys (fun ω => E (view M g ω ((play (Rules W n) σ (fun P => view M g ω (P.map Prod.snd)) steps).map Prod.snd))))
    (C82_diana M g W hU n hn32 σ steps E)

/-- For an instance -/
example : prob (fun x : Keyed (Finset.range 10) Index => ∃ ops : List (Op Nat Index),
      (∀ w, Spec.insertions w ops ≤ quota (Finset.range 10) 3 w) ∧
      ¬ ∃ s, run (full indexMasking (fun _ => Vector.replicate 16 0) (keyed x)) Sys.init ops = some (s, Spec.run Spec.empty ops)) ≤
      bound 10 30 + 1 / 256 ^ 32 :=
  C81_diana_keyed (U := Finset.range 10) indexMasking (fun _ => Vector.replicate 16 0) (Finset.range 10) (Finset.Subset.refl _) 3 (by decide)

end Verif.Ideal.Diana

namespace Verif.Ideal.Janus

open Verif Verif.Janus

variable {PK KS CT Rand : Type}

/-- **C81** (Janus), with the seven derived keys of C80, for the histories of C12. -/
theorem C81_janus_keyed_partial [Fintype KS] [Fintype CT] (N : Inputs) {U : Finset Str} (hUN : U ⊆ N.set) (Q : Params PK KS CT Rand)
    (laws : PunctLaws Q.fixed.rest) (W : List Str) (D : List Index) (n : Nat) (hn : n + 1 < 2 ^ 32) (hU : stringsOf W D n ⊆ U) :
    prob (fun x : Keyed N U KS CT => ∃ ops : List (Op Rand), ops.map Spec.Op.kw ⊆ W ∧ ops.flatMap Spec.Op.docs ⊆ D ∧ ops.length ≤ n ∧
      Spec.admissible (fun _ => ⟨[], []⟩) ops = true ∧
      ¬ ∃ s, run (keyedCrypto Q (families N.label x.1) x.2) Sys.init ops = .ok (s, Spec.run Spec.empty ops)) ≤
      bound W.toFinset.card D.toFinset.card n + keysBound := by
  refine le_transfer (C80_janus_keys N (fun f (r : Others U KS CT) => ∃ ops : List (Op Rand), ops.map Spec.Op.kw ⊆ W ∧
    ops.flatMap Spec.Op.docs ⊆ D ∧ ops.length ≤ n ∧ Spec.admissible (fun _ => ⟨[], []⟩) ops = true ∧
    ¬ ∃ s, run (keyedCrypto Q f r) Sys.init ops = .ok (s, Spec.run Spec.empty ops))) ?_
  exact prob_others hUN Q (fun c => ∃ ops : List (Op Rand), ops.map Spec.Op.kw ⊆ W ∧
    ops.flatMap Spec.Op.docs ⊆ D ∧ ops.length ≤ n ∧ Spec.admissible (fun _ => ⟨[], []⟩) ops = true ∧
    ¬ ∃ s, run c Sys.init ops = .ok (s, Spec.run Spec.empty ops)) _ (bound_nonneg _ _ _)
    (fun F m => C81_janus_search_partial _ (fun ω => ⟨laws.decrypts, laws.refuses⟩) W D n hn hU)

/-- For an instance -/
example : prob (fun x : Keyed (Inputs.upTo 100 (by decide)) (strings sampleHistory) (UInt32 × Tag) (Index × Tag) =>
    ∃ ops : List (Op Unit), ops.map Spec.Op.kw ⊆ sampleHistory.map Spec.Op.kw ∧
      ops.flatMap Spec.Op.docs ⊆ sampleHistory.flatMap Spec.Op.docs ∧ ops.length ≤ sampleHistory.length ∧
      Spec.admissible (fun _ => ⟨[], []⟩) ops = true ∧
      ¬ ∃ s, run (keyedCrypto sampleParams (families (Inputs.label _) x.1) x.2) Sys.init ops = .ok (s, Spec.run Spec.empty ops)) ≤
      bound 1 2 4 + keysBound :=
  C81_janus_keyed_partial (Inputs.upTo 100 (by decide)) (U := strings sampleHistory) (fun s hs => by
    simp only [Inputs.upTo, Set.Finite.mem_toFinset, Set.mem_ofPred_eq]
    exact Nat.le_trans (m := 25) (sampleHistory_short s hs) (by decide)) sampleParams Toy.laws _ _ _ (by decide) (Finset.Subset.refl _)

end Verif.Ideal.Janus
