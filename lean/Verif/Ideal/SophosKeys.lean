import Verif.Ideal.Keyed
import Verif.Ideal.SophosHiding
import Verif.Ideal.JanusProps

/-!
# The keys of Sophos: C80

`SophosClient` has two pseudorandom functions with keys of their own: `k_prf_` for derivation keys and `rsa_prg_` for the first search
tokens (`/repo/lib/include/sse/schemes/sophos/sophos_client.hpp` L82-88, `/repo/lib/sophos/sophos_client.cpp` L42-50). Here both are one
function of key and input, chosen at random, with two random keys. Both results are read from the result of this function, maybe from
the same bytes: `a` and `b` say which part is read and what is left.
-/

namespace Verif.Ideal.Sophos

open Verif Verif.Sophos Verif.Leak

/-- A key (`kKeySize`, sophos_client.hpp L44) -/
abbrev MasterKey := Vector UInt8 32

/-- What is chosen besides the keyed function: the hash function, and the function giving tokens and masks -/
abbrev Others {Kw : Type} (U : Finset Kw) (Seed ST DK : Type) := (U → Seed) × (DK × ST × Bool → Token)

/-- What is chosen at random: the two keys, the keyed function with results in `Z`, and the others. -/
abbrev Keyed {Kw : Type} (U : Finset Kw) (Seed ST DK Z : Type) :=
  ((Bool → MasterKey) × (MasterKey × Seed → Z)) × Others U Seed ST DK

variable {Kw Seed ST DK Z X Y : Type}

/-- The functions of the scheme, given by the two functions with keys: `true` for `rsa_prg_`, `false` for `k_prf_`. -/
def assemble {U : Finset Kw} (a : Z ≃ DK × X) (b : Z ≃ ST × Y) (f : Bool × Seed → Z) (r : Others U Seed ST DK) :
    Choice U Seed ST DK :=
  (r.1, fun s => (b (f (true, s))).1, fun s => (a (f (false, s))).1, r.2)

/-- The functions of the scheme with the two random keys (sophos_client.cpp L42-50) -/
def keyed {U : Finset Kw} (a : Z ≃ DK × X) (b : Z ≃ ST × Y) (x : Keyed U Seed ST DK Z) : Choice U Seed ST DK :=
  assemble a b (withKeys x.1) x.2

variable [DecidableEq Kw] [Fintype Seed] [Fintype ST] [Fintype DK] [DecidableEq Seed] [DecidableEq ST] [DecidableEq DK]
  [Fintype Z] [Nonempty Z] [Fintype X] [Fintype Y]

theorem prob_assemble {U : Finset Kw} (a : Z ≃ DK × X) (b : Z ≃ ST × Y) (p : Choice U Seed ST DK → Prop) :
    prob (fun x : (Bool × Seed → Z) × Others U Seed ST DK => p (assemble a b x.1 x.2)) = prob p := by
  have : Nonempty X := ⟨(a (Classical.arbitrary Z)).2⟩
  have : Nonempty Y := ⟨(b (Classical.arbitrary Z)).2⟩
  rw [← prob_fst_eq (Ω₂ := (Seed → X) × (Seed → Y)) p]
  exact prob_equiv
    (Ω := (Bool × Seed → Z) × Others U Seed ST DK) (Ω' := Choice U Seed ST DK × ((Seed → X) × (Seed → Y)))
    { toFun := fun x => (assemble a b x.1 x.2, fun s => (a (x.1 (false, s))).2, fun s => (b (x.1 (true, s))).2)
      invFun := fun y => (fun z => if z.1 then b.symm (y.1.2.1 z.2, y.2.2 z.2) else a.symm (y.1.2.2.1 z.2, y.2.1 z.2), (y.1.1, y.1.2.2.2))
      left_inv := by
        rintro ⟨f, r⟩
        refine Prod.ext (funext fun z => ?_) rfl
        obtain ⟨l, s⟩ := z
        cases l <;> simp [assemble]
      right_inv := by
        rintro ⟨⟨h, g, d, t⟩, x, y⟩
        simp [assemble] } (fun y => p y.1)

/-- **C80** (Sophos): with the two random keys, every event has the probability that it has with independent functions, up to the
probability that the keys are equal. -/
theorem C80_sophos_keys {U : Finset Kw} (a : Z ≃ DK × X) (b : Z ≃ ST × Y) (E : Choice U Seed ST DK → Prop) :
    |prob (fun x : Keyed U Seed ST DK Z => E (keyed a b x)) - prob E| ≤ 1 / 256 ^ 32 := by
  have h := prob_withKeys (L := Bool) (K := MasterKey) (fun f (r : Others U Seed ST DK) => E (assemble a b f r))
  rw [prob_assemble a b E] at h
  refine le_trans h (le_of_eq ?_)
  unfold randomBound
  rw [card_bytes]
  norm_num

/-- **C80** (Sophos): searches are exact except with small probability, with the two random keys. -/
theorem C80_sophos_search {U : Finset Kw} (a : Z ≃ DK × X) (b : Z ≃ ST × Y) (T : Perm ST) (g : Kw → Seed) (garbage : ST × DK)
    (ops : List (Op Kw)) (n : Nat) (hn32 : n < 2 ^ 32) (hU : keywords (Spec.insertions ops) ⊆ U)
    (hn : ∀ w, (Spec.docs w (Spec.insertions ops)).length ≤ n) :
    prob (fun x : Keyed U Seed ST DK Z => (run (crypto T g (keyed a b x)) garbage Sys.init ops).2 ≠ Spec.run [] ops) ≤
      bound (Seed := Seed) (DK := DK) T (Spec.insertions ops) n + 1 / 256 ^ 32 :=
  le_transfer (C80_sophos_keys a b (fun ω : Choice U Seed ST DK => (run (crypto T g ω) garbage Sys.init ops).2 ≠ Spec.run [] ops))
    (C78_sophos_search T g garbage ops n hn32 hU hn)

/-- **C80** (Sophos): the advantage of an observer of the server, with the two random keys. -/
theorem C80_sophos_hiding {U : Finset Kw} (a : Z ≃ DK × X) (b : Z ≃ ST × Y) (T : Perm ST) (g : Kw → Seed) (garbage : ST × DK)
    (H H' : List (Cmd Kw Index)) (n n' : Nat) (hleak : leak H = leak H') (hU : cmdKeywords H ⊆ U) (hU' : cmdKeywords H' ⊆ U)
    (hn32 : n < 2 ^ 32) (hn32' : n' < 2 ^ 32) (hn : ∀ w, count w H ≤ n) (hn' : ∀ w, count w H' ≤ n')
    (E : List (Msg Token Index (SearchReq ST DK) × List (Token × Token)) → Prop) :
    |prob (fun x : Keyed U Seed ST DK Z => E (view (crypto T g (keyed a b x)) garbage H)) -
        prob (fun x : Keyed U Seed ST DK Z => E (view (crypto T g (keyed a b x)) garbage H'))| ≤
      hidingBound Seed DK T (cmdKeywords H).card n + hidingBound Seed DK T (cmdKeywords H').card n' + 2 * (1 / 256 ^ 32) :=
  dist_transfer (C80_sophos_keys a b (fun ω : Choice U Seed ST DK => E (view (crypto T g ω) garbage H)))
    (C80_sophos_keys a b (fun ω : Choice U Seed ST DK => E (view (crypto T g ω) garbage H')))
    (C79_sophos T g garbage H H' n n' hleak hU hU' hn32 hn32' hn hn' E)

/-- The hypotheses hold for the history of the example of C78. -/
example (m : Nat) [NeZero m] :
    prob (fun x : Keyed (Finset.range 10) (Vector UInt8 16) (ZMod m) (Vector UInt8 32) (Vector UInt8 32 × ZMod m) =>
      (run (crypto (shift m) (fun _ : Nat => Vector.replicate 16 0) (keyed (Equiv.refl _) (Equiv.prodComm _ _) x)) (0, Vector.replicate 32 0) Sys.init sampleOps).2 ≠
        [[5], [7, 5]]) ≤
      bound (Seed := Vector UInt8 16) (DK := Vector UInt8 32) (shift m) (Spec.insertions sampleOps) 3 + 1 / 256 ^ 32 := by
  have h := C80_sophos_search (U := Finset.range 10) (Equiv.refl (Vector UInt8 32 × ZMod m)) (Equiv.prodComm _ _) (shift m) (fun _ : Nat => (Vector.replicate 16 0 : Vector UInt8 16))
    (0, (Vector.replicate 32 0 : Vector UInt8 32)) sampleOps 3 (by decide) (by decide)
    (fun w => le_trans (List.length_map _).le (le_trans (List.length_filter_le _ _) (by decide)))
  rwa [show Spec.run [] sampleOps = [[5], [7, 5]] by decide] at h

/-- The hypotheses hold for the histories of the example of C79. -/
example (m : Nat) [NeZero m] (E : List (Msg Token Index (SearchReq (ZMod m) (Vector UInt8 32)) × List (Token × Token)) → Prop) :
    |prob (fun x : Keyed (Finset.range 10) (Vector UInt8 16) (ZMod m) (Vector UInt8 32) (Vector UInt8 32 × ZMod m) =>
        E (view (crypto (shift m) (fun _ : Nat => Vector.replicate 16 0) (keyed (Equiv.refl _) (Equiv.prodComm _ _) x)) (0, Vector.replicate 32 0) sample)) -
      prob (fun x : Keyed (Finset.range 10) (Vector UInt8 16) (ZMod m) (Vector UInt8 32) (Vector UInt8 32 × ZMod m) =>
        E (view (crypto (shift m) (fun _ : Nat => Vector.replicate 16 0) (keyed (Equiv.refl _) (Equiv.prodComm _ _) x)) (0, Vector.replicate 32 0) sample'))| ≤
      hidingBound (Vector UInt8 16) (Vector UInt8 32) (shift m) (cmdKeywords sample).card 3 +
        hidingBound (Vector UInt8 16) (Vector UInt8 32) (shift m) (cmdKeywords sample').card 3 + 2 * (1 / 256 ^ 32) :=
  C80_sophos_hiding (U := Finset.range 10) (Equiv.refl (Vector UInt8 32 × ZMod m)) (Equiv.prodComm _ _) (shift m) (fun _ : Nat => (Vector.replicate 16 0 : Vector UInt8 16))
    (0, (Vector.replicate 32 0 : Vector UInt8 32)) sample sample' 3 3 (by decide) (by decide) (by decide) (by decide) (by decide)
    (fun w => count_le w _) (fun w => count_le w _) E

end Verif.Ideal.Sophos
