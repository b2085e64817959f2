import Verif.Ideal.Keyed
import Verif.Ideal.DianaHiding
import Verif.Ideal.JanusProps

/-!
# The keys of Diana: C80

`DianaClient` has two pseudorandom functions with keys of their own: `root_prf_` for the root keys and `kw_token_prf_` for the
keyword tokens (`/repo/lib/include/sse/schemes/diana/diana_client.hpp` L85-86, L97-105), both with results of 32 bytes
(`/repo/lib/include/sse/schemes/diana/types.hpp` L29-31). Here both are one function of key and input, chosen at random, with two
random keys.
-/

namespace Verif.Ideal.Diana

open Verif Verif.Diana Verif.Leak

/-- What is chosen besides the keyed function: the hash function, update tokens, masks and leaves -/
abbrev Others {Kw : Type} (U : Finset Kw) (V : Type) := (U → Token) × (Leaf → Token) × (Leaf → V) × (Leaf × Pos → Leaf)

/-- What is chosen at random: the two keys, the keyed function, and the others. -/
abbrev Keyed {Kw : Type} (U : Finset Kw) (V : Type) := ((Bool → Leaf) × (Leaf × Token → Leaf)) × Others U V

variable {Kw V : Type}

/-- The functions of the scheme, given by the two functions with keys: `true` for `kw_token_prf_`, `false` for `root_prf_`. -/
def assemble {U : Finset Kw} (f : Bool × Token → Leaf) (r : Others U V) : FullChoice U V :=
  ((r.1, fun t => f (true, t), fun t => f (false, t), r.2.1, r.2.2.1), r.2.2.2)

/-- The functions of the scheme with the two random keys (diana_client.hpp L97-105) -/
def keyed {U : Finset Kw} (x : Keyed U V) : FullChoice U V := assemble (withKeys x.1) x.2

variable [DecidableEq Kw]

theorem prob_assemble [Fintype V] {U : Finset Kw} (p : FullChoice U V → Prop) :
    prob (fun x : (Bool × Token → Leaf) × Others U V => p (assemble x.1 x.2)) = prob p :=
  prob_equiv (Ω := (Bool × Token → Leaf) × Others U V) (Ω' := FullChoice U V)
    { toFun := fun x => assemble x.1 x.2
      invFun := fun y => (fun z => if z.1 then y.1.2.1 z.2 else y.1.2.2.1 z.2, (y.1.1, y.1.2.2.2.1, y.1.2.2.2.2, y.2))
      left_inv := by
        rintro ⟨f, r⟩
        refine Prod.ext (funext fun z => ?_) rfl
        obtain ⟨b, s⟩ := z
        cases b <;> rfl
      right_inv := fun _ => rfl } p

instance : Nonempty Leaf := ⟨Vector.replicate 32 0⟩

/-- **C80** (Diana): with the two random keys, every event has the probability that it has with independent functions, up to the
probability that the keys are equal. -/
theorem C80_diana_keys [Fintype V] {U : Finset Kw} (E : FullChoice U V → Prop) :
    |prob (fun x : Keyed U V => E (keyed x)) - prob E| ≤ 1 / 256 ^ 32 := by
  have h := prob_withKeys (L := Bool) (K := Leaf) (fun f (r : Others U V) => E (assemble f r))
  rw [prob_assemble E] at h
  refine le_trans h (le_of_eq ?_)
  unfold randomBound
  rw [card_bytes]
  norm_num

/-- The cryptography of all the functions -/
@[reducible] def full {U : Finset Kw} (M : Masking V) (g : Kw → Token) (ω : FullChoice U V) : Crypto Kw V :=
  withSecret (base M g ω.1.1 ω.2) ω.1.2

/-- The functions that matter for the results -/
def relevant {U : Finset Kw} (ω : FullChoice U V) : Choice U := (ω.1.1, ω.1.2.2.1, ω.2, ω.1.2.2.2.1)

theorem full_eq {U : Finset Kw} (M : Masking V) (g : Kw → Token) (ω : FullChoice U V) :
    full M g ω = crypto ⟨ω.1.2.1, ω.1.2.2.2.2, M.xor, M.xor_xor⟩ g (relevant ω) := rfl

theorem prob_relevant [Fintype V] {U : Finset Kw} (p : (Token → Vector UInt8 32) × (Leaf → V) → Choice U → Prop) (b : ℚ) (hb : 0 ≤ b)
    (h : ∀ a, prob (p a) ≤ b) : prob (fun ω : FullChoice U V => p (ω.1.2.1, ω.1.2.2.2.2) (relevant ω)) ≤ b := by
  refine le_trans (le_of_eq (prob_equiv (Ω := FullChoice U V) (Ω' := ((Token → Vector UInt8 32) × (Leaf → V)) × Choice U)
    { toFun := fun ω => ((ω.1.2.1, ω.1.2.2.2.2), relevant ω)
      invFun := fun y => ((y.2.1, y.1.1, y.2.2.1, y.2.2.2.2, y.1.2), y.2.2.2.1)
      left_inv := fun _ => rfl
      right_inv := fun _ => rfl } (fun y => p y.1 y.2))) ?_
  exact prob_prod_le _ b hb h

theorem bound_nonneg (k n : Nat) : 0 ≤ bound k n := by
  unfold bound
  positivity

/-- **C80** (Diana): searches are exact except with small probability, with the two random keys. -/
theorem C80_diana_search [Fintype V] {U : Finset Kw} (M : Masking V) (g : Kw → Token) (ops : List (Op Kw V)) (k n : Nat)
    (hU : (ops.filterMap inserted).toFinset ⊆ U) (hk : (ops.filterMap inserted).toFinset.card ≤ k)
    (hn : (ops.filterMap inserted).length ≤ n) (hfit : ∀ w, Spec.insertions w ops < 2 ^ 32) :
    prob (fun x : Keyed U V => ¬ ∃ s, run (full M g (keyed x)) Sys.init ops = some (s, Spec.run Spec.empty ops)) ≤
      bound k n + 1 / 256 ^ 32 := by
  refine le_transfer (C80_diana_keys (fun ω : FullChoice U V =>
    ¬ ∃ s, run (full M g ω) Sys.init ops = some (s, Spec.run Spec.empty ops))) ?_
  exact prob_relevant (fun a ω => ¬ ∃ s, run (crypto ⟨a.1, a.2, M.xor, M.xor_xor⟩ g ω) Sys.init ops =
    some (s, Spec.run Spec.empty ops)) _ (bound_nonneg k n) (fun a => C78_diana_search _ g ops k n hU hk hn hfit)

/-- **C80** (Diana): the advantage of an observer of the server, with the two random keys. -/
theorem C80_diana_hiding [Fintype V] {U : Finset Kw} (M : Masking V) (g : Kw → Token) (H H' : List (Cmd Kw V))
    (hleak : leak H = leak H') (hU : cmdKeywords H ⊆ U) (hU' : cmdKeywords H' ⊆ U)
    (hn : ∀ w, count w H < 2 ^ 32) (hn' : ∀ w, count w H' < 2 ^ 32)
    (E : List (Message V × List (Option (Leaf × Token × V))) → Prop) :
    |prob (fun x : Keyed U V => E (view M g (keyed x) H)) - prob (fun x : Keyed U V => E (view M g (keyed x) H'))| ≤
      hidingBound (cmdKeywords H).card H.length + hidingBound (cmdKeywords H').card H'.length + 2 * (1 / 256 ^ 32) :=
  dist_transfer (C80_diana_keys (fun ω => E (view M g ω H))) (C80_diana_keys (fun ω => E (view M g ω H')))
    (C79_diana M g H H' hleak hU hU' hn hn' E)

/-- The hypotheses hold for the history of the example of C78. -/
example : prob (fun x : Keyed (Finset.range 10) Index =>
    ¬ ∃ s, run (full indexMasking (fun _ => Vector.replicate 16 0) (keyed x)) Sys.init sampleOps =
      some (s, Spec.run Spec.empty sampleOps)) ≤ bound 2 3 + 1 / 256 ^ 32 :=
  C80_diana_search (U := Finset.range 10) indexMasking (fun _ => Vector.replicate 16 0) sampleOps 2 3 (by decide) (by decide) (by decide)
    (fun w => Nat.lt_of_le_of_lt (m := 3) (by rw [insertions_eq]; exact List.count_le_length) (by decide))

/-- The hypotheses hold for the histories of the example of C79. -/
example (E : List (Message Index × List (Option (Leaf × Token × Index))) → Prop) :
    |prob (fun x : Keyed (Finset.range 10) Index => E (view indexMasking (fun _ => Vector.replicate 16 0) (keyed x) sample)) -
      prob (fun x : Keyed (Finset.range 10) Index => E (view indexMasking (fun _ => Vector.replicate 16 0) (keyed x) sample'))| ≤
      hidingBound 1 3 + hidingBound 2 3 + 2 * (1 / 256 ^ 32) :=
  C80_diana_hiding (U := Finset.range 10) indexMasking (fun _ => Vector.replicate 16 0) sample sample' (by decide) (by decide) (by decide)
    (fun w => Nat.lt_of_le_of_lt (count_le w _) (by decide)) (fun w => Nat.lt_of_le_of_lt (count_le w _) (by decide)) E

end Verif.Ideal.Diana
