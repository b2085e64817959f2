import Verif.Ideal.Lemmas
import Verif.Sophos.Props

/-!
# Sophos with ideal cryptography

The hash function and the pseudorandom functions of `SophosClient` and `SophosServer`
(`/repo/lib/sophos/sophos_client.cpp` L77-81, L100-105, L136-159, `/repo/lib/sophos/sophos_common.cpp`
L18-31) are replaced by uniformly chosen functions. As there are infinitely many keywords, the hash function is chosen
on a finite set `U` of keywords, which can be arbitrarily large, and is arbitrary outside of it. The trapdoor permutation is an
arbitrary permutation of a finite set.
-/

namespace Verif.Ideal.Sophos

open Verif Verif.Sophos

/-- A trapdoor permutation of a finite set (`crypto::TdpInverse` and `crypto::TdpMultPool`). -/
structure Perm (ST : Type) where
  eval : ST → ST
  inv : ST → ST
  eval_inv : ∀ x, eval (inv x) = x

/-- What is chosen at random: the hash function, the function `rsa_prg_` giving the first search token of
a keyword, the function giving its derivation key, and the function giving tokens and masks. -/
abbrev Choice {Kw : Type} (U : Finset Kw) (Seed ST DK : Type) :=
  (U → Seed) × (Seed → ST) × (Seed → DK) × (DK × ST × Bool → Token)

variable {Kw Seed ST DK : Type}

/-- The cryptography given by a choice, with the hash function `g` outside of `U`. -/
def crypto [DecidableEq Kw] {U : Finset Kw} (T : Perm ST) (g : Kw → Seed) (ω : Choice U Seed ST DK) : Crypto Kw Seed ST DK where
  hash := extend g ω.1
  gen := ω.2.1
  dkey := ω.2.2.1
  eval := T.eval
  inv := T.inv
  prf := fun k st b => ω.2.2.2 (k, st, b)
  eval_inv := T.eval_inv

open Classical in
/-- The elements lying on a cycle of the permutation shorter than `n`. -/
noncomputable def shortCycles [Fintype ST] (T : Perm ST) (n : Nat) : Finset ST :=
  Finset.univ.filter (fun x => ∃ j, 0 < j ∧ j < n ∧ T.inv^[j] x = x)

variable [DecidableEq Kw]

/-- The keywords of a list of insertions. -/
def keywords (H : List (Kw × Index)) : Finset Kw := (H.map Prod.fst).toFinset

/-- The bound on the probability of a collision: keyword indices of 16 bytes, derivation keys, first
tokens on short cycles, update tokens of 16 bytes. -/
noncomputable def bound [Fintype Seed] [Fintype ST] [Fintype DK] (T : Perm ST) (H : List (Kw × Index))
    (n : Nat) : ℚ :=
  let k := (keywords H).card
  (k.choose 2 : ℚ) / Fintype.card Seed + k * ((shortCycles T n).card / Fintype.card ST) +
    (k.choose 2 : ℚ) / Fintype.card DK + (H.length.choose 2 : ℚ) / 256 ^ 16

end Verif.Ideal.Sophos
