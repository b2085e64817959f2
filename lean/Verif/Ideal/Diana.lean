import Verif.Ideal.Lemmas
import Verif.Diana.KindsProps

/-!
# Diana with ideal cryptography

The hash function, the derivation of the root keys, the range-constrained pseudorandom function and the generator of
update tokens (`/repo/lib/include/sse/schemes/diana/diana_client.hpp` L110-120, L157-163, L188-206,
`/repo/lib/diana/diana_common.cpp` L29-37) are uniformly chosen functions. A constrained key is ideal as well: it allows
the evaluation in its range and reveals nothing else, so that it is represented by the root key and the range. As there are
infinitely many keywords, the hash function is chosen on a finite set `U` of keywords, which can be arbitrarily large, and
is arbitrary outside of it.
-/

namespace Verif.Ideal.Diana

open Verif Verif.Diana

/-- The leaves: positions of 32 bits (`kw_counter` is a `uint32_t`, diana_client.hpp L179). -/
abbrev Pos := Fin (2 ^ 32)

/-- What is chosen at random: the hash function, the root key of a keyword index, the leaf tokens, and the update token of
a leaf token. -/
abbrev Choice {Kw : Type} (U : Finset Kw) :=
  (U → Token) × (Token → Leaf) × (Leaf × Pos → Leaf) × (Leaf → Token)

/-- What is not chosen at random: keyword tokens and masks, which do not matter for the results. -/
structure Rest (V : Type) where
  kwToken : Token → Vector UInt8 32
  mask : Leaf → V
  xor : V → V → V
  xor_xor : ∀ x m, xor (xor x m) m = x

variable {Kw V : Type}

/-- The position of a number. -/
def pos (n : Nat) : Pos := ⟨n % 2 ^ 32, Nat.mod_lt _ (by decide)⟩

/-- The cryptography given by a choice, with the hash function `g` outside of `U`. -/
def crypto [DecidableEq Kw] {U : Finset Kw} (R : Rest V) (g : Kw → Token) (ω : Choice U) : Crypto Kw V where
  RK := Leaf
  CK := Leaf × Nat
  hash := extend g ω.1
  kwToken := R.kwToken
  root := ω.2.1
  eval := fun r i => ω.2.2.1 (r, pos i)
  constrain := fun r _ b => (r, b)
  ceval := fun ck x => if x ≤ ck.2 then some (ω.2.2.1 (ck.1, pos x)) else none
  maxLeaf := fun ck => ck.2
  emptyCK := (Vector.replicate 32 0, 0)
  token := ω.2.2.2
  mask := R.mask
  xor := R.xor
  xor_xor := R.xor_xor
  maxLeaf_constrain := by intros; rfl
  ceval_constrain := by intro r b x _ hx; simp [hx]

/-- The bound on the probability of a collision, for `k` keywords and `n` insertions: keyword indices and update tokens of
16 bytes, root keys and leaf tokens of 32 bytes. -/
def bound (k n : Nat) : ℚ :=
  (k.choose 2 : ℚ) / 256 ^ 16 + (k.choose 2 : ℚ) / 256 ^ 32 + (n.choose 2 : ℚ) / 256 ^ 32 +
    (n.choose 2 : ℚ) / 256 ^ 16

theorem bound_mono {k k' n n' : Nat} (hk : k ≤ k') (hn : n ≤ n') : bound k n ≤ bound k' n' := by
  unfold bound
  have h : (k.choose 2 : ℚ) ≤ k'.choose 2 := by exact_mod_cast Nat.choose_le_choose 2 hk
  have h' : (n.choose 2 : ℚ) ≤ n'.choose 2 := by exact_mod_cast Nat.choose_le_choose 2 hn
  gcongr

end Verif.Ideal.Diana
