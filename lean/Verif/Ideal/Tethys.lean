import Verif.Ideal.Lemmas
import Verif.Pluto.Props

/-!
# Tethys and Pluto with ideal cryptography

The pseudorandom function that gives the token of a keyword (`/repo/lib/include/sse/schemes/tethys/tethys_builder.hpp`
L85-90, `tethys_client.hpp` L100-106), the hash function that gives the keys of the blocks
(`details/tethys_utils.hpp` L12-29) and the random keys of Pluto
(`/repo/lib/include/sse/schemes/pluto/pluto_builder.hpp` L187-195) are uniformly chosen. The hash function is only applied
to strings of 24 bytes, on which it is chosen; the pseudorandom function is chosen on a finite set `U` of keywords, which
can be arbitrarily large, and is arbitrary outside of it.
-/

namespace Verif.Ideal.Tethys

open Verif Verif.Tethys

/-- What is hashed: a token of 16 bytes and a counter of 8 bytes. -/
abbrev Input := Vector UInt8 24

/-- A function on strings of 24 bytes, as a function on all strings. -/
def hashOf (h : Input → CoreKey) (l : List UInt8) : CoreKey :=
  if e : l.length = 24 then h ⟨l.toArray, by simpa using e⟩ else Vector.replicate 16 0

/-- The choice for Tethys: the tokens of the keywords, and the hash function. -/
abbrev Choice {W : Type} (U : Finset W) := (U → Token) × (Input → CoreKey)

/-- The choice for Pluto: the tokens of the keywords, the hash function and the `m` keys of the dummy blocks. -/
abbrev PlutoChoice {W : Type} (U : Finset W) (m : Nat) := (U → Token) × (Input ⊕ Fin m → CoreKey)

/-- The keys of the dummy blocks. -/
def randOf {m : Nat} (h : Input ⊕ Fin m → CoreKey) (i : Nat) : CoreKey :=
  if e : i < m then h (.inr ⟨i, e⟩) else Vector.replicate 16 0

/-- The bound on the probability of a collision, for `k` keywords and `n` keys of blocks: tokens and keys of 16 bytes. -/
def bound (k n : Nat) : ℚ := (k.choose 2 : ℚ) / 256 ^ 16 + (n.choose 2 : ℚ) / 256 ^ 16

/-- The hypotheses on the numbers in the theorems on Tethys. -/
structure Numbers {W : Type} (page n : Nat) (index : List (W × List Index)) : Prop where
  buckets : 2 ≤ n
  aligned : 8 ∣ page
  small : page < 2 ^ 63
  room : 6 < page / 8
  total : (index.map (fun x => x.2.length + 6 * Spec.blockCount page x.2.length)).sum + page / 8 < 2 ^ 64
  counters : ∀ x ∈ index, Spec.blockCount page x.2.length < 2 ^ 32
  keywords : (index.map Prod.fst).Nodup

/-- The hypotheses on the numbers in the theorems on Pluto. -/
structure PlutoNumbers {W : Type} (page size : Nat) (index : List (W × List Index)) : Prop where
  buckets : 2 ≤ size
  aligned : 8 ∣ page
  small : page < 2 ^ 63
  room : 6 < page / 8
  total : (index.map (fun x => x.2.length + 6)).sum + page / 8 < 2 ^ 64
  counters : ∀ x ∈ index, x.2.length / (page / 8 - 6) + 1 < 2 ^ 32
  keywords : (index.map Prod.fst).Nodup

end Verif.Ideal.Tethys
