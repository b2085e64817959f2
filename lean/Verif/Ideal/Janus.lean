import Verif.Ideal.Diana
import Verif.Janus.Props

/-!
# Janus with ideal cryptography

The hash function, the functions of the two instances of Diana, the pseudorandom functions for keyword tokens and tags
(`/repo/lib/janus/janus_client.cpp` L44-71, L104-106, L145-147, L168-170) are uniformly chosen, independently of each other:
the keys of the two instances and of the functions are derived from different labels (L19-42). Only the hash function is the
same for both instances. Puncturable encryption is not random, it is any one that keeps its contract. The functions of
strings are chosen on a finite set `U` of strings, which can be arbitrarily large, and are arbitrary outside of it.
-/

namespace Verif.Ideal.Janus

open Verif Verif.Janus Verif.Ideal.Diana

/-- The choices for an instance of Diana, without the hash function. -/
abbrev Instance := (Diana.Token → Diana.Leaf) × (Diana.Leaf × Pos → Diana.Leaf) × (Diana.Leaf → Diana.Token)

/-- What is chosen at random: the hash function, the instances for insertions and for removals, keyword tokens and tags. -/
abbrev Choice (U : Finset Str) :=
  (U → Diana.Token) × Instance × Instance × (U → Vector UInt8 16) × (U → Tag)

/-- What is not chosen at random: puncturable encryption, and the masks and keyword tokens of the two instances. -/
structure Rest (PK KS CT Rand : Type) where
  ins : Diana.Rest CT
  del : Diana.Rest KS
  /-- outside of `U` -/
  hash : Str → Diana.Token
  kwToken : Str → Vector UInt8 16
  tagPrf : Str → Tag
  derive : Str → PK
  initialKeyshare : PK → UInt32 → KS
  incPuncture : PK → UInt32 → Tag → KS
  encrypt : PK → Rand → Index → Tag → CT
  decrypt : List KS → CT → Option Index
  ksTag : KS → Tag
  ctTag : CT → Tag
  ksTag_incPuncture : ∀ pk n t, ksTag (incPuncture pk n t) = t
  ctTag_encrypt : ∀ pk r i t, ctTag (encrypt pk r i t) = t

variable {PK KS CT Rand : Type}

/-- The cryptography given by a choice. -/
def crypto {U : Finset Str} (R : Rest PK KS CT Rand) (ω : Choice U) : Crypto PK KS CT Rand where
  ins := Diana.crypto R.ins R.hash (ω.1, ω.2.1)
  del := Diana.crypto R.del R.hash (ω.1, ω.2.2.1)
  kwToken := extend R.kwToken ω.2.2.2.1
  tagPrf := extend R.tagPrf ω.2.2.2.2
  derive := R.derive
  initialKeyshare := R.initialKeyshare
  incPuncture := R.incPuncture
  encrypt := R.encrypt
  decrypt := R.decrypt
  ksTag := R.ksTag
  ctTag := R.ctTag
  ksTag_incPuncture := R.ksTag_incPuncture
  ctTag_encrypt := R.ctTag_encrypt

/-- The strings used by `n` operations on the keywords `K` and the documents `D`: meta keywords, keywords, and keywords with documents. -/
def stringsOf (K : List Str) (D : List Index) (n : Nat) : Finset Str :=
  (metas K n).toFinset ∪ K.toFinset ∪ (K.flatMap (fun w => D.map (keywordDocString w))).toFinset

/-- The strings used by a history. -/
def strings (ops : List (Op Rand)) : Finset Str := stringsOf (ops.map Spec.Op.kw) (ops.flatMap Spec.Op.docs) ops.length

/-- The bound on the probability of a collision, for `k` keywords, `d` documents and `n` operations. It allows for `n + 1`
meta keywords for each keyword and `n` positions for each meta keyword. -/
def bound (k d n : Nat) : ℚ :=
  2 * Diana.bound (k * (n + 1)) (k * (n + 1) * n) + (k.choose 2 : ℚ) / 256 ^ 16 + k * ((d.choose 2 : ℚ) / 256 ^ 16)

end Verif.Ideal.Janus
