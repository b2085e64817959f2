import Verif.Ideal.DianaKeys
import Verif.Ideal.JanusHiding
import Mathlib.Data.Set.Finite.List

/-!
# The keys of Janus: C80

`JanusClient` derives seven keys from its master key, with one label for each (`/repo/lib/janus/janus_client.cpp` L19-73): for the
tags, the puncturable encryption, the keyword tokens, and two for each of the two instances of Diana. Here the pseudorandom function is
one function of key and input, chosen at random; the derived keys are its values with the master key at the labels. Its inputs lie in
a finite set of strings, which can be arbitrarily large.
-/

namespace Verif.Ideal.Janus

open Verif Verif.Janus Verif.Janus.Spec Verif.Leak Verif.Ideal.Diana

/-- The derived keys (janus_client.cpp L19-56) -/
inductive Label where
  | tagDerivation
  | punctEnc
  | keywordToken
  | addDerivation
  | addKwToken
  | delDerivation
  | delKwToken
deriving DecidableEq

instance : Fintype Label where
  elems := {.tagDerivation, .punctEnc, .keywordToken, .addDerivation, .addKwToken, .delDerivation, .delKwToken}
  complete := by intro l; cases l <;> decide

/-- The label of a key (janus_client.cpp L21, L26, L31, L37, L43, L49, L55) -/
def labelText : Label → List Char
  | .tagDerivation => "tag_derivation".toList
  | .punctEnc => "punct_enc".toList
  | .keywordToken => "keyword_token".toList
  | .addDerivation => "add_derivation_master_key".toList
  | .addKwToken => "add_kw_token_master_key".toList
  | .delDerivation => "del_derivation_master_key".toList
  | .delKwToken => "del_kw_token_master_key".toList

/-- The bytes of a label -/
def labelBytes (l : Label) : Str := (labelText l).map (fun c => UInt8.ofNat c.toNat)

theorem labelBytes_injective : Function.Injective labelBytes := by
  intro a b h
  cases a <;> cases b <;> first | rfl | exact absurd h (by decide +kernel)

/-- The inputs of the keyed function: a finite set of strings that contains the labels and the keyword indices of Diana -/
structure Inputs where
  set : Finset Str
  labels : ∀ l, labelBytes l ∈ set
  tokens : ∀ t : Diana.Token, t.toList ∈ set

/-- The input for a label -/
def Inputs.label (N : Inputs) (l : Label) : N.set := ⟨labelBytes l, N.labels l⟩

/-- The input for a keyword index -/
def Inputs.token (N : Inputs) (t : Diana.Token) : N.set := ⟨t.toList, N.tokens t⟩

theorem Inputs.label_injective (N : Inputs) : Function.Injective N.label := fun _ _ h => labelBytes_injective (congrArg Subtype.val h)

theorem Inputs.token_injective (N : Inputs) : Function.Injective N.token :=
  fun _ _ h => Vector.toList_inj.mp (congrArg Subtype.val h)

/-- The first 16 bytes: tags and keyword tokens are shorter than the results of the function (janus_client.hpp L83-87). -/
def cut (v : Diana.Leaf) : Vector UInt8 16 := Vector.ofFn (fun i : Fin 16 => v[i.val])

variable {PK KS CT Rand : Type}

/-- What is chosen besides the keyed function: the hash function, and for insertions and removals update tokens, masks and leaves -/
abbrev Others (U : Finset Str) (KS CT : Type) :=
  (U → Diana.Token) × ((Diana.Leaf → Diana.Token) × (Diana.Leaf → CT)) × ((Diana.Leaf → Diana.Token) × (Diana.Leaf → KS)) ×
    (Diana.Leaf × Pos → Diana.Leaf) × (Diana.Leaf × Pos → Diana.Leaf)

/-- What is chosen at random: the master key, the keyed function, and the others. -/
abbrev Keyed (N : Inputs) (U : Finset Str) (KS CT : Type) :=
  (Diana.Leaf × (Diana.Leaf × N.set → Diana.Leaf)) × Others U KS CT

/-- What is not chosen: in addition to that of `Fixed`, how keys are made keys of the puncturable encryption, and the functions outside of
the set of inputs -/
structure Params (PK KS CT Rand : Type) where
  fixed : Fixed PK KS CT Rand
  pk : Diana.Leaf → PK
  out : Label → Str → Diana.Leaf

/-- The function with the key of label `l` -/
def apply {N : Inputs} (Q : Params PK KS CT Rand) (f : Label × N.set → Diana.Leaf) (l : Label) (s : Str) : Diana.Leaf :=
  if h : s ∈ N.set then f (l, ⟨s, h⟩) else Q.out l s

/-- The functions of Janus itself: tags, puncturable encryption and keyword tokens (janus_client.cpp L63-64, L92, L103, L143, L147, L164, L170) -/
def rest {N : Inputs} (Q : Params PK KS CT Rand) (f : Label × N.set → Diana.Leaf) : Crypto PK KS CT Rand :=
  { Q.fixed.rest with
    derive := fun s => Q.pk (apply Q f .punctEnc s)
    kwToken := fun s => cut (apply Q f .keywordToken s)
    tagPrf := fun s => cut (apply Q f .tagDerivation s) }

/-- The functions of Janus itself, as those that are not chosen in C79 -/
def fixedOf {N : Inputs} (Q : Params PK KS CT Rand) (f : Label × N.set → Diana.Leaf) : Fixed PK KS CT Rand :=
  ⟨Q.fixed.ins, Q.fixed.del, Q.fixed.hash, rest Q f⟩

/-- The functions of the two instances of Diana (janus_client.cpp L65-70) -/
def choiceOf {N : Inputs} {U : Finset Str} (f : Label × N.set → Diana.Leaf) (r : Others U KS CT) : FullChoice U KS CT :=
  ((r.1, (fun t => f (.addKwToken, N.token t), fun t => f (.addDerivation, N.token t), r.2.1.1, r.2.1.2),
    (fun t => f (.delKwToken, N.token t), fun t => f (.delDerivation, N.token t), r.2.2.1.1, r.2.2.1.2)), r.2.2.2.1, r.2.2.2.2)

/-- All the functions of the scheme -/
def keyedCrypto {N : Inputs} {U : Finset Str} (Q : Params PK KS CT Rand) (f : Label × N.set → Diana.Leaf) (r : Others U KS CT) :
    Crypto PK KS CT Rand :=
  withSecrets (baseJ (fixedOf Q f) (choiceOf f r).1.1 (choiceOf f r).2.1 (choiceOf f r).2.2) (choiceOf f r).1.2.1 (choiceOf f r).1.2.2

/-- The bound for the keys: seven keys and the master key, of 32 bytes -/
def keysBound : ℚ := 28 / 256 ^ 32

/-- **C80** (Janus): with the derived keys, every event has the probability that it has with independent functions, up to
`keysBound`. -/
theorem C80_janus_keys [Fintype KS] [Fintype CT] (N : Inputs) {U : Finset Str}
    (E : (Label × N.set → Diana.Leaf) → Others U KS CT → Prop) :
    |prob (fun x : Keyed N U KS CT => E (families N.label x.1) x.2) -
      prob (fun x : (Label × N.set → Diana.Leaf) × Others U KS CT => E x.1 x.2)| ≤ keysBound := by
  refine le_trans (prob_families N.label N.label_injective E) (le_of_eq ?_)
  unfold keyBound keysBound
  rw [card_bytes, show Fintype.card Label = 7 from rfl]
  norm_num [Nat.choose]

/-! ## Forward privacy -/

/-- The points used by the instances of Diana -/
def dianaPoint (N : Inputs) (x : (Bool × Bool) × Diana.Token) : Label × N.set :=
  (match x.1 with
    | (true, true) => .addKwToken
    | (true, false) => .addDerivation
    | (false, true) => .delKwToken
    | (false, false) => .delDerivation, N.token x.2)

theorem dianaPoint_injective (N : Inputs) : Function.Injective (dianaPoint N) := by
  rintro ⟨⟨a, b⟩, t⟩ ⟨⟨a', b'⟩, t'⟩ h
  obtain ⟨h1, h2⟩ := Prod.mk.inj h
  have h2 := N.token_injective h2
  simp only at h2
  subst h2
  cases a <;> cases b <;> cases a' <;> cases b' <;> first | rfl | cases h1

theorem fixedOf_overlay {N : Inputs} (Q : Params PK KS CT Rand) (f : (Bool × Bool) × Diana.Token → Diana.Leaf)
    (F : Label × N.set → Diana.Leaf) : fixedOf Q (overlay (dianaPoint N) f F) = fixedOf Q F := by
  have h : ∀ l, l = .tagDerivation ∨ l = .punctEnc ∨ l = .keywordToken → ∀ s,
      apply Q (overlay (dianaPoint N) f F) l s = apply Q F l s := by
    intro l hl s
    unfold apply
    split
    · refine overlay_out _ _ _ _ ?_
      rintro ⟨⟨a, b⟩, t⟩ he
      have := (Prod.mk.inj he).1
      cases a <;> cases b <;> rcases hl with rfl | rfl | rfl <;> cases this
    · rfl
  unfold fixedOf rest
  simp only [h _ (Or.inl rfl), h _ (Or.inr (Or.inl rfl)), h _ (Or.inr (Or.inr rfl))]

/-- The instances of Diana, given by their functions -/
def joined {U : Finset Str} (f : (Bool × Bool) × Diana.Token → Diana.Leaf) (r : Others U KS CT) : FullChoice U KS CT :=
  ((r.1, (fun t => f ((true, true), t), fun t => f ((true, false), t), r.2.1.1, r.2.1.2),
    (fun t => f ((false, true), t), fun t => f ((false, false), t), r.2.2.1.1, r.2.2.1.2)), r.2.2.2.1, r.2.2.2.2)

theorem choiceOf_overlay {N : Inputs} {U : Finset Str} (f : (Bool × Bool) × Diana.Token → Diana.Leaf)
    (F : Label × N.set → Diana.Leaf) (r : Others U KS CT) : choiceOf (overlay (dianaPoint N) f F) r = joined f r := by
  have h : ∀ x, overlay (dianaPoint N) f F (dianaPoint N x) = f x := overlay_at (dianaPoint_injective N) f F
  unfold choiceOf joined
  have h1 := fun t => h ((true, true), t)
  have h2 := fun t => h ((true, false), t)
  have h3 := fun t => h ((false, true), t)
  have h4 := fun t => h ((false, false), t)
  simp only [dianaPoint] at h1 h2 h3 h4
  simp only [h1, h2, h3, h4]

theorem prob_joined [Fintype KS] [Fintype CT] {U : Finset Str} (p : FullChoice U KS CT → Prop) :
    prob (fun x : ((Bool × Bool) × Diana.Token → Diana.Leaf) × Others U KS CT => p (joined x.1 x.2)) = prob p :=
  prob_equiv (Ω := ((Bool × Bool) × Diana.Token → Diana.Leaf) × Others U KS CT) (Ω' := FullChoice U KS CT)
    { toFun := fun x => joined x.1 x.2
      invFun := fun y => (fun z => match z.1 with
          | (true, true) => y.1.2.1.1 z.2
          | (true, false) => y.1.2.1.2.1 z.2
          | (false, true) => y.1.2.2.1 z.2
          | (false, false) => y.1.2.2.2.1 z.2,
        (y.1.1, (y.1.2.1.2.2.1, y.1.2.1.2.2.2), (y.1.2.2.2.2.1, y.1.2.2.2.2.2), y.2.1, y.2.2))
      left_inv := by
        rintro ⟨f, r⟩
        refine Prod.ext (funext fun z => ?_) rfl
        obtain ⟨⟨a, b⟩, s⟩ := z
        cases a <;> cases b <;> rfl
      right_inv := fun _ => rfl } p

/-- The keywords of the commands do not depend on the cryptography. -/
theorem keywords_ins (c c' : Crypto PK KS CT Rand) (ops : List (Op Rand)) :
    ∀ E, (insCmds c E ops).map keywordOf = (insCmds c' E ops).map keywordOf := by
  induction ops with
  | nil => intro E; rfl
  | cons o ops ih => intro E; cases o <;> simp [insCmds, keywordOf, ih]

@[inherit_doc keywords_ins]
theorem keywords_del (c c' : Crypto PK KS CT Rand) (ops : List (Op Rand)) :
    ∀ E, (delCmds c E ops).map keywordOf = (delCmds c' E ops).map keywordOf := by
  induction ops with
  | nil => intro E; rfl
  | cons o ops ih => intro E; cases o <;> simp [delCmds, keywordOf, ih]

theorem hashed_eq (R R' : Fixed PK KS CT Rand) (ops : List (Op Rand)) : hashed R ops = hashed R' ops := by
  unfold hashed cmdKeywords
  rw [keywords_ins R.rest R'.rest, keywords_del R.rest R'.rest]

theorem hidingBound_nonneg (k n : Nat) : 0 ≤ hidingBound k n := by
  unfold hidingBound
  positivity

/-- The functions of the instances of Diana are independent of those of Janus itself. -/
theorem prob_choice [Fintype KS] [Fintype CT] (N : Inputs) {U : Finset Str} (Q : Params PK KS CT Rand)
    (G : Fixed PK KS CT Rand → FullChoice U KS CT → Prop) :
    prob (fun x : (Label × N.set → Diana.Leaf) × Others U KS CT => G (fixedOf Q x.1) (choiceOf x.1 x.2)) =
      prob (fun y : (Label × N.set → Diana.Leaf) × FullChoice U KS CT => G (fixedOf Q y.1) y.2) := by
  rw [prob_comm (fun x : (Label × N.set → Diana.Leaf) × Others U KS CT => G (fixedOf Q x.1) (choiceOf x.1 x.2)),
    prob_prod_eq (fun x : Others U KS CT × (Label × N.set → Diana.Leaf) => G (fixedOf Q x.2) (choiceOf x.2 x.1))]
  have h1 : ∀ r : Others U KS CT, prob (fun f : Label × N.set → Diana.Leaf => G (fixedOf Q f) (choiceOf f r)) =
      prob (fun y : (Label × N.set → Diana.Leaf) × ((Bool × Bool) × Diana.Token → Diana.Leaf) =>
        G (fixedOf Q y.1) (joined y.2 r)) := by
    intro r
    rw [prob_overlay (dianaPoint_injective N) (fun f : Label × N.set → Diana.Leaf => G (fixedOf Q f) (choiceOf f r))]
    simp only [fixedOf_overlay, choiceOf_overlay]
  simp only [h1]
  rw [← prob_prod_eq (fun y : Others U KS CT × ((Label × N.set → Diana.Leaf) × ((Bool × Bool) × Diana.Token → Diana.Leaf)) =>
    G (fixedOf Q y.2.1) (joined y.2.2 y.1))]
  rw [prob_prod_eq (fun y : (Label × N.set → Diana.Leaf) × FullChoice U KS CT => G (fixedOf Q y.1) y.2)]
  have h2 : ∀ F : Label × N.set → Diana.Leaf, prob (fun ω : FullChoice U KS CT => G (fixedOf Q F) ω) =
      prob (fun x : ((Bool × Bool) × Diana.Token → Diana.Leaf) × Others U KS CT => G (fixedOf Q F) (joined x.1 x.2)) :=
    fun F => (prob_joined (fun ω : FullChoice U KS CT => G (fixedOf Q F) ω)).symm
  simp only [h2]
  rw [← prob_prod_eq (fun y : (Label × N.set → Diana.Leaf) × (((Bool × Bool) × Diana.Token → Diana.Leaf) × Others U KS CT) =>
    G (fixedOf Q y.1) (joined y.2.1 y.2.2))]
  exact prob_equiv
    (Ω := Others U KS CT × ((Label × N.set → Diana.Leaf) × ((Bool × Bool) × Diana.Token → Diana.Leaf)))
    (Ω' := (Label × N.set → Diana.Leaf) × (((Bool × Bool) × Diana.Token → Diana.Leaf) × Others U KS CT))
    { toFun := fun x => (x.2.1, x.2.2, x.1)
      invFun := fun y => (y.2.2, y.1, y.2.1)
      left_inv := fun _ => rfl
      right_inv := fun _ => rfl } (fun y => G (fixedOf Q y.1) (joined y.2.1 y.2.2))

/-- **C80** (Janus, forward privacy): the advantage of an observer of the server for insertions and removals after any history, with the
derived keys. -/
theorem C80_janus_forward [Fintype KS] [Fintype CT] (N : Inputs) {U : Finset Str} (Q : Params PK KS CT Rand) (P X Y : List (Op Rand))
    (hX : ∀ o ∈ X, kind o ≠ none) (hkind : X.map kind = Y.map kind) (hlen : P.length + X.length < 2 ^ 32)
    (hU : hashed Q.fixed (P ++ X) ⊆ U) (hU' : hashed Q.fixed (P ++ Y) ⊆ U)
    (E : List (JMsg (Diana.Leaf × Nat) (Diana.Leaf × Nat) KS CT) × List (List (Option (Diana.Leaf × Diana.Token × CT))) ×
      List (List (Option (Diana.Leaf × Diana.Token × KS))) → Prop) :
    |prob (fun x : Keyed N U KS CT => E (view (fixedOf Q (families N.label x.1)) (choiceOf (families N.label x.1) x.2) (P ++ X))) -
        prob (fun x : Keyed N U KS CT => E (view (fixedOf Q (families N.label x.1)) (choiceOf (families N.label x.1) x.2) (P ++ Y)))| ≤
      4 * hidingBound (P.length + X.length) (P.length + X.length) + 2 * keysBound := by
  refine dist_transfer
    (C80_janus_keys N (fun f (r : Others U KS CT) => E (view (fixedOf Q f) (choiceOf f r) (P ++ X))))
    (C80_janus_keys N (fun f (r : Others U KS CT) => E (view (fixedOf Q f) (choiceOf f r) (P ++ Y)))) ?_
  rw [prob_choice N Q (fun R ω => E (view R ω (P ++ X))), prob_choice N Q (fun R ω => E (view R ω (P ++ Y)))]
  refine prob_prod_dist (Ω₁ := Label × N.set → Diana.Leaf) (Ω₂ := FullChoice U KS CT) (Ω₃ := FullChoice U KS CT) _ _ _
    (mul_nonneg (by norm_num) (hidingBound_nonneg _ _)) (fun F => ?_)
  exact C79_janus_forward (fixedOf Q F) P X Y hX hkind hlen (hashed_eq Q.fixed _ _ ▸ hU) (hashed_eq Q.fixed _ _ ▸ hU') E

/-! ## Searches -/

/-- The points that matter for the results: the roots of the two instances, and keyword tokens and tags for the strings of `U` -/
abbrev Spot (U : Finset Str) := (Diana.Token ⊕ Diana.Token) ⊕ (U ⊕ U)

/-- The point of the keyed function -/
def spotPoint (N : Inputs) {U : Finset Str} (hU : U ⊆ N.set) : Spot U → Label × N.set
  | .inl (.inl t) => (.addDerivation, N.token t)
  | .inl (.inr t) => (.delDerivation, N.token t)
  | .inr (.inl u) => (.keywordToken, ⟨u.1, hU u.2⟩)
  | .inr (.inr u) => (.tagDerivation, ⟨u.1, hU u.2⟩)

theorem spotPoint_injective (N : Inputs) {U : Finset Str} (hU : U ⊆ N.set) : Function.Injective (spotPoint N hU) := by
  rintro ((a | a) | (a | a)) ((b | b) | (b | b)) h <;> obtain ⟨h1, h2⟩ := Prod.mk.inj h <;> try cases h1
  · rw [N.token_injective h2]
  · rw [N.token_injective h2]
  · rw [show a = b from Subtype.ext (Subtype.mk.inj h2)]
  · rw [show a = b from Subtype.ext (Subtype.mk.inj h2)]

/-- The functions that do not matter for the results, and those outside of `U` -/
def others {N : Inputs} (Q : Params PK KS CT Rand) (F : Label × N.set → Diana.Leaf) (m : (Diana.Leaf → CT) × (Diana.Leaf → KS)) :
    Rest PK KS CT Rand where
  ins := ⟨fun t => F (.addKwToken, N.token t), m.1, Q.fixed.ins.xor, Q.fixed.ins.xor_xor⟩
  del := ⟨fun t => F (.delKwToken, N.token t), m.2, Q.fixed.del.xor, Q.fixed.del.xor_xor⟩
  hash := Q.fixed.hash
  kwToken := fun s => cut (apply Q F .keywordToken s)
  tagPrf := fun s => cut (apply Q F .tagDerivation s)
  derive := fun s => Q.pk (apply Q F .punctEnc s)
  initialKeyshare := Q.fixed.rest.initialKeyshare
  incPuncture := Q.fixed.rest.incPuncture
  encrypt := Q.fixed.rest.encrypt
  decrypt := Q.fixed.rest.decrypt
  ksTag := Q.fixed.rest.ksTag
  ctTag := Q.fixed.rest.ctTag
  ksTag_incPuncture := Q.fixed.rest.ksTag_incPuncture
  ctTag_encrypt := Q.fixed.rest.ctTag_encrypt

/-- The functions that matter for the results -/
def matters {U : Finset Str} (g : Spot U → Diana.Leaf) (r : Others U KS CT) : Choice U :=
  (r.1, (fun t => g (.inl (.inl t)), r.2.2.2.1, r.2.1.1), (fun t => g (.inl (.inr t)), r.2.2.2.2, r.2.2.1.1),
    fun u => cut (g (.inr (.inl u))), fun u => cut (g (.inr (.inr u))))

/-- The cryptography given by its functions -/
def parts {U : Finset Str} (Q : Params PK KS CT Rand) (kw tag : Str → Vector UInt8 16) (der : Str → PK)
    (ki ri kd rd : Diana.Token → Diana.Leaf) (r : Others U KS CT) : Crypto PK KS CT Rand :=
  { Q.fixed.rest with
    ins := Diana.crypto ⟨ki, r.2.1.2, Q.fixed.ins.xor, Q.fixed.ins.xor_xor⟩ Q.fixed.hash (r.1, ri, r.2.2.2.1, r.2.1.1)
    del := Diana.crypto ⟨kd, r.2.2.1.2, Q.fixed.del.xor, Q.fixed.del.xor_xor⟩ Q.fixed.hash (r.1, rd, r.2.2.2.2, r.2.2.1.1)
    kwToken := kw
    tagPrf := tag
    derive := der }

theorem keyedCrypto_parts {N : Inputs} {U : Finset Str} (Q : Params PK KS CT Rand) (f : Label × N.set → Diana.Leaf)
    (r : Others U KS CT) : keyedCrypto Q f r = parts Q (fun s => cut (apply Q f .keywordToken s))
      (fun s => cut (apply Q f .tagDerivation s)) (fun s => Q.pk (apply Q f .punctEnc s))
      (fun t => f (.addKwToken, N.token t)) (fun t => f (.addDerivation, N.token t))
      (fun t => f (.delKwToken, N.token t)) (fun t => f (.delDerivation, N.token t)) r := rfl

theorem apply_overlay {N : Inputs} {U : Finset Str} (hU : U ⊆ N.set) (Q : Params PK KS CT Rand)
    (g : Spot U → Diana.Leaf) (F : Label × N.set → Diana.Leaf) (l : Label) (k : U → Spot U)
    (hk : ∀ u, spotPoint N hU (k u) = (l, ⟨u.1, hU u.2⟩)) (hl : ∀ x s, spotPoint N hU x = (l, s) → s.1 ∈ U) :
    (fun s => cut (apply Q (overlay (spotPoint N hU) g F) l s)) =
      extend (fun s => cut (apply Q F l s)) (fun u : U => cut (g (k u))) := by
  funext s
  by_cases hs : s ∈ U
  · have h1 : apply Q (overlay (spotPoint N hU) g F) l s = g (k ⟨s, hs⟩) := by
      unfold apply
      rw [dif_pos (hU hs)]
      exact (congrArg _ (hk ⟨s, hs⟩).symm).trans (overlay_at (spotPoint_injective N hU) g F _)
    unfold extend
    rw [dif_pos hs, h1]
  · have h1 : apply Q (overlay (spotPoint N hU) g F) l s = apply Q F l s := by
      unfold apply
      by_cases hN : s ∈ N.set
      · rw [dif_pos hN, dif_pos hN]
        exact overlay_out _ _ _ _ (fun x hx => hs (hl x _ hx))
      · rw [dif_neg hN, dif_neg hN]
    unfold extend
    rw [dif_neg hs, h1]

theorem keyedCrypto_overlay {N : Inputs} {U : Finset Str} (hU : U ⊆ N.set) (Q : Params PK KS CT Rand)
    (g : Spot U → Diana.Leaf) (F : Label × N.set → Diana.Leaf) (r : Others U KS CT) :
    keyedCrypto Q (overlay (spotPoint N hU) g F) r = crypto (others Q F (r.2.1.2, r.2.2.1.2)) (matters g r) := by
  have h : ∀ x, overlay (spotPoint N hU) g F (spotPoint N hU x) = g x := overlay_at (spotPoint_injective N hU) g F
  have h1 : ∀ t, overlay (spotPoint N hU) g F (.addDerivation, N.token t) = g (.inl (.inl t)) := fun t => h (.inl (.inl t))
  have h2 : ∀ t, overlay (spotPoint N hU) g F (.delDerivation, N.token t) = g (.inl (.inr t)) := fun t => h (.inl (.inr t))
  have hne : ∀ l, l = .addKwToken ∨ l = .delKwToken ∨ l = .punctEnc → ∀ s, overlay (spotPoint N hU) g F (l, s) = F (l, s) := by
    intro l hl s
    refine overlay_out _ _ _ _ ?_
    rintro ((a | a) | (a | a)) he <;> have he := (Prod.mk.inj he).1 <;> rcases hl with rfl | rfl | rfl <;> cases he
  have h3 : ∀ s, apply Q (overlay (spotPoint N hU) g F) .punctEnc s = apply Q F .punctEnc s := by
    intro s
    unfold apply
    split
    · exact hne _ (Or.inr (Or.inr rfl)) _
    · rfl
  have h4 : (fun s => cut (apply Q (overlay (spotPoint N hU) g F) .keywordToken s)) =
      extend (fun s => cut (apply Q F .keywordToken s)) (fun u : U => cut (g (.inr (.inl u)))) := by
    refine apply_overlay hU Q g F .keywordToken (fun u => .inr (.inl u)) (fun _ => rfl) ?_
    rintro ((a | a) | (a | a)) s he <;> obtain ⟨h1, h2⟩ := Prod.mk.inj he <;> try cases h1
    exact (congrArg Subtype.val h2 : a.1 = s.1) ▸ a.2
  have h5 : (fun s => cut (apply Q (overlay (spotPoint N hU) g F) .tagDerivation s)) =
      extend (fun s => cut (apply Q F .tagDerivation s)) (fun u : U => cut (g (.inr (.inr u)))) := by
    refine apply_overlay hU Q g F .tagDerivation (fun u => .inr (.inr u)) (fun _ => rfl) ?_
    rintro ((a | a) | (a | a)) s he <;> obtain ⟨h1, h2⟩ := Prod.mk.inj he <;> try cases h1
    exact (congrArg Subtype.val h2 : a.1 = s.1) ▸ a.2
  refine (keyedCrypto_parts Q _ r).trans ?_
  rw [h4, h5]
  simp only [h1, h2, h3, hne _ (Or.inl rfl), hne _ (Or.inr (Or.inl rfl))]
  rfl

/-- A string of 32 bytes is a string of 16 bytes and another one. -/
def halves : Diana.Leaf ≃ Vector UInt8 16 × Vector UInt8 16 where
  toFun v := (cut v, Vector.ofFn (fun i : Fin 16 => v[i.val + 16]))
  invFun x := Vector.ofFn (fun i : Fin 32 => if h : i.val < 16 then x.1[i.val] else x.2[i.val - 16])
  left_inv v := by
    ext i hi
    simp only [cut, Vector.getElem_ofFn]
    split
    · rfl
    · next h =>
      have : i - 16 + 16 = i := by omega
      simp only [this]
  right_inv x := by
    refine Prod.ext ?_ ?_
    · ext i hi
      simp [cut]
    · ext i hi
      simp

/-- The functions that matter, and what is left of the others -/
def split {U : Finset Str} : (Spot U → Diana.Leaf) × Others U KS CT ≃
    ((U → Vector UInt8 16) × (U → Vector UInt8 16) × (Diana.Leaf → CT) × (Diana.Leaf → KS)) × Choice U where
  toFun x := ((fun u => (halves (x.1 (.inr (.inl u)))).2, fun u => (halves (x.1 (.inr (.inr u)))).2, x.2.2.1.2, x.2.2.2.1.2),
    matters x.1 x.2)
  invFun y := (fun z => match z with
      | .inl (.inl t) => y.2.2.1.1 t
      | .inl (.inr t) => y.2.2.2.1.1 t
      | .inr (.inl u) => halves.symm (y.2.2.2.2.1 u, y.1.1 u)
      | .inr (.inr u) => halves.symm (y.2.2.2.2.2 u, y.1.2.1 u),
    (y.2.1, (y.2.2.1.2.2, y.1.2.2.1), (y.2.2.2.1.2.2, y.1.2.2.2), y.2.2.1.2.1, y.2.2.2.1.2.1))
  left_inv := by
    rintro ⟨g, r⟩
    refine Prod.ext (funext fun z => ?_) rfl
    rcases z with (t | t) | (u | u)
    · rfl
    · rfl
    · exact halves.symm_apply_apply (g (.inr (.inl u)))
    · exact halves.symm_apply_apply (g (.inr (.inr u)))
  right_inv := by
    have h1 : ∀ a b, cut (halves.symm (a, b)) = a := fun a b => congrArg Prod.fst (halves.apply_symm_apply (a, b))
    have h2 : ∀ a b, (halves (halves.symm (a, b))).2 = b := fun a b => congrArg Prod.snd (halves.apply_symm_apply (a, b))
    rintro ⟨⟨a, b, m, m'⟩, h, ⟨i1, i2, i3⟩, ⟨d1, d2, d3⟩, k, t⟩
    simp only [matters, h1, h2]

instance {U : Finset Str} : Fintype (Spot U → Diana.Leaf) := inferInstance

instance [Fintype KS] [Fintype CT] {U : Finset Str} : Fintype (Others U KS CT) := inferInstance

theorem prob_others [Fintype KS] [Fintype CT] {N : Inputs} {U : Finset Str} (hU : U ⊆ N.set) (Q : Params PK KS CT Rand)
    (p : Crypto PK KS CT Rand → Prop) (b : ℚ) (hb : 0 ≤ b)
    (h : ∀ F m, prob (fun ω : Choice U => p (crypto (others (N := N) Q F m) ω)) ≤ b) :
    prob (fun x : (Label × N.set → Diana.Leaf) × Others U KS CT => p (keyedCrypto Q x.1 x.2)) ≤ b := by
  rw [prob_comm (fun x : (Label × N.set → Diana.Leaf) × Others U KS CT => p (keyedCrypto Q x.1 x.2)),
    prob_prod_eq (fun x : Others U KS CT × (Label × N.set → Diana.Leaf) => p (keyedCrypto Q x.2 x.1))]
  have h1 : ∀ r : Others U KS CT, prob (fun f : Label × N.set → Diana.Leaf => p (keyedCrypto Q f r)) =
      prob (fun y : (Label × N.set → Diana.Leaf) × (Spot U → Diana.Leaf) =>
        p (crypto (others Q y.1 (r.2.1.2, r.2.2.1.2)) (matters y.2 r))) := by
    intro r
    rw [prob_overlay (spotPoint_injective N hU) (fun f : Label × N.set → Diana.Leaf => p (keyedCrypto Q f r))]
    simp only [keyedCrypto_overlay]
  simp only [h1]
  rw [← prob_prod_eq (fun y : Others U KS CT × ((Label × N.set → Diana.Leaf) × (Spot U → Diana.Leaf)) =>
    p (crypto (others Q y.2.1 (y.1.2.1.2, y.1.2.2.1.2)) (matters y.2.2 y.1)))]
  refine le_trans (le_of_eq (prob_equiv
    (Ω := Others U KS CT × ((Label × N.set → Diana.Leaf) × (Spot U → Diana.Leaf)))
    (Ω' := (Label × N.set → Diana.Leaf) × ((Spot U → Diana.Leaf) × Others U KS CT))
    { toFun := fun x => (x.2.1, x.2.2, x.1)
      invFun := fun y => (y.2.2, y.1, y.2.1)
      left_inv := fun _ => rfl
      right_inv := fun _ => rfl }
    (fun y => p (crypto (others Q y.1 (y.2.2.2.1.2, y.2.2.2.2.1.2)) (matters y.2.1 y.2.2))))) ?_
  refine prob_prod_le (Ω₁ := Label × N.set → Diana.Leaf) (Ω₂ := (Spot U → Diana.Leaf) × Others U KS CT)
    (fun y => p (crypto (others Q y.1 (y.2.2.2.1.2, y.2.2.2.2.1.2)) (matters y.2.1 y.2.2))) _ hb (fun F => ?_)
  refine le_trans (le_of_eq (prob_equiv
    (Ω' := ((U → Vector UInt8 16) × (U → Vector UInt8 16) × (Diana.Leaf → CT) × (Diana.Leaf → KS)) × Choice U) (split (U := U))
    (fun y => p (crypto (others Q F (y.1.2.2.1, y.1.2.2.2)) y.2)))) ?_
  exact prob_prod_le (Ω₁ := (U → Vector UInt8 16) × (U → Vector UInt8 16) × (Diana.Leaf → CT) × (Diana.Leaf → KS)) (Ω₂ := Choice U)
    (fun y => p (crypto (others Q F (y.1.2.2.1, y.1.2.2.2)) y.2)) _ hb (fun m => h F (m.2.2.1, m.2.2.2))

theorem bound_nonneg (k d n : Nat) : 0 ≤ bound k d n := by
  unfold bound Diana.bound
  positivity

/-- **C80** (Janus): for the histories of C12 the results are exact except with small probability, with the derived keys. -/
theorem C80_janus_search_partial [Fintype KS] [Fintype CT] (N : Inputs) {U : Finset Str} (hUN : U ⊆ N.set) (Q : Params PK KS CT Rand)
    (laws : PunctLaws Q.fixed.rest) (ops : List (Op Rand)) (k d : Nat)
    (hn : ops.length + 1 < 2 ^ 32) (hU : strings ops ⊆ U) (hk : (ops.map Spec.Op.kw).toFinset.card ≤ k)
    (hd : (ops.flatMap Spec.Op.docs).toFinset.card ≤ d)
    (hadm : Spec.admissible (fun _ => ⟨[], []⟩) ops = true) :
    prob (fun x : Keyed N U KS CT =>
        ¬ ∃ s, run (keyedCrypto Q (families N.label x.1) x.2) Sys.init ops = .ok (s, Spec.run Spec.empty ops)) ≤
      bound k d ops.length + keysBound := by
  refine le_transfer (C80_janus_keys N (fun f (r : Others U KS CT) =>
    ¬ ∃ s, run (keyedCrypto Q f r) Sys.init ops = .ok (s, Spec.run Spec.empty ops))) ?_
  exact prob_others hUN Q (fun c => ¬ ∃ s, run c Sys.init ops = .ok (s, Spec.run Spec.empty ops)) _ (bound_nonneg k d _)
    (fun F m => C78_janus_search_partial (others Q F m) ops k d (fun ω => ⟨laws.decrypts, laws.refuses⟩) hn hU hk hd hadm)

/-- With a million operations, the term for the keys is below `2^-251`. -/
theorem C80_janus_number : keysBound < 1 / 2 ^ 251 := by
  unfold keysBound
  norm_num

/-! ## An instance -/

theorem finite_bytes : Finite UInt8 := Finite.of_equiv (Fin (2 ^ 8)) ⟨UInt8.ofFin, UInt8.toFin, fun _ => rfl, fun _ => rfl⟩

/-- All strings of at most `n` bytes -/
noncomputable def Inputs.upTo (n : Nat) (h : 25 ≤ n) : Inputs where
  set := (haveI := finite_bytes; List.finite_length_le UInt8 n).toFinset
  labels := by
    intro l
    simp only [Set.Finite.mem_toFinset, Set.mem_ofPred_eq]
    refine Nat.le_trans ?_ h
    cases l <;> decide +kernel
  tokens := by
    intro t
    simp only [Set.Finite.mem_toFinset, Set.mem_ofPred_eq, Vector.length_toList]
    omega

instance : Fintype UInt32 := Fintype.ofEquiv (Fin (2 ^ 32)) ⟨UInt32.ofFin, UInt32.toFin, fun _ => rfl, fun _ => rfl⟩

/-- Numbers, masked by exclusive or -/
def numberMasking : Masking UInt32 where
  zero := 0
  xor := (· ^^^ ·)
  xor_xor := by intro x m; simp [UInt32.xor_assoc]
  assoc := UInt32.xor_assoc
  comm := UInt32.xor_comm

/-- Pairs -/
def pairMasking {V W : Type} (M : Masking V) (M' : Masking W) : Masking (V × W) where
  zero := (M.zero, M'.zero)
  xor := fun x y => (M.xor x.1 y.1, M'.xor x.2 y.2)
  xor_xor := by intro x m; simp [M.xor_xor, M'.xor_xor]
  assoc := by intro x y z; simp [M.assoc, M'.assoc]
  comm := by intro x y; simp [M.comm x.1, M'.comm x.2]

/-- Janus with puncturable encryption in clear -/
def sampleParams : Params Unit (UInt32 × Tag) (Index × Tag) Unit where
  fixed := ⟨pairMasking indexMasking (bytesMasking 16), pairMasking numberMasking (bytesMasking 16), fun _ => Vector.replicate 16 0,
    Toy.crypto⟩
  pk := fun _ => ()
  out := fun _ _ => Vector.replicate 32 0

/-- The history of the example of C78 -/
def sampleHistory : List (Op Unit) := [.insert [97] 3 (), .insert [97] 4 (), .remove [97] 3, .search [97]]

theorem sampleHistory_short : ∀ s ∈ strings sampleHistory, s.length ≤ 25 := by decide +kernel

/-- The hypotheses hold for it. -/
example : prob (fun x : Keyed (Inputs.upTo 100 (by decide)) (strings sampleHistory) (UInt32 × Tag) (Index × Tag) =>
    ¬ ∃ s, run (keyedCrypto sampleParams (families (Inputs.label _) x.1) x.2) Sys.init sampleHistory = .ok (s, [[4]])) ≤
      bound 1 2 4 + keysBound := by
  have h := C80_janus_search_partial (Inputs.upTo 100 (by decide)) (U := strings sampleHistory) (fun s hs => by
    simp only [Inputs.upTo, Set.Finite.mem_toFinset, Set.mem_ofPred_eq]
    exact Nat.le_trans (m := 25) (sampleHistory_short s hs) (by decide)) sampleParams Toy.laws sampleHistory 1 2 (by decide)
    (Finset.Subset.refl _) (by decide) (by decide) (by decide +kernel)
  rwa [show Spec.run Spec.empty sampleHistory = [[4]] by decide +kernel] at h

/-- The hypotheses hold for the histories of the example of C79. -/
example (Q : Params Unit Tag Tag Unit) (E : List (JMsg (Diana.Leaf × Nat) (Diana.Leaf × Nat) Tag Tag) ×
      List (List (Option (Diana.Leaf × Diana.Token × Tag))) × List (List (Option (Diana.Leaf × Diana.Token × Tag))) → Prop) :
    |prob (fun x : Keyed (Inputs.upTo 100 (by decide)) (hashed Q.fixed (Toy.past ++ Toy.new1) ∪ hashed Q.fixed (Toy.past ++ Toy.new2))
          Tag Tag => E (view (fixedOf Q (families (Inputs.label _) x.1)) (choiceOf (families (Inputs.label _) x.1) x.2)
            (Toy.past ++ Toy.new1))) -
      prob (fun x : Keyed (Inputs.upTo 100 (by decide)) (hashed Q.fixed (Toy.past ++ Toy.new1) ∪ hashed Q.fixed (Toy.past ++ Toy.new2))
          Tag Tag => E (view (fixedOf Q (families (Inputs.label _) x.1)) (choiceOf (families (Inputs.label _) x.1) x.2)
            (Toy.past ++ Toy.new2)))| ≤ 4 * hidingBound 7 7 + 2 * keysBound :=
  C80_janus_forward _ Q Toy.past Toy.new1 Toy.new2 (by decide) (by decide) (by decide) Finset.subset_union_left
    Finset.subset_union_right E

end Verif.Ideal.Janus
