import Verif.Ideal.DianaHiding
import Verif.Ideal.JanusProps
import Verif.Janus.HidingProps

/-!
# What the Janus server sees, with ideal cryptography: C79

The server sees the messages of the client, and what it computes to answer the searches with its two instances of Diana
(`/repo/lib/janus/janus_server.cpp` L36-48, L87-99). The hash function and the functions of the two instances of Diana are
chosen at random, as in `Verif.Ideal.DianaHiding`; the other functions (tags, keyword tokens, puncturable encryption) are arbitrary.
-/

namespace Verif.Ideal.Janus

open Verif Verif.Janus Verif.Janus.Spec Verif.Leak Verif.Ideal.Diana

variable {PK KS CT Rand : Type}

/-- What is chosen at random: the hash function, the functions of the instances for insertions and for removals, and their leaves. -/
abbrev FullChoice (U : Finset Str) (KS CT : Type) :=
  ((U → Diana.Token) × Secrets CT × Secrets KS) × (Diana.Leaf × Pos → Diana.Leaf) × (Diana.Leaf × Pos → Diana.Leaf)

/-- What is not chosen: masks are combined with `ins` and `del`, the hash function is `hash` outside of `U`, and all the rest is that
of `rest`. -/
structure Fixed (PK KS CT Rand : Type) where
  ins : Masking CT
  del : Masking KS
  hash : Str → Diana.Token
  rest : Crypto PK KS CT Rand

/-- The cryptography given by the hash function and the leaves -/
@[reducible] def baseJ {U : Finset Str} (R : Fixed PK KS CT Rand) (h : U → Diana.Token) (e e' : Diana.Leaf × Pos → Diana.Leaf) :
    Crypto PK KS CT Rand :=
  { R.rest with ins := base R.ins R.hash h e, del := base R.del R.hash h e' }

/-- What the server sees of a history: the messages, and what it computes to serve the parts of the searches -/
def view {U : Finset Str} (R : Fixed PK KS CT Rand) (ω : FullChoice U KS CT) (ops : List (Op Rand)) :
    List (JMsg (Diana.Leaf × Nat) (Diana.Leaf × Nat) KS CT) × List (List (Option (Diana.Leaf × Diana.Token × CT))) ×
      List (List (Option (Diana.Leaf × Diana.Token × KS))) :=
  let J : List (JMsg (Diana.Leaf × Nat) (Diana.Leaf × Nat) KS CT) :=
    messages (baseJ R ω.1.1 ω.2.1 ω.2.2) ω.1.2.1 ω.1.2.2 Client.init ops
  (J, (insPart J).map (served R.ins R.hash ((ω.1.1, ω.1.2.1), ω.2.1)),
    (delPart J).map (served R.del R.hash ((ω.1.1, ω.1.2.2), ω.2.2)))

theorem insCmds_base {U : Finset Str} (R : Fixed PK KS CT Rand) (h : U → Diana.Token) (e e' : Diana.Leaf × Pos → Diana.Leaf)
    (ops : List (Op Rand)) : ∀ E, insCmds (baseJ R h e e') E ops = insCmds R.rest E ops := by
  induction ops with
  | nil => intro E; rfl
  | cons o ops ih => intro E; cases o <;> simp [insCmds, ih, docTag]

theorem delCmds_base {U : Finset Str} (R : Fixed PK KS CT Rand) (h : U → Diana.Token) (e e' : Diana.Leaf × Pos → Diana.Leaf)
    (ops : List (Op Rand)) : ∀ E, delCmds (baseJ R h e e') E ops = delCmds R.rest E ops := by
  induction ops with
  | nil => intro E; rfl
  | cons o ops ih => intro E; cases o <;> simp [delCmds, ih, docTag]

/-- The strings hashed in a history -/
def hashed (R : Fixed PK KS CT Rand) (ops : List (Op Rand)) : Finset Str :=
  cmdKeywords (insCmds R.rest noCells ops) ∪ cmdKeywords (delCmds R.rest noCells ops)

theorem hidingBound_mono {k k' n n' : Nat} (hk : k ≤ k') (hn : n ≤ n') : hidingBound k n ≤ hidingBound k' n' := by
  unfold hidingBound
  have h : (k.choose 2 : ℚ) ≤ k'.choose 2 := by exact_mod_cast Nat.choose_le_choose 2 hk
  have h' : (n.choose 2 : ℚ) ≤ n'.choose 2 := by exact_mod_cast Nat.choose_le_choose 2 hn
  gcongr

theorem card_cmdKeywords {Kw V : Type} [DecidableEq Kw] (H : List (Cmd Kw V)) : (cmdKeywords H).card ≤ H.length := by
  unfold cmdKeywords
  exact le_trans (List.toFinset_card_le _) (by simp)

/-- The event of a collision in the instance for insertions -/
theorem prob_ins_le [Fintype KS] [Fintype CT] {U : Finset Str} (R : Fixed PK KS CT Rand) (ops : List (Op Rand))
    (hU : hashed R ops ⊆ U) :
    prob (fun ω : FullChoice U KS CT => Diana.Bad R.hash (insCmds R.rest noCells ops) ((ω.1.1, ω.1.2.1), ω.2.1)) ≤
      hidingBound ops.length ops.length := by
  have h := Diana.prob_bad_le (U := U) R.hash (insCmds R.rest noCells ops) (fun x hx => hU (Finset.mem_union_left _ hx))
  have hl := insCmds_length R.rest ops noCells
  have h' := le_trans h (hidingBound_mono (le_trans (card_cmdKeywords _) hl) hl)
  refine le_trans (le_of_eq ?_) (prob_first_le (Ω := Diana.FullChoice U CT) (Ω₂ := Secrets KS × (Diana.Leaf × Pos → Diana.Leaf))
    (p := Diana.Bad R.hash (insCmds R.rest noCells ops)) h')
  exact prob_equiv (Ω := FullChoice U KS CT) (Ω' := Diana.FullChoice U CT × (Secrets KS × (Diana.Leaf × Pos → Diana.Leaf)))
    { toFun := fun x => (((x.1.1, x.1.2.1), x.2.1), (x.1.2.2, x.2.2))
      invFun := fun y => ((y.1.1.1, y.1.1.2, y.2.1), y.1.2, y.2.2)
      left_inv := fun _ => rfl
      right_inv := fun _ => rfl } (fun x => Diana.Bad R.hash (insCmds R.rest noCells ops) x.1)

/-- The event of a collision in the instance for removals -/
theorem prob_del_le [Fintype KS] [Fintype CT] {U : Finset Str} (R : Fixed PK KS CT Rand) (ops : List (Op Rand))
    (hU : hashed R ops ⊆ U) :
    prob (fun ω : FullChoice U KS CT => Diana.Bad R.hash (delCmds R.rest noCells ops) ((ω.1.1, ω.1.2.2), ω.2.2)) ≤
      hidingBound ops.length ops.length := by
  have h := Diana.prob_bad_le (U := U) R.hash (delCmds R.rest noCells ops) (fun x hx => hU (Finset.mem_union_right _ hx))
  have hl := delCmds_length R.rest ops noCells
  have h' := le_trans h (hidingBound_mono (le_trans (card_cmdKeywords _) hl) hl)
  refine le_trans (le_of_eq ?_) (prob_first_le (Ω := Diana.FullChoice U KS) (Ω₂ := Secrets CT × (Diana.Leaf × Pos → Diana.Leaf))
    (p := Diana.Bad R.hash (delCmds R.rest noCells ops)) h')
  exact prob_equiv (Ω := FullChoice U KS CT) (Ω' := Diana.FullChoice U KS × (Secrets CT × (Diana.Leaf × Pos → Diana.Leaf)))
    { toFun := fun x => (((x.1.1, x.1.2.2), x.2.2), (x.1.2.1, x.2.1))
      invFun := fun y => ((y.1.1.1, y.2.1, y.1.1.2), y.2.2, y.1.2)
      left_inv := fun _ => rfl
      right_inv := fun _ => rfl } (fun x => Diana.Bad R.hash (delCmds R.rest noCells ops) x.1)

/-- **C79** (Janus, forward privacy): after any history `P`, an observer of the server distinguishes sequences of insertions and removals
`X` and `Y` of the same kinds, whatever their keywords and documents, with an advantage of at most four times the bound for the
number of operations. -/
theorem C79_janus_forward [Fintype KS] [Fintype CT] {U : Finset Str} (R : Fixed PK KS CT Rand) (P X Y : List (Op Rand))
    (hX : ∀ o ∈ X, kind o ≠ none) (hkind : X.map kind = Y.map kind) (hlen : P.length + X.length < 2 ^ 32)
    (hU : hashed R (P ++ X) ⊆ U) (hU' : hashed R (P ++ Y) ⊆ U)
    (E : List (JMsg (Diana.Leaf × Nat) (Diana.Leaf × Nat) KS CT) × List (List (Option (Diana.Leaf × Diana.Token × CT))) ×
      List (List (Option (Diana.Leaf × Diana.Token × KS))) → Prop) :
    |prob (fun ω : FullChoice U KS CT => E (view R ω (P ++ X))) - prob (fun ω : FullChoice U KS CT => E (view R ω (P ++ Y)))| ≤
      4 * hidingBound (P.length + X.length) (P.length + X.length) := by
  have hY : ∀ o ∈ Y, kind o ≠ none := by
    intro o ho e
    have : kind o ∈ X.map kind := hkind ▸ List.mem_map_of_mem ho
    obtain ⟨x, hx, he⟩ := List.mem_map.mp this
    exact hX x hx (he.trans e)
  have hlY : Y.length = X.length := by
    have := congrArg List.length hkind
    simpa using this.symm
  have hfitI : ∀ Z : List (Op Rand), Z.length = X.length → ∀ w, count w (insCmds R.rest noCells (P ++ Z)) < 2 ^ 32 := by
    intro Z hZ w
    have h1 := count_le w (insCmds R.rest noCells (P ++ Z))
    have h2 := insCmds_length R.rest (P ++ Z) noCells
    simp only [List.length_append] at h2
    omega
  have hfitD : ∀ Z : List (Op Rand), Z.length = X.length → ∀ w, count w (delCmds R.rest noCells (P ++ Z)) < 2 ^ 32 := by
    intro Z hZ w
    have h1 := count_le w (delCmds R.rest noCells (P ++ Z))
    have h2 := delCmds_length R.rest (P ++ Z) noCells
    simp only [List.length_append] at h2
    omega
  have hleakI : leak (insCmds R.rest noCells (P ++ X)) = leak (insCmds R.rest noCells (P ++ Y)) := by
    obtain ⟨LX, hLX, hLXn⟩ := insCmds_updates R.rest X (cells noCells P) hX
    obtain ⟨LY, hLY, hLYn⟩ := insCmds_updates R.rest Y (cells noCells P) hY
    rw [insCmds_append, insCmds_append, hLX, hLY]
    exact leak_append_inserts _ _ _ (by rw [hLXn, hLYn, hkind])
  have hleakD : leak (delCmds R.rest noCells (P ++ X)) = leak (delCmds R.rest noCells (P ++ Y)) := by
    obtain ⟨LX, hLX, hLXn⟩ := delCmds_updates R.rest X (cells noCells P) hX
    obtain ⟨LY, hLY, hLYn⟩ := delCmds_updates R.rest Y (cells noCells P) hY
    rw [delCmds_append, delCmds_append, hLX, hLY]
    exact leak_append_inserts _ _ _ (by rw [hLXn, hLYn, hkind])
  obtain ⟨φ, hb, hφ⟩ := exists_perm (U := U) R.ins R.hash _ _ hleakI (hfitI X rfl) (hfitI Y hlY)
  obtain ⟨χ, hc, hχ⟩ := exists_perm (U := U) R.del R.hash _ _ hleakD (hfitD X rfl) (hfitD Y hlY)
  have hΦ : Function.Bijective (fun ω : FullChoice U KS CT =>
      (((ω.1.1, φ ω.1.1 ω.2.1 ω.1.2.1, χ ω.1.1 ω.2.2 ω.1.2.2), ω.2) : FullChoice U KS CT)) := by
    constructor
    · rintro ⟨⟨h, ki, kd⟩, e, e'⟩ ⟨⟨h', ki', kd'⟩, f, f'⟩ he
      simp only [Prod.mk.injEq] at he
      obtain ⟨⟨rfl, h1, h2⟩, rfl, rfl⟩ := he
      rw [(hb h e).1 h1, (hc h e').1 h2]
    · rintro ⟨⟨h, ki, kd⟩, e, e'⟩
      obtain ⟨ki', hk⟩ := (hb h e).2 ki
      obtain ⟨kd', hk'⟩ := (hc h e').2 kd
      exact ⟨((h, ki', kd'), e, e'), by simp [hk, hk']⟩
  have hdist := prob_dist_le hΦ (fun ω : FullChoice U KS CT => view R ω (P ++ X)) (fun ω => view R ω (P ++ Y))
    (fun ω =>
      ((Diana.Bad R.hash (insCmds R.rest noCells (P ++ X)) ((ω.1.1, φ ω.1.1 ω.2.1 ω.1.2.1), ω.2.1) ∨
        Diana.Bad R.hash (delCmds R.rest noCells (P ++ X)) ((ω.1.1, χ ω.1.1 ω.2.2 ω.1.2.2), ω.2.2)) ∨
        Diana.Bad R.hash (insCmds R.rest noCells (P ++ Y)) ((ω.1.1, ω.1.2.1), ω.2.1)) ∨
        Diana.Bad R.hash (delCmds R.rest noCells (P ++ Y)) ((ω.1.1, ω.1.2.2), ω.2.2)) ?_ E
  · have b1 := prob_ins_le R (P ++ X) hU
    have b2 := prob_del_le R (P ++ X) hU
    have b3 := prob_ins_le R (P ++ Y) hU'
    have b4 := prob_del_le R (P ++ Y) hU'
    rw [← prob_bijective hΦ] at b1 b2
    simp only [List.length_append, hlY] at b1 b2 b3 b4
    have := prob_or_le (prob_or_le (prob_or_le b1 b2) b3) b4
    refine le_trans hdist (le_trans this (le_of_eq ?_))
    ring
  · intro ω hω
    simp only [not_or] at hω
    obtain ⟨⟨⟨g1, g2⟩, g3⟩, g4⟩ := hω
    obtain ⟨ti, vi⟩ := hφ ω.1.1 ω.2.1 ω.1.2.1 g1 g3
    obtain ⟨td, vd⟩ := hχ ω.1.1 ω.2.2 ω.1.2.2 g2 g4
    obtain ⟨p1, p2, p3⟩ := messages_parts (baseJ R ω.1.1 ω.2.1 ω.2.2) (φ ω.1.1 ω.2.1 ω.1.2.1) (χ ω.1.1 ω.2.2 ω.1.2.2) (P ++ X)
      _ _ _ _ 0 cinv_init (by simp; omega)
    obtain ⟨q1, q2, q3⟩ := messages_parts (baseJ R ω.1.1 ω.2.1 ω.2.2) ω.1.2.1 ω.1.2.2 (P ++ Y) _ _ _ _ 0 cinv_init (by simp; omega)
    rw [insCmds_base] at p1 q1
    rw [delCmds_base] at p2 q2
    have hmsg : messages (baseJ R ω.1.1 ω.2.1 ω.2.2) (φ ω.1.1 ω.2.1 ω.1.2.1) (χ ω.1.1 ω.2.2 ω.1.2.2) Client.init (P ++ X) =
        messages (baseJ R ω.1.1 ω.2.1 ω.2.2) ω.1.2.1 ω.1.2.2 Client.init (P ++ Y) := by
      apply msgs_ext
      · rw [p1, q1]; exact ti
      · rw [p2, q2]; exact td
      · rw [p3, q3, restOf_append, restOf_append, restOf_updates _ X _ _ Y hX hkind]
    unfold view
    dsimp only
    rw [hmsg, q1, q2]
    refine Prod.ext rfl (Prod.ext ?_ ?_)
    · exact List.map_congr_left (fun m hm => vi m hm)
    · exact List.map_congr_left (fun m hm => vd m hm)

/-- With a million operations, the bound is below `2^-86`. -/
theorem C79_janus_number : 4 * hidingBound (2 ^ 20) (2 ^ 20) < 1 / 2 ^ 86 := by
  unfold hidingBound
  rw [Nat.choose_two_right]
  norm_num

/-! ## An instance -/

/-- Arrays of bytes, masked by exclusive or -/
def bytesMasking (n : Nat) : Masking (Vector UInt8 n) where
  zero := Vector.replicate n 0
  xor := fun x y => x.zipWith (· ^^^ ·) y
  xor_xor := by intro x m; apply Vector.ext; intro i hi; simp [UInt8.xor_assoc]
  assoc := by intro x y z; apply Vector.ext; intro i hi; simp [UInt8.xor_assoc]
  comm := by intro x y; apply Vector.ext; intro i hi; simp [UInt8.xor_comm]

/-- Janus with ciphertexts and key shares that are only their tags -/
def sampleFixed : Fixed Unit Tag Tag Unit := ⟨bytesMasking 16, bytesMasking 16, fun _ => Vector.replicate 16 0, Toy.tags⟩

/-- The hypotheses hold for the histories of the example of C62. -/
example (E : List (JMsg (Diana.Leaf × Nat) (Diana.Leaf × Nat) Tag Tag) × List (List (Option (Diana.Leaf × Diana.Token × Tag))) ×
      List (List (Option (Diana.Leaf × Diana.Token × Tag))) → Prop) :
    |prob (fun ω : FullChoice (hashed sampleFixed (Toy.past ++ Toy.new1) ∪ hashed sampleFixed (Toy.past ++ Toy.new2)) Tag Tag =>
        E (view sampleFixed ω (Toy.past ++ Toy.new1))) -
      prob (fun ω : FullChoice (hashed sampleFixed (Toy.past ++ Toy.new1) ∪ hashed sampleFixed (Toy.past ++ Toy.new2)) Tag Tag =>
        E (view sampleFixed ω (Toy.past ++ Toy.new2)))| ≤ 4 * hidingBound 7 7 :=
  C79_janus_forward sampleFixed Toy.past Toy.new1 Toy.new2 (by decide) (by decide) (by decide) Finset.subset_union_left
    Finset.subset_union_right E

end Verif.Ideal.Janus
