import Verif.Ideal.Together
import Verif.Ideal.Oracle

/-!
# Observers of Diana who evaluate the public functions themselves: C83

Update tokens and masks are derived from the leaves by a public function (`gen_update_token_mask`,
`/repo/lib/diana/diana_common.cpp` L27-36), and keyword indices are hashes of the keywords (`get_keyword_index`,
`/repo/lib/include/sse/schemes/diana/diana_client.hpp` L111-120).
Here the observer knows the hash function, and can ask, between the commands, for the token and the mask of any leaves.
-/

namespace Verif.Ideal.Diana

open Verif Verif.Diana Verif.Leak

variable {Kw V : Type} [DecidableEq Kw]

/-- What the server sees of a command -/
abbrev Seen (V : Type) := Message V × List (Option (Leaf × Token × V))

/-- A step of the observer: a pair of commands for the client, of which one is executed, or a leaf whose token and mask the observer
computes. -/
abbrev Step (Kw V : Type) := (Cmd Kw V × Cmd Kw V) ⊕ Leaf

/-- What the observer computes for a leaf: the token and the mask -/
def tokenMask {U : Finset Kw} (ω : FullChoice U V) (x : Leaf) : Token × V := (ω.1.2.2.2.1 x, ω.1.2.2.2.2 x)

/-- What the observer sees of the steps, with the component `f` of the pairs -/
def oview {U : Finset Kw} (M : Masking V) (g : Kw → Token) (f : Cmd Kw V × Cmd Kw V → Cmd Kw V) (ω : FullChoice U V)
    (S : List (Step Kw V)) : List (Seen V ⊕ (Token × V)) :=
  Ideal.oview (fun P => view M g ω (P.map f)) (tokenMask ω) S

/-- The rules are those for the commands; any leaves may be asked for. -/
def ORules (W : Finset Kw) (n : Nat) (S : List (Step Kw V)) : Prop := Rules W n (cmdsOf S)

theorem view_map_prefix {U : Finset Kw} (M : Masking V) (g : Kw → Token) (f : Cmd Kw V × Cmd Kw V → Cmd Kw V) (ω : FullChoice U V)
    (P Q : List (Cmd Kw V × Cmd Kw V)) (h : Q <+: P) : view M g ω (Q.map f) = (view M g ω (P.map f)).take Q.length := by
  obtain ⟨R, rfl⟩ := h
  rw [← view_take]
  congr 1
  simp

/-! ## Another leaf for a position -/

/-- The leaf at the position `p` becomes `y`; tokens and masks are exchanged accordingly. -/
def moveLeaf {U : Finset Kw} (p : Leaf × Pos) (ω : FullChoice U V) (y : Leaf) : FullChoice U V :=
  ((ω.1.1, ω.1.2.1, ω.1.2.2.1, ω.1.2.2.2.1 ∘ Equiv.swap (ω.2 p) y, ω.1.2.2.2.2 ∘ Equiv.swap (ω.2 p) y), Function.update ω.2 p y)

omit [DecidableEq Kw] in
theorem moveLeaf_moveLeaf {U : Finset Kw} (p : Leaf × Pos) (ω : FullChoice U V) (y : Leaf) : moveLeaf p (moveLeaf p ω y) (ω.2 p) = ω := by
  obtain ⟨⟨h, kt, r, t, m⟩, e⟩ := ω
  simp only [moveLeaf, Function.update_self, Function.update_idem, Function.update_eq_self]
  have hs : ∀ z, Equiv.swap (e p) y (Equiv.swap y (e p) z) = z := by
    intro z
    rw [Equiv.swap_comm y, Equiv.swap_apply_self]
  congr 5
  · funext z; simp only [Function.comp_apply, hs]
  · funext z; simp only [Function.comp_apply, hs]

/-- The messages, one by one -/
theorem messages_get {U : Finset Kw} (M : Masking V) (g : Kw → Token) (ω : FullChoice U V) (H : List (Cmd Kw V)) (hfit : Spec.CountsFit H)
    (i : Nat) : (messages (base M g ω.1.1 ω.2) ω.1.2 H : List (Message V))[i]? = H[i]?.map (fun o => match o with
      | .insert w d =>
        .update (ω.1.2.2.2.1 (ω.2 (ω.1.2.2.1 (extend g ω.1.1 w), pos (count w (H.take i)))))
          (M.xor d (ω.1.2.2.2.2 (ω.2 (ω.1.2.2.1 (extend g ω.1.1 w), pos (count w (H.take i))))))
      | .search w => .search (if count w (H.take i) = 0 then (Vector.replicate 32 0, (Vector.replicate 32 0, 0), 0) else
          (ω.1.2.1 (extend g ω.1.1 w), (ω.1.2.2.1 (extend g ω.1.1 w), count w (H.take i) - 1), UInt32.ofNat (count w (H.take i))))) := by
  unfold messages
  rw [transcript_eq (base M g ω.1.1 ω.2) ω.1.2 H [] Map.empty (fun w => rfl) hfit, content_eachFrom, eachFrom_get, List.nil_append]
  rfl

theorem view_moveLeaf {U : Finset Kw} (M : Masking V) (g : Kw → Token) (W : Finset Kw) (n : Nat) (hn32 : n < 2 ^ 32) (ω : FullChoice U V)
    (hω : ¬ DictBad g W n ω) (p : Leaf × Pos) (hp : p ∈ places W (fun _ => n) (extend g ω.1.1) ω.1.2.2.1) (y : Leaf)
    (hy : y ∉ dictLeaves g W n ω) (H : List (Cmd Kw V)) (hH : cmdKeywords H ⊆ W) (hn : ∀ w, count w H ≤ n)
    (hex : ¬ Exposed (ω.2 p) (view M g ω H)) : view M g (moveLeaf p ω y) H = view M g ω H := by
  have hfit : Spec.CountsFit H := fun w => Nat.lt_of_le_of_lt (hn w) hn32
  have hother : ∀ q ∈ places W (fun _ => n) (extend g ω.1.1) ω.1.2.2.1, q ≠ p →
      Function.update ω.2 p y q = ω.2 q ∧ Equiv.swap (ω.2 p) y (ω.2 q) = ω.2 q := by
    intro q hq hne
    refine ⟨Function.update_of_ne hne _ _, Equiv.swap_apply_of_ne_of_ne (fun he => hω (Or.inr ⟨q, hq, p, hp, hne, he⟩)) ?_⟩
    rintro rfl
    exact hy (Finset.mem_image_of_mem _ hq)
  have hall : ∀ q ∈ places W (fun _ => n) (extend g ω.1.1) ω.1.2.2.1,
      Equiv.swap (ω.2 p) y (Function.update ω.2 p y q) = ω.2 q := by
    intro q hq
    by_cases he : q = p
    · rw [he, Function.update_self, Equiv.swap_apply_right]
    · rw [(hother q hq he).1, (hother q hq he).2]
  have hmsg : (messages (base M g (moveLeaf p ω y).1.1 (moveLeaf p ω y).2) (moveLeaf p ω y).1.2 H : List (Message V)) =
      messages (base M g ω.1.1 ω.2) ω.1.2 H := by
    refine List.ext_getElem? (fun i => ?_)
    rw [messages_get M g _ H hfit, messages_get M g _ H hfit]
    cases ho : H[i]? with
    | none => rfl
    | some o =>
      cases o with
      | search w => rfl
      | insert w d =>
        have hc : count w (H.take i) < n := Nat.lt_of_lt_of_le (slot_lt ⟨d, ho, rfl⟩) (hn w)
        have := hall _ (mem_places (r := ω.1.2.2.1) (hH (mem_cmdKeywords ho)) hc)
        simp only [keywordOf] at this
        simp only [Option.map_some, moveLeaf, Function.comp_apply, this]
  unfold view
  rw [hmsg]
  refine List.map_congr_left (fun m hm => congrArg (Prod.mk m) ?_)
  cases m with
  | update t e => rfl
  | search r =>
    obtain ⟨i, hi⟩ := List.getElem?_of_mem hm
    refine List.map_congr_left (fun b hb => ?_)
    have hb := List.mem_range.mp hb
    dsimp only
    by_cases hle : b ≤ r.2.1.2
    · simp only [if_pos hle, Option.map_some]
      have hshown : Exposed (ω.2 (r.2.1.1, pos b)) (view M g ω H) := by
        refine ⟨_, List.mem_map.mpr ⟨_, hm, rfl⟩, (ω.1.2.2.2.1 (ω.2 (r.2.1.1, pos b)), ω.1.2.2.2.2 (ω.2 (r.2.1.1, pos b))), ?_⟩
        refine List.mem_map.mpr ⟨b, List.mem_range.mpr hb, ?_⟩
        simp only [if_pos hle, Option.map_some]
      have hne : (r.2.1.1, pos b) ≠ p := fun he => hex (he ▸ hshown)
      have hmem : (r.2.1.1, pos b) ∈ places W (fun _ => n) (extend g ω.1.1) ω.1.2.2.1 := by
        rw [messages_get M g _ H hfit] at hi
        obtain ⟨o, ho, hr⟩ := Option.map_eq_some_iff.mp hi
        cases o with
        | insert w d => cases hr
        | search w =>
          simp only [Msg.search.injEq] at hr
          by_cases h0 : count w (H.take i) = 0
          · rw [if_pos h0] at hr
            rw [← hr] at hb
            simp at hb
          · rw [if_neg h0] at hr
            rw [← hr] at hle ⊢
            have hc := count_take_le w H i
            have := hn w
            dsimp only at hle
            exact mem_places (hH (mem_cmdKeywords ho)) (by omega)
      obtain ⟨h1, h2⟩ := hother _ hmem hne
      simp only [moveLeaf, Function.comp_apply, h1, h2]
    · simp only [if_neg hle, Option.map_none]

theorem exposed_prefix {U : Finset Kw} (M : Masking V) (g : Kw → Token) (ω : FullChoice U V) {x : Leaf} {H H' : List (Cmd Kw V)}
    (h : H' <+: H) (hx : Exposed x (view M g ω H')) : Exposed x (view M g ω H) := by
  obtain ⟨R, rfl⟩ := h
  obtain ⟨s, hs, y, hy⟩ := hx
  refine ⟨s, ?_, y, hy⟩
  have : H' = (H' ++ R).take H'.length := by simp
  rw [this, view_take] at hs
  exact List.mem_of_mem_take hs

omit [DecidableEq Kw] in
theorem tokenMask_moveLeaf {U : Finset Kw} (p : Leaf × Pos) (ω : FullChoice U V) (y x : Leaf) (h1 : x ≠ ω.2 p) (h2 : x ≠ y) :
    tokenMask (moveLeaf p ω y) x = tokenMask ω x := by
  simp only [tokenMask, moveLeaf, Function.comp_apply, Equiv.swap_apply_of_ne_of_ne h1 h2]

/-- The position of the entry number `a` of `w` -/
def place {U : Finset Kw} (g : Kw → Token) (ω : FullChoice U V) (i : Kw × Nat) : Leaf × Pos := (ω.1.2.2.1 (extend g ω.1.1 i.1), pos i.2)

theorem place_mem {U : Finset Kw} (g : Kw → Token) (W : Finset Kw) (n : Nat) (ω : FullChoice U V) (i : Kw × Nat)
    (hi : i ∈ W ×ˢ Finset.range n) : place g ω i ∈ places W (fun _ => n) (extend g ω.1.1) ω.1.2.2.1 := by
  rw [Finset.mem_product, Finset.mem_range] at hi
  exact mem_places hi.1 hi.2

theorem mem_dictLeaves {U : Finset Kw} (g : Kw → Token) (W : Finset Kw) (n : Nat) (ω : FullChoice U V) (x : Leaf) :
    x ∈ dictLeaves g W n ω ↔ ∃ i ∈ W ×ˢ Finset.range n, x = ω.2 (place g ω i) := by
  constructor
  · intro h
    obtain ⟨p, hp, rfl⟩ := Finset.mem_image.mp h
    simp only [places, Finset.mem_biUnion, Finset.mem_image, Finset.mem_range] at hp
    obtain ⟨w, hw, a, ha, rfl⟩ := hp
    exact ⟨(w, a), by rw [Finset.mem_product, Finset.mem_range]; exact ⟨hw, ha⟩, rfl⟩
  · rintro ⟨i, hi, rfl⟩
    exact Finset.mem_image_of_mem _ (place_mem g W n ω i hi)

/-- The leaves of the dictionary are secret, until the server computes them. -/
noncomputable def secrecy {U : Finset Kw} (M : Masking V) (g : Kw → Token) (W : Finset Kw) (n : Nat) (hn32 : n < 2 ^ 32) :
    Secrecy (FullChoice U V) (Cmd Kw V × Cmd Kw V) (Seen V) (Token × V) Leaf (Kw × Nat) (U → Token) where
  known ω := ω.1.1
  v ω P := view M g ω (P.map Prod.snd)
  ask := tokenMask
  allowed := Rules W n
  good ω := ¬ DictBad g W n ω
  I := W ×ˢ Finset.range n
  point i ω := ω.2 (place g ω i)
  told i ω P := Exposed (ω.2 (place g ω i)) (view M g ω (P.map Prod.snd))
  move i ω y := moveLeaf (place g ω i) ω y
  allowed_nil := rules_nil W n
  v_prefix ω P Q h := view_map_prefix M g Prod.snd ω P Q h
  told_mono i ω P Q h := exposed_prefix M g ω (h.map _)
  known_move _ _ _ := rfl
  point_move i ω y := by
    change Function.update ω.2 (place g ω i) y (place g ω i) = y
    rw [Function.update_self]
  move_move i ω y := moveLeaf_moveLeaf (place g ω i) ω y
  v_move i hi ω y hg hy P hP ht := by
    obtain ⟨-, ⟨-, hW⟩, hcount⟩ := hP
    refine view_moveLeaf M g W n hn32 ω hg _ (place_mem g W n ω i hi) y ?_ _ hW (fun v => (hcount v).2) ht
    rw [mem_dictLeaves]
    rintro ⟨j, hj, he⟩
    exact hy j hj he
  ask_move i ω y x h1 h2 := tokenMask_moveLeaf _ ω y x h1 h2

/-- **C83** (Diana): a strategy that knows the hash function, sees what the server sees, chooses pairs of commands with the same leakage
for both components, and computes the token and the mask of leaves of its choice, finds out which component is executed with an
advantage of at most the bound for the dictionary and the bound for a guess. -/
theorem C83_diana [Fintype V] {U : Finset Kw} (M : Masking V) (g : Kw → Token) (W : Finset Kw) (hU : W ⊆ U) (n : Nat)
    (hn32 : n < 2 ^ 32) (σ : (U → Token) → List (Seen V ⊕ (Token × V)) → Option (Step Kw V)) (steps : Nat)
    (hsteps : steps + W.card * n < 256 ^ 32) (E : (U → Token) → List (Seen V ⊕ (Token × V)) → Prop) :
    |prob (fun ω : FullChoice U V => E ω.1.1 (oview M g Prod.fst ω (play (ORules W n) (σ ω.1.1) (oview M g Prod.fst ω) steps))) -
        prob (fun ω : FullChoice U V => E ω.1.1 (oview M g Prod.snd ω (play (ORules W n) (σ ω.1.1) (oview M g Prod.snd ω) steps)))| ≤
      hidingBound W.card (W.card * n) + guessBound (256 ^ 32) (W.card * n) steps := by
  classical
  have : Nonempty V := ⟨M.zero⟩
  have hcard : Fintype.card Leaf = 256 ^ 32 := card_bytes 32
  have hI : (W ×ˢ Finset.range n).card = W.card * n := by rw [Finset.card_product, Finset.card_range]
  have h := (secrecy (U := U) M g W n hn32).dist (fun ω P => view M g ω (P.map Prod.fst)) (fun ω => view_map_prefix M g Prod.fst ω) ?_
    σ steps (by rw [hcard]; exact hI ▸ hsteps) E
  · refine le_trans h ?_
    rw [hcard]
    change _ + guessBound _ (W ×ˢ Finset.range n).card _ ≤ _
    rw [hI]
    refine add_le_add_left (le_trans (prob_mono (fun ω hω => not_not.mp hω)) (prob_dictBad_le g W n hU)) _
  · rintro P ⟨h1, ⟨h2, h3⟩, h4⟩
    obtain ⟨φ, hi, hφ⟩ := exists_rekey_dict (U := U) M g W n hn32 _ _ h1 h2 h3 (fun w => (h4 w).1) (fun w => (h4 w).2)
    refine ⟨fun ω => ((ω.1.1, φ ω.1.1 ω.2 ω.1.2), ω.2), ?_, fun _ => rfl, fun ω hω => ?_⟩
    · rintro ⟨⟨h, k⟩, e⟩ ⟨⟨h', k'⟩, e'⟩ he
      simp only [Prod.mk.injEq] at he
      obtain ⟨⟨rfl, he⟩, rfl⟩ := he
      rw [hi h e he]
    · obtain ⟨hv, hx⟩ := hφ ω hω
      refine ⟨hv, fun x hxI => ?_⟩
      obtain ⟨e1, e2⟩ := hx x (by
        rw [or_iff_not_imp_left, not_not, mem_dictLeaves]
        rintro ⟨i, hiI, rfl⟩
        exact hxI i hiI rfl)
      exact Prod.ext e1 e2

/-- **C83** (Diana), with the two random keys of C80. -/
theorem C83_diana_keyed [Fintype V] {U : Finset Kw} (M : Masking V) (g : Kw → Token) (W : Finset Kw) (hU : W ⊆ U) (n : Nat)
    (hn32 : n < 2 ^ 32) (σ : (U → Token) → List (Seen V ⊕ (Token × V)) → Option (Step Kw V)) (steps : Nat)
    (hsteps : steps + W.card * n < 256 ^ 32) (E : (U → Token) → List (Seen V ⊕ (Token × V)) → Prop) :
    |prob (fun x : Keyed U V => E (keyed x).1.1 (oview M g Prod.fst (keyed x)
          (play (ORules W n) (σ (keyed x).1.1) (oview M g Prod.fst (keyed x)) steps))) -
        prob (fun x : Keyed U V => E (keyed x).1.1 (oview M g Prod.snd (keyed x)
          (play (ORules W n) (σ (keyed x).1.1) (oview M g Prod.snd (keyed x)) steps)))| ≤
      hidingBound W.card (W.card * n) + guessBound (256 ^ 32) (W.card * n) steps + 2 * (1 / 256 ^ 32) :=
  dist_transfer
    (C80_diana_keys (fun ω => E ω.1.1 (oview M g Prod.fst ω (play (ORules W n) (σ ω.1.1) (oview M g Prod.fst ω) steps))))
    (C80_diana_keys (fun ω => E ω.1.1 (oview M g Prod.snd ω (play (ORules W n) (σ ω.1.1) (oview M g Prod.snd ω) steps))))
    (C83_diana M g W hU n hn32 σ steps hsteps E)

/-- With a million keywords, a billion insertions and `2 ^ 80` steps, the bound is below `2^-88`. -/
theorem C83_diana_number : hidingBound (2 ^ 20) (2 ^ 30) + guessBound (256 ^ 32) (2 ^ 30) (2 ^ 80) < 1 / 2 ^ 88 := by
  unfold hidingBound guessBound
  rw [Nat.choose_two_right, Nat.choose_two_right]
  norm_num

/-! ## An instance -/

/-- A strategy that looks into the answers: it asks for the token of a leaf that the server computed, and of a leaf of zeros, and
compares with the update token. -/
def sampleAsking (_ : Finset.range 10 → Token) (seen : List (Seen Index ⊕ (Token × Index))) : Option (Step Nat Index) :=
  match seen with
  | [] => some (.inl (.insert 1 5, .insert 3 5))
  | [_] => some (.inr (Vector.replicate 32 0))
  | [.inl (.update t _, _), .inr (t', _)] => if t = t' then some (.inl (.insert 1 6, .insert 2 7)) else some (.inl (.search 1, .search 3))
  | [_, _, .inl (.search _, some (leaf, _) :: _)] => some (.inr leaf)
  | _ => none

/-- The token asked for is that of the update, as the server sees it: the observer learns which leaf it was. -/
example (ω : FullChoice (Finset.range 10) Index) (leaf : Leaf) (h : ω.2 (ω.1.2.2.1 (extend (fun _ => Vector.replicate 16 0) ω.1.1 1), pos 0) = leaf) :
    oview indexMasking (fun _ => Vector.replicate 16 0) Prod.fst ω [.inl (.insert 1 5, .insert 3 5), .inr leaf] =
      [.inl (.update (ω.1.2.2.2.1 leaf) (indexMasking.xor 5 (ω.1.2.2.2.2 leaf)), []), .inr (ω.1.2.2.2.1 leaf, ω.1.2.2.2.2 leaf)] := by
  subst h
  rfl

/-- Its advantage is small. -/
example (E : (Finset.range 10 → Token) → List (Seen Index ⊕ (Token × Index)) → Prop) :
    |prob (fun ω : FullChoice (Finset.range 10) Index => E ω.1.1 (oview indexMasking (fun _ => Vector.replicate 16 0) Prod.fst ω
          (play (ORules (Finset.range 10) 3) (sampleAsking ω.1.1) (oview indexMasking (fun _ => Vector.replicate 16 0) Prod.fst ω) 4))) -
        prob (fun ω : FullChoice (Finset.range 10) Index => E ω.1.1 (oview indexMasking (fun _ => Vector.replicate 16 0) Prod.snd ω
          (play (ORules (Finset.range 10) 3) (sampleAsking ω.1.1) (oview indexMasking (fun _ => Vector.replicate 16 0) Prod.snd ω) 4)))| ≤
      hidingBound 10 30 + guessBound (256 ^ 32) 30 4 :=
  C83_diana (U := Finset.range 10) indexMasking (fun _ => Vector.replicate 16 0) (Finset.range 10) (Finset.Subset.refl _) 3 (by decide)
    sampleAsking 4 (by norm_num) E

end Verif.Ideal.Diana
