import Verif.Ideal.SophosAdaptive
import Verif.Ideal.DianaHiding

/-!
# Diana with histories that depend on what was seen: C82
-/

namespace Verif.Ideal.Diana

open Verif Verif.Diana Verif.Leak

variable {Kw V : Type} [DecidableEq Kw]

/-- What is seen of a part of the commands is a part of what is seen. -/
theorem transcript_take (c : Crypto Kw V) (H : List (Cmd Kw V)) :
    ∀ (m : Map Kw UInt32) (k : Nat), transcript c m (H.take k) = (transcript c m H).take k := by
  induction H with
  | nil => intro m k; simp [transcript]
  | cons o H ih =>
    intro m k
    cases k with
    | zero => rfl
    | succ k => cases o <;> simp [transcript, ih]

theorem view_take {U : Finset Kw} (M : Masking V) (g : Kw → Token) (ω : FullChoice U V) (H : List (Cmd Kw V)) (k : Nat) :
    view M g ω (H.take k) = (view M g ω H).take k := by
  unfold view messages
  rw [transcript_take, List.map_take, List.map_take]

/-- Two keywords of the dictionary have the same index, or the same root key, or two of the first `n` positions of the keywords have the
same leaf. -/
def DictBad {U : Finset Kw} (g : Kw → Token) (W : Finset Kw) (n : Nat) (ω : FullChoice U V) : Prop :=
  ((∃ a ∈ W, ∃ b ∈ W, a ≠ b ∧ extend g ω.1.1 a = extend g ω.1.1 b) ∨
    (∃ a ∈ W.image (extend g ω.1.1), ∃ b ∈ W.image (extend g ω.1.1), a ≠ b ∧ ω.1.2.2.1 a = ω.1.2.2.1 b)) ∨
    (∃ a ∈ places W (fun _ => n) (extend g ω.1.1) ω.1.2.2.1,
      ∃ b ∈ places W (fun _ => n) (extend g ω.1.1) ω.1.2.2.1, a ≠ b ∧ ω.2 a = ω.2 b)

theorem prob_dictBad_le [Fintype V] {U : Finset Kw} (g : Kw → Token) (W : Finset Kw) (n : Nat) (hU : W ⊆ U) :
    prob (DictBad (V := V) (U := U) g W n) ≤ hidingBound W.card (W.card * n) := by
  have hk : ∀ h : Kw → Token, (W.image h).card ≤ W.card := fun _ => Finset.card_image_le
  unfold hidingBound
  refine prob_or_le (prob_or_le ?_ ?_) ?_
  · have := extend_le (Ω₂ := Secrets V) (C := Token) hU g
    rw [card_bytes] at this
    push_cast at this
    exact prob_first_le (Ω := (U → Token) × Secrets V) (Ω₂ := Leaf × Pos → Leaf) (p := fun x =>
      ∃ a ∈ W, ∃ b ∈ W, a ≠ b ∧ extend g x.1 a = extend g x.1 b) this
  · have := collision_le₃ (Ω₁ := U → Token) (Ω₂ := Token → Vector UInt8 32) (Ω₄ := (Leaf → Token) × (Leaf → V)) (C := Leaf)
      (fun h _ => W.image (extend g h)) _ (fun h _ => hk _)
    rw [card_bytes] at this
    push_cast at this
    exact prob_first_le (Ω := (U → Token) × Secrets V) (Ω₂ := Leaf × Pos → Leaf) (p := fun x =>
      ∃ a ∈ W.image (extend g x.1), ∃ b ∈ W.image (extend g x.1), a ≠ b ∧ x.2.2.1 a = x.2.2.1 b) this
  · have := collision_last₂ (C := Leaf) (Ω₁ := (U → Token) × Secrets V)
      (fun x => places W (fun _ => n) (extend g x.1) x.2.2.1) (W.card * n)
      (fun x => le_trans (card_places _ _ _ _) (le_of_eq (by simp)))
    rw [card_bytes] at this
    push_cast at this
    exact this

omit [DecidableEq Kw] in
theorem places_mono {K K' : Finset Kw} {B B' : Kw → Nat} (hK : K ⊆ K') (hB : ∀ w, B w ≤ B' w) (h : Kw → Token) (r : Token → Leaf) :
    places K B h r ⊆ places K' B' h r := by
  intro x hx
  simp only [places, Finset.mem_biUnion, Finset.mem_image, Finset.mem_range] at hx
  obtain ⟨w, hw, a, ha, rfl⟩ := hx
  exact mem_places (hK hw) (Nat.lt_of_lt_of_le ha (hB w))

theorem dictBad_of_bad {U : Finset Kw} {g : Kw → Token} {W : Finset Kw} {n : Nat} {ω : FullChoice U V} {H : List (Cmd Kw V)}
    (hH : cmdKeywords H ⊆ W) (hn : ∀ w, count w H ≤ n) (h : Bad g H ω) : DictBad g W n ω := by
  have hi := Finset.image_subset_image (f := extend g ω.1.1) hH
  have hp := places_mono (B := (count · H)) (B' := fun _ => n) hH hn (extend g ω.1.1) ω.1.2.2.1
  rcases h with (⟨a, ha, b, hb, h⟩ | ⟨a, ha, b, hb, h⟩) | ⟨a, ha, b, hb, h⟩
  · exact Or.inl (Or.inl ⟨a, hH ha, b, hH hb, h⟩)
  · exact Or.inl (Or.inr ⟨a, hi ha, b, hi hb, h⟩)
  · exact Or.inr ⟨a, hp ha, b, hp hb, h⟩

/-- Permuting root keys among the keywords of the dictionary does not change whether there are collisions. -/
theorem dictBad_perm {U : Finset Kw} {g : Kw → Token} {W : Finset Kw} {n : Nat} {ω ω' : FullChoice U V}
    (σ : Equiv.Perm Token) (hσ : ∀ s, s ∉ W.image (extend g ω.1.1) → σ s = s) (h0 : ω'.1.1 = ω.1.1) (h1 : ω'.1.2.2.1 = ω.1.2.2.1 ∘ σ)
    (h2 : ω'.2 = ω.2) (h : DictBad g W n ω') : DictBad g W n ω := by
  have hi := image_perm _ σ hσ
  have hp : places W (fun _ => n) (extend g ω.1.1) (ω.1.2.2.1 ∘ σ) ⊆ places W (fun _ => n) (extend g ω.1.1) ω.1.2.2.1 := by
    intro x hx
    simp only [places, Finset.mem_biUnion, Finset.mem_image, Finset.mem_range] at hx
    obtain ⟨w, hw, a, ha, rfl⟩ := hx
    obtain ⟨w', hw', he⟩ := Finset.mem_image.mp ((hi _).mp (Finset.mem_image_of_mem (extend g ω.1.1) hw))
    rw [Function.comp_apply, ← he]
    exact mem_places hw' ha
  unfold DictBad at h
  rw [h0, h1, h2] at h
  rcases h with (⟨a, ha, b, hb, h⟩ | ⟨a, ha, b, hb, hne, h⟩) | ⟨a, ha, b, hb, h⟩
  · exact Or.inl (Or.inl ⟨a, ha, b, hb, h⟩)
  · exact Or.inl (Or.inr ⟨σ a, (hi a).mp ha, σ b, (hi b).mp hb, fun e => hne (σ.injective e), h⟩)
  · exact Or.inr ⟨a, hp ha, b, hp hb, h⟩

/-- The leaves of the first `n` positions of the keywords of the dictionary -/
def dictLeaves {U : Finset Kw} (g : Kw → Token) (W : Finset Kw) (n : Nat) (ω : FullChoice U V) : Finset Leaf :=
  (places W (fun _ => n) (extend g ω.1.1) ω.1.2.2.1).image ω.2

/-- The server computes the leaf to answer one of the searches. -/
def Exposed (x : Leaf) (seen : List (Message V × List (Option (Leaf × Token × V)))) : Prop := ∃ s ∈ seen, ∃ y, some (x, y) ∈ s.2

/-- For two histories with the same leakage over the dictionary, there is a permutation of the secret functions that turns the one view
into the other, unless there are collisions in the dictionary. It changes tokens and masks only at leaves of the dictionary that the
server does not compute. -/
theorem exists_rekey_dict {U : Finset Kw} (M : Masking V) (g : Kw → Token) (W : Finset Kw) (n : Nat) (hn32 : n < 2 ^ 32)
    (H H' : List (Cmd Kw V)) (hleak : leak H = leak H') (hW : cmdKeywords H ⊆ W) (hW' : cmdKeywords H' ⊆ W)
    (hn : ∀ w, count w H ≤ n) (hn' : ∀ w, count w H' ≤ n) :
    ∃ φ : (U → Token) → (Leaf × Pos → Leaf) → Secrets V → Secrets V, (∀ h e, Function.Injective (φ h e)) ∧
      ∀ ω : FullChoice U V, ¬ DictBad g W n ω → view M g ((ω.1.1, φ ω.1.1 ω.2 ω.1.2), ω.2) H = view M g ω H' ∧
        ∀ x, x ∉ dictLeaves g W n ω ∨ Exposed x (view M g ω H') →
          (φ ω.1.1 ω.2 ω.1.2).2.2.1 x = ω.1.2.2.2.1 x ∧ (φ ω.1.1 ω.2 ω.1.2).2.2.2 x = ω.1.2.2.2.2 x := by
  have hfit : Spec.CountsFit H := fun w => Nat.lt_of_le_of_lt (hn w) hn32
  have hfit' : Spec.CountsFit H' := fun w => Nat.lt_of_le_of_lt (hn' w) hn32
  have hex : ∀ (h : U → Token) (e : Leaf × Pos → Leaf), ∃ φ : Secret (base M g h e) → Secret (base M g h e),
      Function.Bijective φ ∧
      (Spec.SeedsDistinct (base M g h e) H → Spec.SeedsDistinct (base M g h e) H' →
      (∃ σ : Equiv.Perm Token,
        (∀ s, (∀ (n : Nat) (w : Kw), H[n]? = some (.search w) ∨ H'[n]? = some (.search w) → extend g h w ≠ s) → σ s = s) ∧
        ∀ k, (φ k).1 = k.1 ∘ σ ∧ (φ k).2.1 = k.2.1 ∘ σ) ∧ ∀ k,
        Spec.LeavesDistinct (withSecret (base M g h e) (φ k)) H →
        Spec.LeavesDistinct (withSecret (base M g h e) k) H' →
        messages (base M g h e) (φ k) H = messages (base M g h e) k H' ∧
        ∀ x, ¬ Spec.Hidden (withSecret (base M g h e) (φ k)) H x → ¬ Spec.Hidden (withSecret (base M g h e) k) H' x →
          (φ k).2.2.1 x = k.2.2.1 x ∧ (φ k).2.2.2 x = k.2.2.2 x) := by
    intro h e
    by_cases hs : Spec.SeedsDistinct (base M g h e) H ∧ Spec.SeedsDistinct (base M g h e) H'
    · obtain ⟨φ, hb, -, hσ, hφ⟩ := exists_rekey (base M g h e) M.assoc M.comm H H' hleak hfit hfit' hs.1 hs.2
      exact ⟨φ, hb, fun _ _ => ⟨hσ, hφ⟩⟩
    · exact ⟨id, Function.bijective_id, fun h1 h2 => absurd ⟨h1, h2⟩ hs⟩
  choose φ hb hφ using hex
  refine ⟨φ, fun h e => (hb h e).1, ?_⟩
  · rintro ⟨⟨h, k⟩, e⟩ hω
    have hg' : ¬ Bad g H' ((h, k), e) := fun hB => hω (dictBad_of_bad hW' hn' hB)
    have hgH : ¬ Bad g H ((h, k), e) := fun hB => hω (dictBad_of_bad hW hn hB)
    have hsd := seedsDistinct_of M g H _ hgH
    obtain ⟨⟨σ, hσ, hmat⟩, hφω⟩ := hφ h e hsd (seedsDistinct_of M g H' _ hg')
    have hσW : ∀ s, s ∉ W.image (extend g h) → σ s = s := by
      intro s hs
      refine hσ s (fun m w hw he => hs (Finset.mem_image.mpr ⟨w, ?_, he⟩))
      rcases hw with hw | hw
      · exact hW (mem_cmdKeywords hw)
      · exact hW' (mem_cmdKeywords hw)
    have hg : ¬ Bad g H (((h, φ h e k), e) : FullChoice U V) := fun hB =>
      hω (dictBad_perm (ω := ((h, k), e)) (ω' := ((h, φ h e k), e)) σ hσW rfl (hmat k).2 rfl (dictBad_of_bad hW hn hB))
    have hpd := leavesDistinct_of M g H hfit _ hg
    have hpd' := leavesDistinct_of M g H' hfit' _ hg'
    obtain ⟨ht, hv⟩ := hφω k hpd hpd'
    have hshown : ∀ (p : Nat) (r : Vector UInt8 32 × (Leaf × Nat) × UInt32), (messages (base M g h e) k H')[p]? = some (.search r) →
        ∀ i, i < r.2.2.toNat → i ≤ r.2.1.2 → ¬ Spec.Hidden (withSecret (base M g h e) (φ h e k)) H (e (r.2.1.1, pos i)) ∧
          ¬ Spec.Hidden (withSecret (base M g h e) k) H' (e (r.2.1.1, pos i)) := by
      intro p r hp i hi hle
      have hl : (base M g h e).ceval r.2.1 i = some (e (r.2.1.1, pos i)) := if_pos hle
      exact ⟨request_shown (base M g h e) _ H hfit hpd p r (by rw [ht]; exact hp) i hi _ hl,
        request_shown (base M g h e) _ H' hfit' hpd' p r hp i hi _ hl⟩
    constructor
    · unfold view
      dsimp only
      rw [ht]
      refine List.map_congr_left (fun m hm => congrArg (Prod.mk m) ?_)
      cases m with
      | update t e => rfl
      | search r =>
        obtain ⟨p, hp⟩ := List.getElem?_of_mem hm
        refine List.map_congr_left (fun i hi => ?_)
        have hi := List.mem_range.mp hi
        dsimp only
        by_cases hle : i ≤ r.2.1.2
        · simp only [if_pos hle, Option.map_some]
          obtain ⟨h1, h2⟩ := hv _ (hshown p r hp i hi hle).1 (hshown p r hp i hi hle).2
          rw [h1, h2]
        · simp only [if_neg hle, Option.map_none]
    · intro x hx
      refine (?_ : ¬ Spec.Hidden (withSecret (base M g h e) (φ h e k)) H x ∧ ¬ Spec.Hidden (withSecret (base M g h e) k) H' x).elim (hv x)
      rcases hx with hx | ⟨s, hs, y, hy⟩
      · have himg : ∀ t ∈ W.image (extend g h), ∀ a, a < n → e (k.2.1 t, pos a) ∈ dictLeaves g W n ((h, k), e) := by
          intro t ht a ha
          obtain ⟨w, hw, rfl⟩ := Finset.mem_image.mp ht
          exact Finset.mem_image_of_mem _ (mem_places hw ha)
        constructor
        · rintro ⟨m, w, a, ⟨hslot, -⟩, rfl⟩
          have ha := Nat.lt_of_lt_of_le (slot_lt hslot) (hn w)
          obtain ⟨i, hi, -⟩ := hslot
          have hw := hW (mem_cmdKeywords hi)
          refine hx ?_
          have hm := himg (σ (extend g h w)) ((image_perm _ σ hσW _).mp (Finset.mem_image_of_mem _ hw)) a ha
          have hr : (φ h e k).2.1 (extend g h w) = k.2.1 (σ (extend g h w)) := congrFun (hmat k).2 _
          rw [← hr] at hm
          exact hm
        · rintro ⟨m, w, a, ⟨hslot, -⟩, rfl⟩
          have ha := Nat.lt_of_lt_of_le (slot_lt hslot) (hn' w)
          obtain ⟨i, hi, -⟩ := hslot
          exact hx (himg _ (Finset.mem_image_of_mem _ (hW' (mem_cmdKeywords hi))) a ha)
      · obtain ⟨m, hm, rfl⟩ := List.mem_map.mp hs
        cases m with
        | update t e => cases hy
        | search r =>
          obtain ⟨p, hp⟩ := List.getElem?_of_mem hm
          obtain ⟨i, hi, he⟩ := List.mem_map.mp hy
          have hi := List.mem_range.mp hi
          by_cases hle : i ≤ r.2.1.2
          · simp only [if_pos hle, Option.map_some, Option.some.injEq, Prod.mk.injEq] at he
            rw [← he.1]
            exact hshown p r hp i hi hle
          · simp only [if_neg hle, Option.map_none, reduceCtorEq] at he

/-- The same, as a permutation of the choices. -/
theorem exists_perm_dict {U : Finset Kw} (M : Masking V) (g : Kw → Token) (W : Finset Kw) (n : Nat) (hn32 : n < 2 ^ 32)
    (H H' : List (Cmd Kw V)) (hleak : leak H = leak H') (hW : cmdKeywords H ⊆ W) (hW' : cmdKeywords H' ⊆ W)
    (hn : ∀ w, count w H ≤ n) (hn' : ∀ w, count w H' ≤ n) :
    ∃ π : FullChoice U V → FullChoice U V, Function.Injective π ∧
      ∀ ω, ¬ DictBad g W n ω → view M g (π ω) H = view M g ω H' := by
  obtain ⟨φ, hb, hφ⟩ := exists_rekey_dict (U := U) M g W n hn32 H H' hleak hW hW' hn hn'
  refine ⟨fun ω => ((ω.1.1, φ ω.1.1 ω.2 ω.1.2), ω.2), ?_, fun ω hω => (hφ ω hω).1⟩
  rintro ⟨⟨h, k⟩, e⟩ ⟨⟨h', k'⟩, e'⟩ he
  simp only [Prod.mk.injEq] at he
  obtain ⟨⟨rfl, he⟩, rfl⟩ := he
  rw [hb h e he]

/-- **C82** (Diana): a strategy that sees what the server sees, and chooses pairs of commands with the same leakage for both components,
finds out which component is executed with an advantage of at most the bound for the dictionary. -/
theorem C82_diana [Fintype V] {U : Finset Kw} (M : Masking V) (g : Kw → Token) (W : Finset Kw) (hU : W ⊆ U) (n : Nat)
    (hn32 : n < 2 ^ 32) (σ : List (Message V × List (Option (Leaf × Token × V))) → Option (Cmd Kw V × Cmd Kw V)) (steps : Nat)
    (E : List (Message V × List (Option (Leaf × Token × V))) → Prop) :
    |prob (fun ω : FullChoice U V => E (view M g ω
          ((play (Rules W n) σ (fun P => view M g ω (P.map Prod.fst)) steps).map Prod.fst))) -
        prob (fun ω : FullChoice U V => E (view M g ω
          ((play (Rules W n) σ (fun P => view M g ω (P.map Prod.snd)) steps).map Prod.snd)))| ≤
      hidingBound W.card (W.card * n) := by
  classical
  have hex : ∀ P : List (Cmd Kw V × Cmd Kw V), ∃ π : FullChoice U V → FullChoice U V,
      Rules W n P → Function.Injective π ∧ ∀ ω, ¬ DictBad g W n ω →
        view M g (π ω) (P.map Prod.fst) = view M g ω (P.map Prod.snd) := by
    intro P
    by_cases hP : Rules W n P
    · obtain ⟨h1, ⟨h2, h3⟩, h4⟩ := hP
      obtain ⟨π, hπ⟩ := exists_perm_dict (U := U) M g W n hn32 _ _ h1 h2 h3 (fun w => (h4 w).1) (fun w => (h4 w).2)
      exact ⟨π, fun _ => hπ⟩
    · exact ⟨id, fun h => absurd h hP⟩
  choose π hπ using hex
  have hpre : ∀ (f : Cmd Kw V × Cmd Kw V → Cmd Kw V) (ω : FullChoice U V) P Q, Q <+: P →
      view M g ω (Q.map f) = (view M g ω (P.map f)).take Q.length := by
    intro f ω P Q h
    rw [← view_take, ← List.map_take, ← List.prefix_iff_eq_take.mp h]
  have : Nonempty V := ⟨M.zero⟩
  exact le_trans (adaptive_dist (rules_nil W n) (fun (ω : FullChoice U V) P => view M g ω (P.map Prod.fst))
    (fun ω P => view M g ω (P.map Prod.snd)) (hpre Prod.fst) (hpre Prod.snd) π (fun P hP => (hπ P hP).1)
    (DictBad g W n) (fun P hP => (hπ P hP).2) σ steps E) (prob_dictBad_le g W n hU)

/-! ## An instance -/

/-- A strategy: an insertion and a search for keyword 1 or for keyword 3; then, depending on the update token seen, an insertion for the
keyword searched or for another one, or one for different documents. -/
def sampleStrategy (seen : List (Message Index × List (Option (Leaf × Token × Index)))) : Option (Cmd Nat Index × Cmd Nat Index) :=
  match seen with
  | [] => some (.insert 1 5, .insert 3 5)
  | [_] => some (.search 1, .search 3)
  | [(.update t _, _), _] => if t[0] = 0 then some (.insert 1 7, .insert 2 9) else some (.insert 1 7, .insert 3 8)
  | _ => none

/-- Its advantage is small (the rules allow all of its commands, see `Verif.Ideal.SophosAdaptive`). -/
example (E : List (Message Index × List (Option (Leaf × Token × Index))) → Prop) :
    |prob (fun ω : FullChoice (Finset.range 10) Index => E (view indexMasking (fun _ => Vector.replicate 16 0) ω
          ((play (Rules (Finset.range 10) 3) sampleStrategy
            (fun P => view indexMasking (fun _ => Vector.replicate 16 0) ω (P.map Prod.fst)) 3).map Prod.fst))) -
        prob (fun ω : FullChoice (Finset.range 10) Index => E (view indexMasking (fun _ => Vector.replicate 16 0) ω
          ((play (Rules (Finset.range 10) 3) sampleStrategy
            (fun P => view indexMasking (fun _ => Vector.replicate 16 0) ω (P.map Prod.snd)) 3).map Prod.snd)))| ≤
      hidingBound 10 30 :=
  C82_diana (U := Finset.range 10) indexMasking (fun _ => Vector.replicate 16 0) (Finset.range 10) (Finset.Subset.refl _) 3 (by decide)
    sampleStrategy 3 E

end Verif.Ideal.Diana
