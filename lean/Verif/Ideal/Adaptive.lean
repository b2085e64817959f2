import Verif.Ideal.Dist

/-!
# Histories that depend on what was seen

A strategy chooses the next command from what it has seen so far. The strategy gives pairs of commands; one of the two components is
executed, and the strategy does not know which.
-/

namespace Verif.Ideal

variable {C Obs : Type}

open Classical in
/-- The next command, unless the strategy stops or breaks the rules -/
noncomputable def next (allowed : List C → Prop) (P : List C) : Option C → List C
  | none => P
  | some c => if allowed (P ++ [c]) then P ++ [c] else P

/-- The commands after `n` steps; `v` gives what is seen of a list of commands, `σ` is the strategy. -/
noncomputable def play (allowed : List C → Prop) (σ : List Obs → Option C) (v : List C → List Obs) : Nat → List C
  | 0 => []
  | n + 1 => next allowed (play allowed σ v n) (σ (v (play allowed σ v n)))

theorem next_prefix (allowed : List C → Prop) (P : List C) (o : Option C) : P <+: next allowed P o := by
  unfold next
  split
  · exact List.prefix_refl P
  · split
    · exact List.prefix_append _ _
    · exact List.prefix_refl P

theorem next_allowed (allowed : List C → Prop) (P : List C) (o : Option C) (h : allowed P) : allowed (next allowed P o) := by
  unfold next
  split
  · exact h
  · split
    · assumption
    · exact h

theorem play_allowed {allowed : List C → Prop} (h0 : allowed []) (σ : List Obs → Option C) (v : List C → List Obs) (n : Nat) :
    allowed (play allowed σ v n) := by
  induction n with
  | zero => exact h0
  | succ n ih => exact next_allowed _ _ _ ih

/-- Two views that agree on the commands of the one give the same commands. -/
theorem play_congr {allowed : List C → Prop} (σ : List Obs → Option C) (v v' : List C → List Obs) (n : Nat)
    (h : ∀ Q, Q <+: play allowed σ v n → v Q = v' Q) : play allowed σ v' n = play allowed σ v n := by
  induction n with
  | zero => rfl
  | succ n ih =>
    have hp : play allowed σ v n <+: play allowed σ v (n + 1) := next_prefix _ _ _
    have hn := ih (fun Q hQ => h Q (hQ.trans hp))
    change next allowed (play allowed σ v' n) (σ (v' (play allowed σ v' n))) = next allowed (play allowed σ v n) (σ (v (play allowed σ v n)))
    rw [hn, h _ hp]

theorem play_prefix (allowed : List C → Prop) (σ : List Obs → Option C) (v : List C → List Obs) {k n : Nat} (h : k ≤ n) :
    play allowed σ v k <+: play allowed σ v n := by
  induction n with
  | zero => rw [Nat.le_zero.mp h]
  | succ n ih =>
    rcases Nat.lt_or_ge n k with hk | hk
    · rw [Nat.le_antisymm h hk]
    · exact (ih hk).trans (next_prefix _ _ _)

theorem length_play_le (allowed : List C → Prop) (σ : List Obs → Option C) (v : List C → List Obs) (n : Nat) :
    (play allowed σ v n).length ≤ n := by
  induction n with
  | zero => exact Nat.le_refl 0
  | succ n ih =>
    change (next allowed (play allowed σ v n) _).length ≤ n + 1
    unfold next
    split
    · omega
    · split
      · rw [List.length_append, List.length_singleton]; omega
      · omega

/-- A command is chosen a first time. -/
theorem mem_play {allowed : List C → Prop} {σ : List Obs → Option C} {v : List C → List Obs} {n : Nat} {c : C}
    (h : c ∈ play allowed σ v n) : ∃ k < n, play allowed σ v (k + 1) = play allowed σ v k ++ [c] ∧ c ∉ play allowed σ v k := by
  induction n with
  | zero => cases h
  | succ n ih =>
    by_cases hn : c ∈ play allowed σ v n
    · obtain ⟨k, hk, h⟩ := ih hn
      exact ⟨k, Nat.lt_succ_of_lt hk, h⟩
    · refine ⟨n, Nat.lt_succ_self n, ?_, hn⟩
      change c ∈ next allowed (play allowed σ v n) (σ (v (play allowed σ v n))) at h
      change next allowed (play allowed σ v n) (σ (v (play allowed σ v n))) = _
      unfold next at h ⊢
      split at h
      · exact absurd h hn
      · split at h
        · rcases List.mem_append.mp h with h | h
          · exact absurd h hn
          · rw [List.mem_singleton.mp h, if_pos ‹_›]
        · exact absurd h hn

section

variable {Ω : Type*} [Fintype Ω]

theorem prob_injective_le {f : Ω → Ω} {p q : Ω → Prop} (hf : ∀ a b, p a → p b → f a = f b → a = b) (hq : ∀ a, p a → q (f a)) :
    prob p ≤ prob q := by
  unfold prob
  gcongr
  refine Nat.card_le_card_of_injective (fun x : {ω // p ω} => (⟨f x.1, hq x.1 x.2⟩ : {ω // q ω})) ?_
  intro x y h
  exact Subtype.ext (hf _ _ x.2 y.2 (congrArg Subtype.val h))

theorem prob_not [Nonempty Ω] (p : Ω → Prop) : prob (fun ω => ¬ p ω) = 1 - prob p := by
  classical
  unfold prob
  have hc : (0 : ℚ) < Fintype.card Ω := by exact_mod_cast Fintype.card_pos
  rw [eq_sub_iff_add_eq, ← add_div, div_eq_one_iff_eq hc.ne']
  have h1 : Nat.card {ω // ¬ p ω} + Nat.card {ω // p ω} = Fintype.card Ω := by
    rw [Nat.card_eq_fintype_card, Nat.card_eq_fintype_card, Fintype.card_subtype_compl]
    have := Fintype.card_subtype_le p
    omega
  exact_mod_cast h1

/-- Strategies distinguish with an advantage of at most the probability of `bad` at the commands chosen, if for each list of commands there
is a permutation of the choices that turns the second view into the first, except for bad choices. A part `f` of the choice, which the
permutations do not change, may be known to the strategy and to the observer. -/
theorem adaptive_dist_at [Nonempty Ω] {κ : Type} (f : Ω → κ) {allowed : List C → Prop} (h0 : allowed []) (v₀ v₁ : Ω → List C → List Obs)
    (hp₀ : ∀ ω P Q, Q <+: P → v₀ ω Q = (v₀ ω P).take Q.length) (hp₁ : ∀ ω P Q, Q <+: P → v₁ ω Q = (v₁ ω P).take Q.length)
    (π : List C → Ω → Ω) (hπ : ∀ P, allowed P → Function.Injective (π P)) (hf : ∀ P ω, allowed P → f (π P ω) = f ω)
    (bad : List C → Ω → Prop) (hview : ∀ P, allowed P → ∀ ω, ¬ bad P ω → v₀ (π P ω) P = v₁ ω P) (σ : κ → List Obs → Option C) (n : Nat)
    (E : κ → List Obs → Prop) :
    |prob (fun ω => E (f ω) (v₀ ω (play allowed (σ (f ω)) (v₀ ω) n))) -
        prob (fun ω => E (f ω) (v₁ ω (play allowed (σ (f ω)) (v₁ ω) n)))| ≤
      prob (fun ω => bad (play allowed (σ (f ω)) (v₁ ω) n) ω) := by
  have hsame : ∀ ω, ¬ bad (play allowed (σ (f ω)) (v₁ ω) n) ω →
      play allowed (σ (f ω)) (v₀ (π (play allowed (σ (f ω)) (v₁ ω) n) ω)) n = play allowed (σ (f ω)) (v₁ ω) n := by
    intro ω hω
    refine play_congr (σ (f ω)) _ _ n (fun Q hQ => ?_)
    rw [hp₁ ω _ _ hQ, hp₀ _ _ _ hQ, hview _ (play_allowed h0 _ _ n) ω hω]
  have key : ∀ E : κ → List Obs → Prop, prob (fun ω => E (f ω) (v₁ ω (play allowed (σ (f ω)) (v₁ ω) n))) ≤
      prob (fun ω => E (f ω) (v₀ ω (play allowed (σ (f ω)) (v₀ ω) n))) +
        prob (fun ω => bad (play allowed (σ (f ω)) (v₁ ω) n) ω) := by
    intro E
    refine le_trans (prob_mono (q := fun ω => (E (f ω) (v₁ ω (play allowed (σ (f ω)) (v₁ ω) n)) ∧
      ¬ bad (play allowed (σ (f ω)) (v₁ ω) n) ω) ∨ bad (play allowed (σ (f ω)) (v₁ ω) n) ω) ?_) (prob_or_le ?_ le_rfl)
    · intro ω hω
      by_cases hb : bad (play allowed (σ (f ω)) (v₁ ω) n) ω
      · exact Or.inr hb
      · exact Or.inl ⟨hω, hb⟩
    · refine prob_injective_le (f := fun ω => π (play allowed (σ (f ω)) (v₁ ω) n) ω) ?_ ?_
      · rintro a b ⟨-, ha⟩ ⟨-, hb⟩ he
        have h1 := hsame a ha
        have h2 := hsame b hb
        have hfab : f a = f b := by
          rw [← hf (play allowed (σ (f a)) (v₁ a) n) a (play_allowed h0 _ _ n), he, hf _ _ (play_allowed h0 _ _ n)]
        rw [he, hfab, h2] at h1
        rw [hfab, h1] at he
        exact hπ _ (play_allowed h0 _ _ n) (by rw [← h1] at he; simpa only [hfab] using he)
      · rintro a ⟨hE, ha⟩
        rw [hf _ _ (play_allowed h0 _ _ n), hsame a ha, hview _ (play_allowed h0 _ _ n) a ha]
        exact hE
  have h1 := key E
  have h2 := key (fun k x => ¬ E k x)
  rw [prob_not (fun ω => E (f ω) (v₁ ω (play allowed (σ (f ω)) (v₁ ω) n))),
    prob_not (fun ω => E (f ω) (v₀ ω (play allowed (σ (f ω)) (v₀ ω) n)))] at h2
  rw [abs_le]
  constructor <;> linarith

/-- The same, if which choices are bad does not depend on the commands. -/
theorem adaptive_dist [Nonempty Ω] {allowed : List C → Prop} (h0 : allowed []) (v₀ v₁ : Ω → List C → List Obs)
    (hp₀ : ∀ ω P Q, Q <+: P → v₀ ω Q = (v₀ ω P).take Q.length) (hp₁ : ∀ ω P Q, Q <+: P → v₁ ω Q = (v₁ ω P).take Q.length)
    (π : List C → Ω → Ω) (hπ : ∀ P, allowed P → Function.Injective (π P)) (bad : Ω → Prop)
    (hview : ∀ P, allowed P → ∀ ω, ¬ bad ω → v₀ (π P ω) P = v₁ ω P) (σ : List Obs → Option C) (n : Nat) (E : List Obs → Prop) :
    |prob (fun ω => E (v₀ ω (play allowed σ (v₀ ω) n))) - prob (fun ω => E (v₁ ω (play allowed σ (v₁ ω) n)))| ≤ prob bad :=
  adaptive_dist_at (fun _ => ()) h0 v₀ v₁ hp₀ hp₁ π hπ (fun _ _ _ => rfl) (fun _ => bad) hview (fun _ => σ) n (fun _ => E)

/-- If each choice with `A` can be changed in at least `K` ways, and the changed choice determines the choice and the change, then `A` has
a probability of at most `1 / K`. -/
theorem prob_le_of_changes {Y : Type} (A : Ω → Prop) (G : Ω → Finset Y) (K : Nat) (hK : 0 < K) (hG : ∀ ω, A ω → K ≤ (G ω).card)
    (T : Ω → Y → Ω) (hT : ∀ ω y ω' y', A ω → A ω' → y ∈ G ω → y' ∈ G ω' → T ω y = T ω' y' → ω = ω' ∧ y = y') :
    prob A ≤ 1 / K := by
  classical
  have h1 : (Finset.univ.filter A).card * K ≤ ((Finset.univ.filter A).sigma G).card := by
    rw [Finset.card_sigma]
    have := Finset.card_nsmul_le_sum (Finset.univ.filter A) (fun ω => (G ω).card) K (fun ω hω => hG ω (Finset.mem_filter.mp hω).2)
    rwa [nsmul_eq_mul, Nat.cast_id] at this
  have h2 : ((Finset.univ.filter A).sigma G).card ≤ Fintype.card Ω := by
    refine Finset.card_le_card_of_injOn (fun x => T x.1 x.2) (fun _ _ => Finset.mem_coe.mpr (Finset.mem_univ _)) ?_
    rintro ⟨ω, y⟩ hx ⟨ω', y'⟩ hx' he
    simp only [Finset.coe_sigma, Set.mem_sigma_iff, Finset.mem_coe, Finset.mem_filter, Finset.mem_univ, true_and] at hx hx'
    obtain ⟨rfl, rfl⟩ := hT ω y ω' y' hx.1 hx'.1 hx.2 hx'.2 he
    rfl
  unfold prob
  rw [card_filter_eq]
  have hK' : (0 : ℚ) < K := by exact_mod_cast hK
  rcases Nat.eq_zero_or_pos (Fintype.card Ω) with h0 | h0
  · rw [h0]; simp
  · have h0' : (0 : ℚ) < Fintype.card Ω := by exact_mod_cast h0
    rw [div_le_div_iff₀ h0' hK', one_mul]
    exact_mod_cast h1.trans h2

end

end Verif.Ideal
