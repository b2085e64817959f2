import Verif.Ideal.Oracle

/-!
# Secret points that lead to each other

As in `Verif.Ideal.Oracle`, but the answer for a point `x` also tells another point, `other x`, as when a permutation is evaluated that
the observer cannot invert. The secret points have levels: a secret point of level `l` is told by the answer for the one of level `l + 1`
only. Secrets of the levels below `n` matter; those of the levels below `n + q` have to be guessed first to climb down in `q` steps.
-/

namespace Verif.Ideal

variable {C Obs A X ι κ : Type} {Ω : Type*} [Fintype Ω] [Fintype X] [DecidableEq X]

/-- The secret points: as `Secrecy`, with the point `other x` told by the answer for `x`. -/
structure Chained (Ω C Obs A X ι κ : Type*) where
  /-- the part of the choice that is known -/
  known : Ω → κ
  /-- what is seen of commands -/
  v : Ω → List C → List Obs
  /-- what the observer can evaluate -/
  ask : Ω → X → A
  /-- the other point that is told by the answer -/
  other : Ω → X → X
  allowed : List C → Prop
  good : Ω → Prop
  I : Finset ι
  level : ι → Nat
  /-- the number of levels -/
  L : Nat
  point : ι → Ω → X
  told : ι → Ω → List C → Prop
  move : ι → Ω → X → Ω
  allowed_nil : allowed []
  v_prefix : ∀ ω P Q, Q <+: P → v ω Q = (v ω P).take Q.length
  told_mono : ∀ i ω P Q, Q <+: P → told i ω Q → told i ω P
  known_move : ∀ i ω y, known (move i ω y) = known ω
  point_move : ∀ i ω y, point i (move i ω y) = y
  move_move : ∀ i ω y, move i (move i ω y) (point i ω) = ω
  v_move : ∀ i ∈ I, ∀ ω y, good ω → (∀ j ∈ I, y ≠ point j ω) → ∀ P, allowed P → ¬ told i ω P → v (move i ω y) P = v ω P
  ask_move : ∀ i ω y x, x ≠ point i ω → x ≠ y → other ω x ≠ point i ω → other ω x ≠ y → ask (move i ω y) x = ask ω x
  other_point : ∀ i ∈ I, ∀ ω x, good ω → other ω x = point i ω → level i + 1 < L →
    ∃ i' ∈ I, x = point i' ω ∧ level i' = level i + 1 ∧ ∀ P, allowed P → told i' ω P → told i ω P

variable (s : Chained Ω C Obs A X ι κ)

/-- The rules for commands; any points may be asked for. -/
def Chained.rules (S : List (C ⊕ X)) : Prop := s.allowed (cmdsOf S)

omit [Fintype Ω] [Fintype X] [DecidableEq X] in
theorem Chained.rules_nil : s.rules [] := s.allowed_nil

/-- The steps of the observer -/
noncomputable def Chained.steps (σ : κ → List (Obs ⊕ A) → Option (C ⊕ X)) (ω : Ω) (n : Nat) : List (C ⊕ X) :=
  play s.rules (σ (s.known ω)) (oview (s.v ω) (s.ask ω)) n

/-- The observer asks for a secret point of a level below `n`. -/
def Chained.Guess (n : Nat) (S : List (C ⊕ X)) (ω : Ω) : Prop :=
  ∃ i ∈ s.I, s.level i < n ∧ .inr (s.point i ω) ∈ S ∧ ¬ s.told i ω (cmdsOf S)

/-- The point number `i` is asked for at the step number `j`, while it is a secret; and its level can still be reached. -/
def Chained.AskAt (σ : κ → List (Obs ⊕ A) → Option (C ⊕ X)) (j : Nat) (i : ι) (ω : Ω) : Prop :=
  s.steps σ ω (j + 1) = s.steps σ ω j ++ [.inr (s.point i ω)] ∧ ¬ s.told i ω (cmdsOf (s.steps σ ω j)) ∧ s.level i + j < s.L

/-- It is the first such point. -/
def Chained.GuessAt (σ : κ → List (Obs ⊕ A) → Option (C ⊕ X)) (j : Nat) (i : ι) (ω : Ω) : Prop :=
  s.good ω ∧ s.AskAt σ j i ω ∧ ∀ j' < j, ∀ i' ∈ s.I, ¬ s.AskAt σ j' i' ω

/-- The points told by the answers -/
def Chained.others (ω : Ω) (S : List (C ⊕ X)) : Finset X := (asked S).image (s.other ω)

omit [Fintype Ω] [Fintype X] [DecidableEq X] in
/-- Before the first guess, the point was neither asked for nor told by an answer. -/
theorem Chained.fresh (σ : κ → List (Obs ⊕ A) → Option (C ⊕ X)) (j : Nat) (i : ι) (hi : i ∈ s.I) (ω : Ω)
    (h : s.GuessAt σ j i ω) (x : X) (hx : .inr x ∈ s.steps σ ω j) : x ≠ s.point i ω ∧ s.other ω x ≠ s.point i ω := by
  obtain ⟨hg, ⟨-, ht, hl⟩, hno⟩ := h
  obtain ⟨k, hk, h1, -⟩ := mem_play hx
  change s.steps σ ω (k + 1) = s.steps σ ω k ++ _ at h1
  have hall : s.allowed (cmdsOf (s.steps σ ω k)) := play_allowed s.rules_nil _ _ _
  have htk : ¬ s.told i ω (cmdsOf (s.steps σ ω k)) := fun hc =>
    ht (s.told_mono i ω _ _ (cmdsOf_prefix (play_prefix _ _ _ (Nat.le_of_lt hk))) hc)
  constructor
  · rintro rfl
    exact hno k hk i hi ⟨h1, htk, by omega⟩
  · intro he
    obtain ⟨i', hi', rfl, hl', ht'⟩ := s.other_point i hi ω x hg he (by omega)
    exact hno k hk i' hi' ⟨h1, fun hc => htk (ht' _ hall hc), by omega⟩

omit [Fintype Ω] [Fintype X] in
/-- Before the guess, the exchange is not seen. -/
theorem Chained.steps_move (σ : κ → List (Obs ⊕ A) → Option (C ⊕ X)) (j : Nat) (i : ι) (hi : i ∈ s.I) (ω : Ω) (y : X)
    (h : s.GuessAt σ j i ω) (hy : y ∉ asked (s.steps σ ω j)) (hyo : y ∉ s.others ω (s.steps σ ω j)) (hy' : ∀ k ∈ s.I, y ≠ s.point k ω) :
    s.steps σ (s.move i ω y) j = s.steps σ ω j ∧ s.steps σ (s.move i ω y) (j + 1) = s.steps σ ω (j + 1) := by
  have hfresh := s.fresh σ j i hi ω h
  obtain ⟨hg, ⟨-, h3, -⟩, -⟩ := h
  have hall : s.allowed (cmdsOf (s.steps σ ω j)) := play_allowed s.rules_nil _ _ _
  have hv : oview (s.v ω) (s.ask ω) (s.steps σ ω j) =
      oview (s.v (s.move i ω y)) (s.ask (s.move i ω y)) (s.steps σ ω j) := by
    unfold oview
    rw [s.v_move i hi ω y hg hy' _ hall h3]
    refine answers_congr (fun x hx => (s.ask_move i ω y x (hfresh x hx).1 ?_ (hfresh x hx).2 ?_).symm) _
    · rintro rfl; exact hy (mem_asked hx)
    · rintro rfl; exact hyo (Finset.mem_image_of_mem _ (mem_asked hx))
  have hj : s.steps σ (s.move i ω y) j = s.steps σ ω j := by
    unfold Chained.steps
    rw [s.known_move]
    refine play_congr _ _ _ j (fun Q hQ => ?_)
    rw [oview_prefix (s.v_prefix ω) _ _ _ hQ, oview_prefix (s.v_prefix _) _ _ _ hQ]
    exact congrArg _ hv
  refine ⟨hj, ?_⟩
  change next _ (s.steps σ (s.move i ω y) j) (σ (s.known (s.move i ω y)) (oview _ _ (s.steps σ (s.move i ω y) j))) =
    next _ (s.steps σ ω j) (σ (s.known ω) (oview _ _ (s.steps σ ω j)))
  rw [hj, hv, s.known_move]

set_option linter.constructorNameAsVariable false in
theorem Chained.prob_guessAt_le (σ : κ → List (Obs ⊕ A) → Option (C ⊕ X)) (j : Nat) (i : ι) (hi : i ∈ s.I)
    (K : Nat) (hK : 0 < K) (hle : K + (2 * j + s.I.card) ≤ Fintype.card X) : prob (s.GuessAt σ j i) ≤ 1 / K := by
  refine prob_le_of_changes (Y := X) (s.GuessAt σ j i)
    (fun ω => Finset.univ \ (asked (s.steps σ ω j) ∪ s.others ω (s.steps σ ω j) ∪ s.I.image (s.point · ω))) K hK ?_
    (fun ω y => s.move i ω y) ?_
  · intro ω _
    have h1 := Finset.le_card_sdiff (asked (s.steps σ ω j) ∪ s.others ω (s.steps σ ω j) ∪ s.I.image (s.point · ω)) Finset.univ
    have h2 := Finset.card_union_le (asked (s.steps σ ω j) ∪ s.others ω (s.steps σ ω j)) (s.I.image (s.point · ω))
    have h5 := Finset.card_union_le (asked (s.steps σ ω j)) (s.others ω (s.steps σ ω j))
    have h3 : (asked (s.steps σ ω j)).card ≤ j := le_trans (card_asked_le (s.steps σ ω j)) (length_play_le _ _ _ _)
    have h6 : (s.others ω (s.steps σ ω j)).card ≤ (asked (s.steps σ ω j)).card := Finset.card_image_le
    have h4 : (s.I.image (s.point · ω)).card ≤ s.I.card := Finset.card_image_le
    rw [Finset.card_univ] at h1
    omega
  · intro ω y ω' y' hA hA' hy hy' he
    simp only [Finset.mem_sdiff, Finset.mem_univ, true_and, Finset.mem_union, not_or] at hy hy'
    have hpt : ∀ ω y, y ∉ s.I.image (s.point · ω) → ∀ k ∈ s.I, y ≠ s.point k ω :=
      fun ω y h k hk e => h (Finset.mem_image.mpr ⟨k, hk, e.symm⟩)
    obtain ⟨k1, k2⟩ := s.steps_move σ j i hi ω y hA hy.1.1 hy.1.2 (hpt _ _ hy.2)
    obtain ⟨k1', k2'⟩ := s.steps_move σ j i hi ω' y' hA' hy'.1.1 hy'.1.2 (hpt _ _ hy'.2)
    have hyy : y = y' := by rw [← s.point_move i ω y, he, s.point_move]
    have hx : s.point i ω = s.point i ω' := by
      have e3 : s.steps σ ω (j + 1) = s.steps σ ω' (j + 1) := by rw [← k2, ← k2', he]
      have e4 : s.steps σ ω j = s.steps σ ω' j := by rw [← k1, ← k1', he]
      rw [hA.2.1.1, hA'.2.1.1, e4] at e3
      simpa using e3
    refine ⟨?_, hyy⟩
    rw [← s.move_move i ω y, he, hx, s.move_move]

/-- The bound on the probability of a guess in `q` steps, for `k` secrets among `N` points, when answers tell another point -/
def chainBound (N k q : Nat) : ℚ := (q : ℚ) * k / (N - 2 * q - k)

theorem Chained.prob_guess_le (σ : κ → List (Obs ⊕ A) → Option (C ⊕ X)) (n q : Nat) (hL : s.L = n + q)
    (hq : 2 * q + s.I.card < Fintype.card X) :
    prob (fun ω => s.good ω ∧ s.Guess n (s.steps σ ω q) ω) ≤ chainBound (Fintype.card X) s.I.card q := by
  classical
  obtain ⟨K, hK⟩ : ∃ K, K + (2 * q + s.I.card) = Fintype.card X := ⟨Fintype.card X - (2 * q + s.I.card), by omega⟩
  refine le_trans (prob_mono (q := fun ω => ∃ x ∈ Finset.range q ×ˢ s.I, s.GuessAt σ x.1 x.2 ω) ?_)
    (le_trans (prob_exists_le _ _ (1 / K) ?_) ?_)
  · rintro ω ⟨hg, i, hi, hl, hx, he⟩
    obtain ⟨j, hj, h1, h2⟩ := mem_play hx
    have hex : ∃ j, ∃ i ∈ s.I, s.AskAt σ j i ω := by
      refine ⟨j, i, hi, h1, fun ht => he (s.told_mono i ω _ _ (cmdsOf_prefix ?_) ht), by omega⟩
      exact play_prefix _ _ _ (Nat.le_of_lt hj)
    have hmin : Nat.find hex ≤ j := by
      refine Nat.find_min' hex ⟨i, hi, h1, fun ht => he (s.told_mono i ω _ _ (cmdsOf_prefix ?_) ht), by omega⟩
      exact play_prefix _ _ _ (Nat.le_of_lt hj)
    obtain ⟨i', hi', h'⟩ := Nat.find_spec hex
    refine ⟨(Nat.find hex, i'), ?_, hg, h', fun j' hj' k hk hc => Nat.find_min hex hj' ⟨k, hk, hc⟩⟩
    simp only [Finset.mem_product, Finset.mem_range]
    exact ⟨by omega, hi'⟩
  · rintro ⟨j, i⟩ hx
    simp only [Finset.mem_product, Finset.mem_range] at hx
    exact s.prob_guessAt_le σ j i hx.2 K (by omega) (by omega)
  · rw [Finset.card_product, Finset.card_range]
    have : (K : ℚ) = Fintype.card X - 2 * q - s.I.card := by
      have : (K : ℚ) + (2 * q + s.I.card) = Fintype.card X := by exact_mod_cast hK
      linarith
    unfold chainBound
    rw [← this, mul_one_div]
    push_cast
    exact le_rfl

/-- Observers who see commands by `v₀` or by `v`, and evaluate functions themselves: the advantage is at most the probability of
choices that are not good, and the bound for guesses, if for all commands there is a permutation of the choices that turns the one
view into the other and that does not change the functions at points that are no secrets of the levels below `n`. -/
theorem Chained.dist [Nonempty Ω] (v₀ : Ω → List C → List Obs) (hp₀ : ∀ ω P Q, Q <+: P → v₀ ω Q = (v₀ ω P).take Q.length) (n : Nat)
    (hπ : ∀ P, s.allowed P → ∃ π : Ω → Ω, Function.Injective π ∧ (∀ ω, s.known (π ω) = s.known ω) ∧ ∀ ω, s.good ω →
      v₀ (π ω) P = s.v ω P ∧ ∀ x, (∀ i ∈ s.I, s.level i < n → x = s.point i ω → s.told i ω P) → s.ask (π ω) x = s.ask ω x)
    (σ : κ → List (Obs ⊕ A) → Option (C ⊕ X)) (q : Nat) (hL : s.L = n + q) (hq : 2 * q + s.I.card < Fintype.card X)
    (E : κ → List (Obs ⊕ A) → Prop) :
    |prob (fun ω => E (s.known ω) (oview (v₀ ω) (s.ask ω) (play s.rules (σ (s.known ω)) (oview (v₀ ω) (s.ask ω)) q))) -
        prob (fun ω => E (s.known ω) (oview (s.v ω) (s.ask ω) (play s.rules (σ (s.known ω)) (oview (s.v ω) (s.ask ω)) q)))| ≤
      prob (fun ω => ¬ s.good ω) + chainBound (Fintype.card X) s.I.card q := by
  classical
  have hex : ∀ S : List (C ⊕ X), ∃ π : Ω → Ω, s.rules S → Function.Injective π ∧ (∀ ω, s.known (π ω) = s.known ω) ∧
      ∀ ω, ¬ (¬ s.good ω ∨ s.good ω ∧ s.Guess n S ω) → oview (v₀ (π ω)) (s.ask (π ω)) S = oview (s.v ω) (s.ask ω) S := by
    intro S
    by_cases hS : s.rules S
    · obtain ⟨π, h1, h2, h3⟩ := hπ _ hS
      refine ⟨π, fun _ => ⟨h1, h2, fun ω hω => ?_⟩⟩
      rw [not_or, not_not, not_and] at hω
      obtain ⟨hv, hx⟩ := h3 ω hω.1
      unfold oview
      rw [hv]
      refine answers_congr (fun x hxS => hx x (fun i hi hl he => ?_)) _
      by_contra hc
      exact hω.2 hω.1 ⟨i, hi, hl, he ▸ hxS, hc⟩
    · exact ⟨id, fun h => absurd h hS⟩
  choose π hπ using hex
  exact le_trans (adaptive_dist_at s.known s.rules_nil (fun ω S => oview (v₀ ω) (s.ask ω) S) (fun ω S => oview (s.v ω) (s.ask ω) S)
    (fun ω => oview_prefix (hp₀ ω) _) (fun ω => oview_prefix (s.v_prefix ω) _) π (fun S hS => (hπ S hS).1)
    (fun S ω hS => (hπ S hS).2.1 ω) (fun S ω => ¬ s.good ω ∨ s.good ω ∧ s.Guess n S ω) (fun S hS => (hπ S hS).2.2) σ q E)
    (prob_or_le le_rfl (s.prob_guess_le σ n q hL hq))

end Verif.Ideal
