import Verif.Ideal.Adaptive

/-!
# Observers who evaluate functions themselves

The steps of an observer are commands, or points at which the observer evaluates a function. Some points are secret: the observer
learns from a guess of such a point more than from the commands. Guesses succeed with a small probability, if the secret points can be
exchanged with other points without a change of what is seen.
-/

namespace Verif.Ideal

section

variable {C Obs A X : Type}

/-- The commands among the steps -/
def cmdsOf (S : List (C ⊕ X)) : List C := S.filterMap Sum.getLeft?

/-- What the observer sees: for a command what is seen of it, for a point the value of the function -/
def answers (ask : X → A) : List (C ⊕ X) → List Obs → List (Obs ⊕ A)
  | [], _ => []
  | .inr x :: S, vs => .inr (ask x) :: answers ask S vs
  | .inl _ :: _, [] => []
  | .inl _ :: S, v :: vs => .inl v :: answers ask S vs

/-- What the observer sees of the steps, if `v` gives what is seen of commands -/
def oview (v : List C → List Obs) (ask : X → A) (S : List (C ⊕ X)) : List (Obs ⊕ A) := answers ask S (v (cmdsOf S))

theorem cmdsOf_append (S S' : List (C ⊕ X)) : cmdsOf (S ++ S') = cmdsOf S ++ cmdsOf S' := by
  simp [cmdsOf, List.filterMap_append]

theorem cmdsOf_prefix {S S' : List (C ⊕ X)} (h : S <+: S') : cmdsOf S <+: cmdsOf S' := by
  obtain ⟨R, rfl⟩ := h
  rw [cmdsOf_append]
  exact List.prefix_append _ _

theorem answers_take (ask : X → A) (Q R : List (C ⊕ X)) : ∀ vs : List Obs,
    (answers ask (Q ++ R) vs).take Q.length = answers ask Q (vs.take (cmdsOf Q).length) := by
  induction Q with
  | nil => intro vs; rfl
  | cons s Q ih =>
    intro vs
    cases s with
    | inr x => simpa [answers, cmdsOf, List.filterMap_cons] using ih vs
    | inl c =>
      cases vs with
      | nil => simp [answers, cmdsOf]
      | cons v vs => simpa [answers, cmdsOf] using ih vs

theorem oview_prefix {v : List C → List Obs} (hv : ∀ P Q, Q <+: P → v Q = (v P).take Q.length) (ask : X → A) (P Q : List (C ⊕ X))
    (h : Q <+: P) : oview v ask Q = (oview v ask P).take Q.length := by
  unfold oview
  rw [hv _ _ (cmdsOf_prefix h)]
  obtain ⟨R, rfl⟩ := h
  rw [answers_take]

/-- The answers are the same if what is seen of the commands is the same, and the functions are the same at the points asked for. -/
theorem answers_congr {ask ask' : X → A} {S : List (C ⊕ X)} (h : ∀ x, .inr x ∈ S → ask x = ask' x) :
    ∀ vs : List Obs, answers ask S vs = answers ask' S vs := by
  induction S with
  | nil => intro vs; rfl
  | cons s S ih =>
    intro vs
    have ih := ih (fun x hx => h x (List.mem_cons_of_mem _ hx))
    cases s with
    | inr x => simp only [answers, ih, h x List.mem_cons_self]
    | inl c =>
      cases vs with
      | nil => rfl
      | cons v vs => simp only [answers, ih]

/-- The points asked for -/
def asked [DecidableEq X] (S : List (C ⊕ X)) : Finset X := (S.filterMap Sum.getRight?).toFinset

theorem card_asked_le [DecidableEq X] (S : List (C ⊕ X)) : (asked S).card ≤ S.length :=
  le_trans (List.toFinset_card_le _) (List.length_filterMap_le _ _)

theorem mem_asked [DecidableEq X] {S : List (C ⊕ X)} {x : X} (h : .inr x ∈ S) : x ∈ asked S :=
  List.mem_toFinset.mpr (List.mem_filterMap.mpr ⟨_, h, rfl⟩)

end

section

variable {C Obs A X ι κ : Type} {Ω : Type*} [Fintype Ω] [Fintype X] [DecidableEq X]

/-- The secret points: `point i` is the point number `i` of `I`; it is no secret any more after commands with `told i`. With `move i`
it can be exchanged with another point, and this is not seen as long as the point is a secret, and neither of the two points was
asked for; but the choice has to be `good`. -/
structure Secrecy (Ω C Obs A X ι κ : Type*) where
  /-- the part of the choice that is known -/
  known : Ω → κ
  /-- what is seen of commands -/
  v : Ω → List C → List Obs
  /-- what the observer can evaluate -/
  ask : Ω → X → A
  allowed : List C → Prop
  good : Ω → Prop
  I : Finset ι
  point : ι → Ω → X
  told : ι → Ω → List C → Prop
  move : ι → Ω → X → Ω
  allowed_nil : allowed []
  v_prefix : ∀ ω P Q, Q <+: P → v ω Q = (v ω P).take Q.length
  told_mono : ∀ i ω P Q, Q <+: P → told i ω Q → told i ω P
  known_move : ∀ i ω y, known (move i ω y) = known ω
  point_move : ∀ i ω y, point i (move i ω y) = y
  move_move : ∀ i ω y, move i (move i ω y) (point i ω) = ω
  v_move : ∀ i ∈ I, ∀ ω y, good ω → (∀ j ∈ I, y ≠ point j ω) → ∀ P, allowed P → ¬ told i ω P → v (move i ω y) P = v ω P
  ask_move : ∀ i ω y x, x ≠ point i ω → x ≠ y → ask (move i ω y) x = ask ω x

variable (s : Secrecy Ω C Obs A X ι κ)

/-- The rules for commands; any points may be asked for. -/
def Secrecy.rules (S : List (C ⊕ X)) : Prop := s.allowed (cmdsOf S)

omit [Fintype Ω] [Fintype X] [DecidableEq X] in
theorem Secrecy.rules_nil : s.rules [] := s.allowed_nil

/-- The observer asks for a secret point. -/
def Secrecy.Guess (S : List (C ⊕ X)) (ω : Ω) : Prop := ∃ i ∈ s.I, .inr (s.point i ω) ∈ S ∧ ¬ s.told i ω (cmdsOf S)

/-- The steps of the observer -/
noncomputable def Secrecy.steps (σ : κ → List (Obs ⊕ A) → Option (C ⊕ X)) (ω : Ω) (n : Nat) : List (C ⊕ X) :=
  play s.rules (σ (s.known ω)) (oview (s.v ω) (s.ask ω)) n

/-- The point number `i` is guessed for the first time at the step number `j`. -/
def Secrecy.GuessAt (σ : κ → List (Obs ⊕ A) → Option (C ⊕ X)) (j : Nat) (i : ι) (ω : Ω) : Prop :=
  s.good ω ∧ s.steps σ ω (j + 1) = s.steps σ ω j ++ [.inr (s.point i ω)] ∧ .inr (s.point i ω) ∉ s.steps σ ω j ∧
    ¬ s.told i ω (cmdsOf (s.steps σ ω j))

omit [Fintype Ω] [Fintype X] in
/-- Before the guess, the exchange is not seen. -/
theorem Secrecy.steps_move (σ : κ → List (Obs ⊕ A) → Option (C ⊕ X)) (j : Nat) (i : ι) (hi : i ∈ s.I) (ω : Ω) (y : X)
    (h : s.GuessAt σ j i ω) (hy : y ∉ asked (s.steps σ ω j)) (hy' : ∀ k ∈ s.I, y ≠ s.point k ω) :
    s.steps σ (s.move i ω y) j = s.steps σ ω j ∧ s.steps σ (s.move i ω y) (j + 1) = s.steps σ ω (j + 1) := by
  obtain ⟨hg, -, h2, h3⟩ := h
  have hall : s.allowed (cmdsOf (s.steps σ ω j)) := play_allowed s.rules_nil _ _ _
  have hv : oview (s.v ω) (s.ask ω) (s.steps σ ω j) =
      oview (s.v (s.move i ω y)) (s.ask (s.move i ω y)) (s.steps σ ω j) := by
    unfold oview
    rw [s.v_move i hi ω y hg hy' _ hall h3]
    refine answers_congr (fun x hx => (s.ask_move i ω y x ?_ ?_).symm) _
    · rintro rfl; exact h2 hx
    · rintro rfl; exact hy (mem_asked hx)
  have hj : s.steps σ (s.move i ω y) j = s.steps σ ω j := by
    unfold Secrecy.steps
    rw [s.known_move]
    refine play_congr _ _ _ j (fun Q hQ => ?_)
    rw [oview_prefix (s.v_prefix ω) _ _ _ hQ, oview_prefix (s.v_prefix _) _ _ _ hQ]
    exact congrArg _ hv
  refine ⟨hj, ?_⟩
  change next _ (s.steps σ (s.move i ω y) j) (σ (s.known (s.move i ω y)) (oview _ _ (s.steps σ (s.move i ω y) j))) =
    next _ (s.steps σ ω j) (σ (s.known ω) (oview _ _ (s.steps σ ω j)))
  rw [hj, hv, s.known_move]

set_option linter.constructorNameAsVariable false in
theorem Secrecy.prob_guessAt_le (σ : κ → List (Obs ⊕ A) → Option (C ⊕ X)) (j : Nat) (i : ι) (hi : i ∈ s.I)
    (K : Nat) (hK : 0 < K) (hle : K + (j + s.I.card) ≤ Fintype.card X) : prob (s.GuessAt σ j i) ≤ 1 / K := by
  refine prob_le_of_changes (Y := X) _ (fun ω => Finset.univ \ (asked (s.steps σ ω j) ∪ s.I.image (s.point · ω))) K hK ?_
    (fun ω y => s.move i ω y) ?_
  · intro ω _
    have h1 := Finset.le_card_sdiff (asked (s.steps σ ω j) ∪ s.I.image (s.point · ω)) Finset.univ
    have h2 := Finset.card_union_le (asked (s.steps σ ω j)) (s.I.image (s.point · ω))
    have h3 := le_trans (card_asked_le (s.steps σ ω j)) (length_play_le _ _ _ _)
    have h4 : (s.I.image (s.point · ω)).card ≤ s.I.card := Finset.card_image_le
    rw [Finset.card_univ] at h1
    omega
  · intro ω y ω' y' hA hA' hy hy' he
    simp only [Finset.mem_sdiff, Finset.mem_univ, true_and, Finset.mem_union, not_or, Finset.mem_image, not_exists, not_and] at hy hy'
    obtain ⟨k1, k2⟩ := s.steps_move σ j i hi ω y hA hy.1 (fun k hk e => hy.2 k hk e.symm)
    obtain ⟨k1', k2'⟩ := s.steps_move σ j i hi ω' y' hA' hy'.1 (fun k hk e => hy'.2 k hk e.symm)
    have hyy : y = y' := by rw [← s.point_move i ω y, he, s.point_move]
    have hx : s.point i ω = s.point i ω' := by
      have e3 : s.steps σ ω (j + 1) = s.steps σ ω' (j + 1) := by rw [← k2, ← k2', he]
      have e4 : s.steps σ ω j = s.steps σ ω' j := by rw [← k1, ← k1', he]
      rw [hA.2.1, hA'.2.1, e4] at e3
      simpa using e3
    refine ⟨?_, hyy⟩
    rw [← s.move_move i ω y, he, hx, s.move_move]

/-- The bound on the probability of a guess in `q` steps, for `k` secrets among `N` points -/
def guessBound (N k q : Nat) : ℚ := (q : ℚ) * k / (N - q - k)

theorem Secrecy.prob_guess_le (σ : κ → List (Obs ⊕ A) → Option (C ⊕ X)) (q : Nat) (hq : q + s.I.card < Fintype.card X) :
    prob (fun ω => s.good ω ∧ s.Guess (s.steps σ ω q) ω) ≤ guessBound (Fintype.card X) s.I.card q := by
  obtain ⟨K, hK⟩ : ∃ K, K + (q + s.I.card) = Fintype.card X := ⟨Fintype.card X - (q + s.I.card), by omega⟩
  refine le_trans (prob_mono (q := fun ω => ∃ x ∈ Finset.range q ×ˢ s.I, s.GuessAt σ x.1 x.2 ω) ?_)
    (le_trans (prob_exists_le _ _ (1 / K) ?_) ?_)
  · rintro ω ⟨hg, i, hi, hx, he⟩
    obtain ⟨j, hj, h1, h2⟩ := mem_play hx
    refine ⟨(j, i), ?_, hg, h1, h2, fun ht => he (s.told_mono i ω _ _ (cmdsOf_prefix ?_) ht)⟩
    · simp only [Finset.mem_product, Finset.mem_range]
      exact ⟨hj, hi⟩
    · exact play_prefix _ _ _ (Nat.le_of_lt hj)
  · rintro ⟨j, i⟩ hx
    simp only [Finset.mem_product, Finset.mem_range] at hx
    exact s.prob_guessAt_le σ j i hx.2 K (by omega) (by omega)
  · rw [Finset.card_product, Finset.card_range]
    have : (K : ℚ) = Fintype.card X - q - s.I.card := by
      have : (K : ℚ) + (q + s.I.card) = Fintype.card X := by exact_mod_cast hK
      linarith
    unfold guessBound
    rw [← this, mul_one_div]
    push_cast
    exact le_rfl

/-- Observers who see commands by `v₀` or by `v`, and evaluate functions themselves: the advantage is at most the probability of
choices that are not good, and the bound for guesses, if for all commands there is a permutation of the choices that turns the one
view into the other and that does not change the functions at points that are no secrets. -/
theorem Secrecy.dist [Nonempty Ω] (v₀ : Ω → List C → List Obs) (hp₀ : ∀ ω P Q, Q <+: P → v₀ ω Q = (v₀ ω P).take Q.length)
    (hπ : ∀ P, s.allowed P → ∃ π : Ω → Ω, Function.Injective π ∧ (∀ ω, s.known (π ω) = s.known ω) ∧ ∀ ω, s.good ω →
      v₀ (π ω) P = s.v ω P ∧ ∀ x, (∀ i ∈ s.I, x = s.point i ω → s.told i ω P) → s.ask (π ω) x = s.ask ω x)
    (σ : κ → List (Obs ⊕ A) → Option (C ⊕ X)) (q : Nat) (hq : q + s.I.card < Fintype.card X) (E : κ → List (Obs ⊕ A) → Prop) :
    |prob (fun ω => E (s.known ω) (oview (v₀ ω) (s.ask ω) (play s.rules (σ (s.known ω)) (oview (v₀ ω) (s.ask ω)) q))) -
        prob (fun ω => E (s.known ω) (oview (s.v ω) (s.ask ω) (play s.rules (σ (s.known ω)) (oview (s.v ω) (s.ask ω)) q)))| ≤
      prob (fun ω => ¬ s.good ω) + guessBound (Fintype.card X) s.I.card q := by
  classical
  have hex : ∀ S : List (C ⊕ X), ∃ π : Ω → Ω, s.rules S → Function.Injective π ∧ (∀ ω, s.known (π ω) = s.known ω) ∧
      ∀ ω, ¬ (¬ s.good ω ∨ s.good ω ∧ s.Guess S ω) → oview (v₀ (π ω)) (s.ask (π ω)) S = oview (s.v ω) (s.ask ω) S := by
    intro S
    by_cases hS : s.rules S
    · obtain ⟨π, h1, h2, h3⟩ := hπ _ hS
      refine ⟨π, fun _ => ⟨h1, h2, fun ω hω => ?_⟩⟩
      rw [not_or, not_not, not_and] at hω
      obtain ⟨hv, hx⟩ := h3 ω hω.1
      unfold oview
      rw [hv]
      refine answers_congr (fun x hxS => hx x (fun i hi he => ?_)) _
      by_contra hc
      exact hω.2 hω.1 ⟨i, hi, he ▸ hxS, hc⟩
    · exact ⟨id, fun h => absurd h hS⟩
  choose π hπ using hex
  exact le_trans (adaptive_dist_at s.known s.rules_nil (fun ω S => oview (v₀ ω) (s.ask ω) S) (fun ω S => oview (s.v ω) (s.ask ω) S)
    (fun ω => oview_prefix (hp₀ ω) _) (fun ω => oview_prefix (s.v_prefix ω) _) π (fun S hS => (hπ S hS).1)
    (fun S ω hS => (hπ S hS).2.1 ω) (fun S ω => ¬ s.good ω ∨ s.good ω ∧ s.Guess S ω) (fun S hS => (hπ S hS).2.2) σ q E)
    (prob_or_le le_rfl (s.prob_guess_le σ q hq))

end

end Verif.Ideal
