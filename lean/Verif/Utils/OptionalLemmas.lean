import Verif.Utils.OptionalSpec

/-!
# Lemmas on optional values: the flag and the storage stand for the value
-/

namespace Verif.Optional

variable {V : Type}

/-- Members of a variable with the given content. -/
def enc (o : Option V) : Cell V := ⟨o.isSome, o⟩

/-- Variables with the given content. -/
def encAll (a : Spec.Vars V) : Map Nat (Cell V) := fun i => (a i).map enc

/-- Where an object lives. -/
def livesIn (a : Spec.Vars V) : Nat → Bool := fun i => ((a i).getD none).isSome

theorem lives_append (t : Bool) (es fs : List Ev) (l : Nat → Bool) :
    Spec.lives t (es ++ fs) l = (Spec.lives t es l).bind (Spec.lives t fs) := by
  induction es generalizing l with
  | nil => rfl
  | cons e es ih =>
    cases e <;> simp only [List.cons_append, Spec.lives] <;> split <;> simp_all

/-- The result of an operation is as specified. -/
def Good (t : Bool) (a' : Spec.Vars V) (b : Obs V) : Option (St V × Obs V) → Prop
  | none => False
  | some (s, b') => b' = b ∧ s.cells = encAll a' ∧ Spec.lives t s.log (fun _ => false) = some (livesIn a')

theorem M.bind_apply {α β : Type} (m : M V α) (f : α → M V β) (s : St V) :
    (m >>= f) s = match m s with | .ret s' a => f a s' | .threw s' => .threw s' | .bad => .bad := rfl

theorem M.pure_apply {α : Type} (a : α) (s : St V) : (pure a : M V α) s = .ret s a := rfl

theorem M.ite_apply {α : Type} (c : Prop) [Decidable c] (m m' : M V α) (s : St V) :
    (if c then m else m') s = if c then m s else m' s := by split <;> rfl

/-- Evaluates an operation on variables whose content is known. -/
local macro "crunch" : tactic => `(tactic| (
  simp_all [step, assignCopy, assignMove, assignValue, assignFrom, Optional.emplace, Optional.emplaceFrom,
    Optional.swap, Optional.deref, Optional.value, Optional.valueOr, Optional.takeOr, ctorEmpty, ctorCopy,
    ctorMove, ctorValue, dtor, clear, initValue, initMoved, assertInit, newT, newMoved, assignT, assignMoved,
    swapT, undoIfThrown, alloc, release, construct, destruct, readObj, writeObj, setInit, initialized, M.ub,
    M.throw, M.bind_apply, M.pure_apply, M.ite_apply, encAll, enc, Res.seen, Good, Map.put_apply,
    Map.erase_apply, lives_append, Spec.lives, livesIn] <;>
  (try (refine ⟨?_, ?_⟩)) <;> (try (funext k)) <;>
  (try simp only [encAll, livesIn, Map.put, Map.erase, enc]) <;> grind [enc]))

set_option maxHeartbeats 1000000 in
theorem swap_good (E : Elem V) (a : Spec.Vars V) (f : Fate V) (i j : Nat) (a' : Spec.Vars V) (b : Obs V)
    (h : Spec.step E a f (.swap i j) = some (a', b)) (log : List Ev)
    (hl : Spec.lives E.trivial log (fun _ => false) = some (livesIn a)) :
    Good E.trivial a' b (step E ⟨encAll a, log⟩ f (.swap i j)) := by
  by_cases hij : i = j
  · subst hij
    rcases hi : a i with _ | _ | u <;> cases f <;> simp [Spec.step, hi] at h <;>
      obtain ⟨rfl, rfl⟩ := h <;> crunch
  · have hji : j ≠ i := fun e => hij e.symm
    rcases hi : a i with _ | _ | u <;> rcases hj : a j with _ | _ | v <;> cases f <;>
      simp [Spec.step, hi, hj] at h <;> obtain ⟨rfl, rfl⟩ := h <;> crunch

set_option maxHeartbeats 1000000 in
theorem step_good (E : Elem V) (a : Spec.Vars V) (f : Fate V) (op : Op V) (a' : Spec.Vars V) (b : Obs V)
    (h : Spec.step E a f op = some (a', b)) (log : List Ev)
    (hl : Spec.lives E.trivial log (fun _ => false) = some (livesIn a)) :
    Good E.trivial a' b (step E ⟨encAll a, log⟩ f op) := by
  cases op with
  | empty i =>
    rcases hi : a i with _ | _ | u <;> cases f <;> simp [Spec.step, hi] at h <;> obtain ⟨rfl, rfl⟩ := h <;> crunch
  | endScope i =>
    cases ht : E.trivial <;> rcases hi : a i with _ | _ | u <;> cases f <;> simp [Spec.step, hi] at h <;> obtain ⟨rfl, rfl⟩ := h <;> crunch
  | setNull i =>
    rcases hi : a i with _ | _ | u <;> cases f <;> simp [Spec.step, hi] at h <;> obtain ⟨rfl, rfl⟩ := h <;> crunch
  | hasValue i =>
    rcases hi : a i with _ | _ | u <;> cases f <;> simp [Spec.step, hi] at h <;> obtain ⟨rfl, rfl⟩ := h <;> crunch
  | deref i =>
    rcases hi : a i with _ | _ | u <;> cases f <;> simp [Spec.step, hi] at h <;> obtain ⟨rfl, rfl⟩ := h <;> crunch
  | getValue i =>
    rcases hi : a i with _ | _ | u <;> cases f <;> simp [Spec.step, hi] at h <;> obtain ⟨rfl, rfl⟩ := h <;> crunch
  | value i w =>
    rcases hi : a i with _ | _ | u <;> cases f <;> simp [Spec.step, hi] at h <;> obtain ⟨rfl, rfl⟩ := h <;> crunch
  | setValue i w =>
    rcases hi : a i with _ | _ | u <;> cases f <;> simp [Spec.step, hi] at h <;> obtain ⟨rfl, rfl⟩ := h <;> crunch
  | emplace i w =>
    rcases hi : a i with _ | _ | u <;> cases f <;> simp [Spec.step, hi] at h <;> obtain ⟨rfl, rfl⟩ := h <;> crunch
  | valueOr i w =>
    rcases hi : a i with _ | _ | u <;> cases f <;> simp [Spec.step, hi] at h <;> obtain ⟨rfl, rfl⟩ := h <;> crunch
  | takeOr i w =>
    rcases hi : a i with _ | _ | u <;> cases f <;> simp [Spec.step, hi] at h <;> obtain ⟨rfl, rfl⟩ := h <;> crunch
  | copy i j =>
    by_cases hij : i = j
    · subst hij
      rcases hi : a i with _ | _ | u <;> cases f <;> simp [Spec.step, hi] at h <;>
        obtain ⟨rfl, rfl⟩ := h <;> crunch
    · have hji : j ≠ i := fun e => hij e.symm
      rcases hi : a i with _ | _ | u <;> rcases hj : a j with _ | _ | v <;> cases f <;>
        simp [Spec.step, hi, hj] at h <;> obtain ⟨rfl, rfl⟩ := h <;> crunch
  | move i j =>
    by_cases hij : i = j
    · subst hij
      rcases hi : a i with _ | _ | u <;> cases f <;> simp [Spec.step, hi] at h <;>
        obtain ⟨rfl, rfl⟩ := h <;> crunch
    · have hji : j ≠ i := fun e => hij e.symm
      rcases hi : a i with _ | _ | u <;> rcases hj : a j with _ | _ | v <;> cases f <;>
        simp [Spec.step, hi, hj] at h <;> obtain ⟨rfl, rfl⟩ := h <;> crunch
  | setCopy i j =>
    by_cases hij : i = j
    · subst hij
      rcases hi : a i with _ | _ | u <;> cases f <;> simp [Spec.step, hi] at h <;>
        obtain ⟨rfl, rfl⟩ := h <;> crunch
    · have hji : j ≠ i := fun e => hij e.symm
      rcases hi : a i with _ | _ | u <;> rcases hj : a j with _ | _ | v <;> cases f <;>
        simp [Spec.step, hi, hj] at h <;> obtain ⟨rfl, rfl⟩ := h <;> crunch
  | setMove i j =>
    by_cases hij : i = j
    · subst hij
      rcases hi : a i with _ | _ | u <;> cases f <;> simp [Spec.step, hi] at h <;>
        obtain ⟨rfl, rfl⟩ := h <;> crunch
    · have hji : j ≠ i := fun e => hij e.symm
      rcases hi : a i with _ | _ | u <;> rcases hj : a j with _ | _ | v <;> cases f <;>
        simp [Spec.step, hi, hj, hij] at h <;> obtain ⟨rfl, rfl⟩ := h <;> crunch
  | setFrom i j =>
    by_cases hij : i = j
    · subst hij
      rcases hi : a i with _ | _ | u <;> cases f <;> simp [Spec.step, hi] at h <;>
        obtain ⟨rfl, rfl⟩ := h <;> crunch
    · have hji : j ≠ i := fun e => hij e.symm
      rcases hi : a i with _ | _ | u <;> rcases hj : a j with _ | _ | v <;> cases f <;>
        simp [Spec.step, hi, hj] at h <;> obtain ⟨rfl, rfl⟩ := h <;> crunch
  | emplaceFrom i j =>
    by_cases hij : i = j
    · subst hij
      rcases hi : a i with _ | _ | u <;> cases f <;> simp [Spec.step] at h <;>
        obtain ⟨rfl, rfl⟩ := h <;> crunch
    · have hji : j ≠ i := fun e => hij e.symm
      rcases hi : a i with _ | _ | u <;> rcases hj : a j with _ | _ | v <;> cases f <;>
        simp [Spec.step, hi, hj, hij] at h <;> obtain ⟨rfl, rfl⟩ := h <;> crunch
  | swap i j => exact swap_good E a f i j a' b h log hl

theorem run_good (E : Elem V) (ops : List (Op V × Fate V)) (a : Spec.Vars V) (a' : Spec.Vars V)
    (bs : List (Obs V)) (h : Spec.run E a ops = some (a', bs)) (log : List Ev)
    (hl : Spec.lives E.trivial log (fun _ => false) = some (livesIn a)) :
    ∃ s, run E ⟨encAll a, log⟩ ops = some (s, bs) ∧ s.cells = encAll a' ∧
      Spec.lives E.trivial s.log (fun _ => false) = some (livesIn a') := by
  induction ops generalizing a log bs with
  | nil =>
    simp only [Spec.run, Option.some.injEq, Prod.mk.injEq] at h
    obtain ⟨rfl, rfl⟩ := h
    exact ⟨_, rfl, rfl, hl⟩
  | cons o ops ih =>
    obtain ⟨o, f⟩ := o
    simp only [Spec.run] at h
    split at h
    · cases h
    · rename_i a1 b hs
      split at h
      · cases h
      · rename_i a2 bs' hr
        simp only [Option.some.injEq, Prod.mk.injEq] at h
        obtain ⟨rfl, rfl⟩ := h
        have hg := step_good E a f o a1 b hs log hl
        unfold Good at hg
        split at hg
        · exact hg.elim
        · rename_i s b' hst
          obtain ⟨rfl, hc, hl'⟩ := hg
          obtain ⟨cs, lg⟩ := s
          simp only at hc hl'
          subst hc
          obtain ⟨s', h1, h2⟩ := ih _ _ hr _ hl'
          exact ⟨s', by simp only [run, hst, h1], h2⟩

/-- Evaluates an operation that breaks the contract. -/
local macro "crunch_bad" : tactic => `(tactic| (
  simp_all [step, assignCopy, assignMove, assignValue, assignFrom, Optional.emplace, Optional.emplaceFrom,
    Optional.swap, Optional.deref, Optional.value, Optional.valueOr, Optional.takeOr, ctorEmpty, ctorCopy,
    ctorMove, ctorValue, dtor, clear, initValue, initMoved, assertInit, newT, newMoved, assignT, assignMoved,
    swapT, undoIfThrown, alloc, release, construct, destruct, readObj, writeObj, setInit, initialized, M.ub,
    M.throw, M.bind_apply, M.pure_apply, M.ite_apply, encAll, enc, Res.seen, Map.put_apply,
    Map.erase_apply]))

set_option maxHeartbeats 1000000 in
theorem step_bad (E : Elem V) (a : Spec.Vars V) (f : Fate V) (op : Op V) (hop : Spec.notFromItself op = true)
    (h : Spec.step E a f op = none) (log : List Ev) : step E ⟨encAll a, log⟩ f op = none := by
  cases op with
  | empty i =>
    rcases hi : a i with _ | _ | u <;> cases f <;> simp [Spec.step, hi] at h <;> crunch_bad
  | setNull i =>
    rcases hi : a i with _ | _ | u <;> cases f <;> simp [Spec.step, hi] at h <;> crunch_bad
  | hasValue i =>
    rcases hi : a i with _ | _ | u <;> cases f <;> simp [Spec.step, hi] at h <;> crunch_bad
  | deref i =>
    rcases hi : a i with _ | _ | u <;> cases f <;> simp [Spec.step, hi] at h <;> crunch_bad
  | getValue i =>
    rcases hi : a i with _ | _ | u <;> cases f <;> simp [Spec.step, hi] at h <;> crunch_bad
  | value i w =>
    rcases hi : a i with _ | _ | u <;> cases f <;> simp [Spec.step, hi] at h <;> crunch_bad
  | setValue i w =>
    rcases hi : a i with _ | _ | u <;> cases f <;> simp [Spec.step, hi] at h <;> crunch_bad
  | emplace i w =>
    rcases hi : a i with _ | _ | u <;> cases f <;> simp [Spec.step, hi] at h <;> crunch_bad
  | valueOr i w =>
    rcases hi : a i with _ | _ | u <;> cases f <;> simp [Spec.step, hi] at h <;> crunch_bad
  | takeOr i w =>
    rcases hi : a i with _ | _ | u <;> cases f <;> simp [Spec.step, hi] at h <;> crunch_bad
  | endScope i =>
    cases ht : E.trivial <;> rcases hi : a i with _ | _ | u <;> cases f <;> simp [Spec.step, hi] at h <;> crunch_bad
  | copy i j =>
    have hij : i ≠ j := by simpa [Spec.notFromItself] using hop
    have hji : j ≠ i := fun e => hij e.symm
    rcases hi : a i with _ | _ | u <;> rcases hj : a j with _ | _ | v <;> cases f <;>
      simp [Spec.step, hi, hj] at h <;> crunch_bad
  | move i j =>
    have hij : i ≠ j := by simpa [Spec.notFromItself] using hop
    have hji : j ≠ i := fun e => hij e.symm
    rcases hi : a i with _ | _ | u <;> rcases hj : a j with _ | _ | v <;> cases f <;>
      simp [Spec.step, hi, hj] at h <;> crunch_bad
  | setCopy i j =>
    by_cases hij : i = j
    · subst hij
      rcases hi : a i with _ | _ | u <;> cases f <;> simp [Spec.step, hi] at h <;> crunch_bad
    · have hji : j ≠ i := fun e => hij e.symm
      rcases hi : a i with _ | _ | u <;> rcases hj : a j with _ | _ | v <;> cases f <;>
        simp [Spec.step, hi, hj, hij] at h <;> crunch_bad
  | setMove i j =>
    by_cases hij : i = j
    · subst hij
      rcases hi : a i with _ | _ | u <;> cases f <;> simp [Spec.step, hi] at h <;> crunch_bad
    · have hji : j ≠ i := fun e => hij e.symm
      rcases hi : a i with _ | _ | u <;> rcases hj : a j with _ | _ | v <;> cases f <;>
        simp [Spec.step, hi, hj, hij] at h <;> crunch_bad
  | setFrom i j =>
    by_cases hij : i = j
    · subst hij
      rcases hi : a i with _ | _ | u <;> cases f <;> simp [Spec.step, hi] at h <;> crunch_bad
    · have hji : j ≠ i := fun e => hij e.symm
      rcases hi : a i with _ | _ | u <;> rcases hj : a j with _ | _ | v <;> cases f <;>
        simp [Spec.step, hi, hj, hij] at h <;> crunch_bad
  | emplaceFrom i j =>
    by_cases hij : i = j
    · subst hij
      rcases hi : a i with _ | _ | u <;> cases f <;> simp [Spec.step, hi] at h <;> crunch_bad
    · have hji : j ≠ i := fun e => hij e.symm
      rcases hi : a i with _ | _ | u <;> rcases hj : a j with _ | _ | v <;> cases f <;>
        simp [Spec.step, hi, hj, hij] at h <;> crunch_bad
  | swap i j =>
    by_cases hij : i = j
    · subst hij
      rcases hi : a i with _ | _ | u <;> cases f <;> simp [Spec.step, hi] at h <;> crunch_bad
    · have hji : j ≠ i := fun e => hij e.symm
      rcases hi : a i with _ | _ | u <;> rcases hj : a j with _ | _ | v <;> cases f <;>
        simp [Spec.step, hi, hj, hij] at h <;> crunch_bad

theorem run_bad (E : Elem V) (ops : List (Op V × Fate V)) (hops : ∀ o ∈ ops, Spec.notFromItself o.1 = true) (a : Spec.Vars V)
    (h : Spec.run E a ops = none) (log : List Ev)
    (hl : Spec.lives E.trivial log (fun _ => false) = some (livesIn a)) : run E ⟨encAll a, log⟩ ops = none := by
  induction ops generalizing a log with
  | nil => cases h
  | cons o ops ih =>
    obtain ⟨o, f⟩ := o
    simp only [Spec.run] at h
    simp only [run]
    split at h
    · rename_i hs
      rw [step_bad E a f o (hops (o, f) (by simp)) hs log]
    · rename_i a1 b hs
      split at h
      · rename_i hr
        have hg := step_good E a f o a1 b hs log hl
        unfold Good at hg
        split at hg
        · exact hg.elim
        · rename_i s b' hst
          obtain ⟨rfl, hc, hl'⟩ := hg
          obtain ⟨cs, lg⟩ := s
          simp only at hc hl'
          subst hc
          simp only [hst, ih (fun o ho => hops o (by simp [ho])) _ hr _ hl']
      · cases h

theorem lives_count (i : Nat) (es : List Ev) (l l' : Nat → Bool) (h : Spec.lives false es l = some l') :
    Spec.built i es + (l i).toNat = Spec.destroyed i es + (l' i).toNat := by
  induction es generalizing l with
  | nil =>
    simp only [Spec.lives, Option.some.injEq] at h
    subst h
    rfl
  | cons e es ih =>
    cases e with
    | ctor k =>
      simp only [Spec.lives] at h
      split at h
      · cases h
      · have := ih _ h
        by_cases hk : i = k
        · subst hk
          simp_all [Spec.built, Spec.destroyed]
        · have hk' : ¬ k = i := fun e => hk e.symm
          simp_all [Spec.built, Spec.destroyed]
    | dtor k =>
      simp only [Spec.lives] at h
      split at h
      · have := ih _ h
        by_cases hk : i = k
        · subst hk
          simp_all [Spec.built, Spec.destroyed]
          omega
        · have hk' : ¬ k = i := fun e => hk e.symm
          simp_all [Spec.built, Spec.destroyed]
      · cases h
    | gone k =>
      simp only [Spec.lives] at h
      split at h
      · cases h
      · have := ih _ h
        by_cases hk : i = k
        · subst hk
          simp_all [Spec.built, Spec.destroyed]
        · simp_all [Spec.built, Spec.destroyed]

end Verif.Optional
