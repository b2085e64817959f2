import Verif.Utils.OptionalLemmas
import Mathlib.Order.Defs.LinearOrder

/-!
# Properties of optional values (C73)

The statements quantify over the type of the content, its operations, which of them throw and what they leave,
and the program.
-/

namespace Verif.Optional

variable {V : Type}

/-- Content of type `Nat`, left 0 by moves, with a destructor that is not trivial. -/
def Sample.elem : Elem Nat := ⟨fun _ => 0, fun _ => 0, false⟩

/-- Two variables, a copy whose constructor throws, a swap, an `emplace` that throws, and the end of the
scopes. -/
def Sample.ops : List (Op Nat × Fate Nat) :=
  [(.value 0 5, .fine), (.empty 1, .fine), (.copy 2 0, .throws 7 7), (.setCopy 1 0, .throws 7 7),
   (.swap 0 1, .fine), (.hasValue 0, .fine), (.getValue 0, .fine), (.deref 1, .fine), (.setMove 0 1, .fine),
   (.deref 0, .fine), (.deref 1, .fine), (.emplace 0 8, .throws 7 7), (.hasValue 0, .fine),
   (.valueOr 0 9, .fine), (.endScope 0, .fine), (.endScope 1, .fine)]

/-- What the program sees. -/
def Sample.seen : List (Obs Nat) :=
  [.done, .done, .threw, .threw, .done, .flag false, .noValue, .val 5, .done, .val 5, .val 0, .threw,
   .flag false, .val 9, .done, .done]

/-- **C73**, contents: a program that keeps the contract sees exactly what it would see with values of
`Option V`, and never runs into undefined behaviour, whichever operations of `T` throw. -/
theorem C73_content (E : Elem V) (ops : List (Op V × Fate V)) (a : Spec.Vars V) (bs : List (Obs V))
    (h : Spec.run E Map.empty ops = some (a, bs)) :
    ∃ s, run E start ops = some (s, bs) := by
  obtain ⟨s, h1, _, _⟩ := run_good E ops Map.empty a bs h [] rfl
  exact ⟨s, h1⟩

example : (Spec.run Sample.elem Map.empty Sample.ops).map Prod.snd = some Sample.seen ∧
    (run Sample.elem start Sample.ops).map Prod.snd = some Sample.seen := by decide +kernel

/-- **C73**, breaches: a program that breaks the contract runs into a failed assertion or undefined behaviour, and not into a wrong
value, unless a variable is constructed from itself. -/
theorem C73_breach (E : Elem V) (ops : List (Op V × Fate V)) (hops : ∀ o ∈ ops, Spec.notFromItself o.1 = true)
    (h : Spec.run E Map.empty ops = none) : run E start ops = none :=
  run_bad E ops hops Map.empty h [] rfl

example : run Sample.elem start [(.empty 0, .fine), (.setValue 0 4, .fine), (.setNull 0, .fine), (.deref 0, .fine)] = none :=
  C73_breach _ _ (by decide) (by decide +kernel)

/-- `optional<T> o(o)` is an empty optional. -/
example : (run Sample.elem start [(.copy 0 0, .fine), (.hasValue 0, .fine)]).map Prod.snd = some [.done, .flag false] := by
  decide +kernel

/-- **C73**, lives: objects are constructed only in storage without living object and destroyed only when they
live; at any time exactly the optionals with a value hold a living object; and in each variable as many objects
were destroyed as constructed, plus the one that lives (types that are not trivially destructible). -/
theorem C73_lives (E : Elem V) (ops : List (Op V × Fate V)) (a : Spec.Vars V) (bs bs' : List (Obs V))
    (s : St V) (h : Spec.run E Map.empty ops = some (a, bs)) (hr : run E start ops = some (s, bs')) :
    (∃ l, Spec.lives E.trivial s.log (fun _ => false) = some l ∧ ∀ i, l i = true ↔ ∃ v, a i = some (some v)) ∧
    (E.trivial = false → ∀ i, Spec.built i s.log =
      Spec.destroyed i s.log + match a i with | some (some _) => 1 | _ => 0) := by
  obtain ⟨s', h1, _, h2⟩ := run_good E ops Map.empty a bs h [] rfl
  have : start = (⟨encAll Map.empty, []⟩ : St V) := rfl
  rw [this, h1] at hr
  simp only [Option.some.injEq, Prod.mk.injEq] at hr
  obtain ⟨rfl, -⟩ := hr
  refine ⟨⟨_, h2, fun i => ?_⟩, fun ht i => ?_⟩
  · simp only [livesIn]
    rcases a i with _ | _ | v <;> simp
  · rw [ht] at h2
    have := lives_count i _ _ _ h2
    simp only [livesIn, Bool.toNat_false] at this
    rw [Nat.add_zero] at this
    rw [this]
    rcases a i with _ | _ | v <;> simp

example : (run Sample.elem start Sample.ops).map (fun r =>
    [Spec.built 0 r.1.log, Spec.destroyed 0 r.1.log, Spec.built 1 r.1.log, Spec.destroyed 1 r.1.log]) =
    some [2, 2, 1, 1] := by decide +kernel

/-- **C73**, the reference of `emplace`: `o.emplace(*o)` destroys the object before it is read, for every type
and every content. The same call with an assignment, `o = *o`, keeps the content. -/
theorem C73_alias (E : Elem V) (ops : List (Op V × Fate V)) (a : Spec.Vars V) (bs bs' : List (Obs V))
    (s : St V) (h : Spec.run E Map.empty ops = some (a, bs)) (hr : run E start ops = some (s, bs')) (i : Nat)
    (v : V) (hi : a i = some (some v)) :
    (∀ f, step E s f (.emplaceFrom i i) = none) ∧
    ∃ s', step E s .fine (.setFrom i i) = some (s', .done) ∧
      (step E s' .fine (.deref i)).map Prod.snd = some (.val v) := by
  obtain ⟨s', h1, h2, _⟩ := run_good E ops Map.empty a bs h [] rfl
  have : start = (⟨encAll Map.empty, []⟩ : St V) := rfl
  rw [this, h1] at hr
  simp only [Option.some.injEq, Prod.mk.injEq] at hr
  obtain ⟨rfl, -⟩ := hr
  have hc : s'.cells i = some (enc (some v)) := by rw [h2]; simp [encAll, hi]
  obtain ⟨cs, lg⟩ := s'
  simp only at hc
  constructor
  · intro f
    simp [step, Optional.emplaceFrom, clear, M.bind_apply, M.pure_apply, assertInit, initialized, destruct,
      setInit, readObj, hc, enc, Res.seen]
  · simp [step, assignFrom, assignT, Optional.deref, M.bind_apply, M.ite_apply, M.pure_apply, assertInit,
      initialized, readObj, writeObj, hc, enc, Res.seen]

example : ((run Sample.elem start [(.value 0 5, .fine)]).bind fun r =>
    step Sample.elem r.1 .fine (.emplaceFrom 0 0)).isNone = true := by decide +kernel

/-- **C73**, comparisons: the operators between two optional values, with `nullopt` and with a value on either
side are those of one linear order, in which nothing is below every value; equal values have the same hash. -/
theorem C73_compare [LinearOrder V] (C : Cmp V) (hC : Spec.CmpOk C) (x y : Option V) (v : V) :
    Spec.IsSix (cmpOpt C x y) (x = y) (Spec.below x y) (Spec.below y x) ∧
    Spec.IsSix (cmpNull x) (x = none) (Spec.below x none) (Spec.below none x) ∧
    Spec.IsSix (nullCmp x) (x = none) (Spec.below none x) (Spec.below x none) ∧
    Spec.IsSix (cmpVal C x v) (x = some v) (Spec.below x (some v)) (Spec.below (some v) x) ∧
    Spec.IsSix (valCmp C v x) (x = some v) (Spec.below (some v) x) (Spec.below x (some v)) ∧
    ∀ h : V → UInt64, (cmpOpt C x y).eq = true → hashOpt h x = hashOpt h y := by
  have tri : ∀ u w : V, (¬ u < w) ↔ (w < u ∨ w = u) := fun u w => by rw [not_lt, le_iff_lt_or_eq]
  have h1 : ∀ u w, C.eq u w = true ↔ u = w := fun u w => (hC u w).1
  have h2 : ∀ u w, C.ne u w = true ↔ u ≠ w := fun u w => (hC u w).2.1
  have h3 : ∀ u w, C.lt u w = true ↔ u < w := fun u w => (hC u w).2.2.1
  have h4 : ∀ u w, C.gt u w = true ↔ w < u := fun u w => (hC u w).2.2.2.1
  have h5 : ∀ u w, C.le u w = true ↔ u < w ∨ u = w := fun u w => (hC u w).2.2.2.2.1
  have h6 : ∀ u w, C.ge u w = true ↔ w < u ∨ u = w := fun u w => (hC u w).2.2.2.2.2
  have h3' : ∀ u w, C.lt u w = false ↔ ¬ u < w := fun u w => by rw [← h3]; simp
  have h1' : ∀ u w, C.eq u w = false ↔ ¬ u = w := fun u w => by rw [← h1]; simp
  have e : ∀ u w : V, u = w ↔ w = u := fun u w => ⟨Eq.symm, Eq.symm⟩
  cases x <;> cases y <;>
    simp [Spec.IsSix, cmpOpt, cmpNull, nullCmp, cmpVal, valCmp, optEq, optLt, orElse, Spec.below, hashOpt,
      h1, h2, h3, h4, h5, h6, h3', h1'] <;> grind

/-- The operators of numbers. -/
def Sample.cmp : Cmp Nat where
  eq u v := u == v
  ne u v := u != v
  lt u v := decide (u < v)
  gt u v := decide (u > v)
  le u v := decide (u ≤ v)
  ge u v := decide (u ≥ v)

example : Spec.CmpOk Sample.cmp := by
  intro u v
  simp [Sample.cmp]
  exact ⟨Nat.le_iff_lt_or_eq, by rw [Nat.le_iff_lt_or_eq, eq_comm]⟩

example : cmpOpt Sample.cmp (some 3) none = ⟨false, true, false, true, false, true⟩ ∧
    cmpVal Sample.cmp none 3 = ⟨false, true, true, false, true, false⟩ ∧
    valCmp Sample.cmp 3 (some 3) = ⟨true, false, false, false, true, true⟩ := by decide +kernel

/-- The order of the comparisons is a strict linear order. -/
theorem C73_order [LinearOrder V] (x y z : Option V) :
    ¬ Spec.below x x ∧ (Spec.below x y → Spec.below y z → Spec.below x z) ∧
    (Spec.below x y ∨ x = y ∨ Spec.below y x) := by
  refine ⟨?_, ?_, ?_⟩
  · cases x <;> simp [Spec.below]
  · cases x <;> cases y <;> cases z <;> simp [Spec.below]
    exact lt_trans
  · cases x <;> cases y <;> simp [Spec.below]
    exact lt_trichotomy _ _

/-- **C73**, references: an operation on optional references changes an object only by a write through one,
and what is written is seen through every reference to the same object and through no other. -/
theorem C73_ref (s s' : RefSt V) (op : RefOp V) (b : Obs V) (h : refStep s op = some (s', b)) :
    (Spec.writes op = false → s'.mem = s.mem) ∧
    ∀ i v, op = .write i v → ∃ x, s.refs i = some (some x) ∧ s'.refs = s.refs ∧
      ∀ k, Spec.target s' k = if s.refs k = some (some x) then some v else Spec.target s k := by
  cases op with
  | write i w =>
    simp only [refStep] at h
    split at h
    · rename_i x hx
      split at h
      · rename_i u hu
        simp only [Option.some.injEq, Prod.mk.injEq] at h
        obtain ⟨rfl, rfl⟩ := h
        refine ⟨fun hw => by simp [Spec.writes] at hw, ?_⟩
        intro i' v' he
        simp only [RefOp.write.injEq] at he
        obtain ⟨rfl, rfl⟩ := he
        refine ⟨x, hx, rfl, fun k => ?_⟩
        simp only [Spec.target]
        rcases s.refs k with _ | _ | y
        · simp
        · simp
        · by_cases hy : y = x <;> simp [Map.put, hy]
      · cases h
    · cases h
  | _ =>
    refine ⟨fun _ => ?_, fun i v he => by cases he⟩
    simp only [refStep] at h
    repeat' split at h
    all_goals first | (cases h; done) | (simp only [Option.some.injEq, Prod.mk.injEq] at h; rw [← h.1])

/-- Two references to one object and one to another. -/
example : (refStep (V := Nat) ⟨fun x => if x < 2 then some x else none,
      fun i => if i = 2 then some (some 1) else some (some 0)⟩ (.write 0 9)).map
      (fun r => [Spec.target r.1 0, Spec.target r.1 1, Spec.target r.1 2]) =
    some [some 9, some 9, some 1] := by decide +kernel

/-- **C73**, types: the header is usable for trivially destructible types, as those of the code are … -/
theorem C73_types_partial : compiles .trivial = true := by decide

/-- … but not for other types, although they can be destroyed: `~storage_t() = default` is deleted for them. -/
theorem C73_types_violated : ∃ t, t ≠ .deleted ∧ compiles t = false := ⟨.nonTrivial, by decide⟩

end Verif.Optional
