import Verif.Utils.Optional

/-!
# What an optional value is

Each variable in scope is a value or nothing (`Option V`). The effect of each operation is given on these, and
`none` stands for the calls that a program must not make: use of a variable out of scope, `*` on an empty
optional, and `emplace` with a reference into the optional itself.
-/

namespace Verif.Optional.Spec

variable {V : Type}

/-- Content of the variables in scope. -/
abbrev Vars (V : Type) := Map Nat (Option V)

/-- One operation. An operation of `T` that throws leaves a destination that had a value with the value `dst`
and a source that is moved with the value `src`; a destination without value stays without. -/
def step (E : Elem V) (a : Vars V) (f : Fate V) : Op V → Option (Vars V × Obs V)
  | .empty i => if (a i).isSome then none else some (a.put i none, .done)
  | .copy i j =>
    match a i, a j, f with
    | none, some none, _ => some (a.put i none, .done)
    | none, some (some v), .fine => some (a.put i (some v), .done)
    | none, some (some _), .throws _ _ => some (a, .threw)
    | _, _, _ => none
  | .move i j =>
    match a i, a j, f with
    | none, some none, _ => some (a.put i none, .done)
    | none, some (some v), .fine => some ((a.put i (some v)).put j (some (E.moved v)), .done)
    | none, some (some _), .throws _ src => some (a.put j (some src), .threw)
    | _, _, _ => none
  | .value i v =>
    match a i, f with
    | none, .fine => some (a.put i (some v), .done)
    | none, .throws _ _ => some (a, .threw)
    | _, _ => none
  | .endScope i => if (a i).isSome then some (a.erase i, .done) else none
  | .setNull i => if (a i).isSome then some (a.put i none, .done) else none
  | .setCopy i j =>
    match a i, a j, f with
    | some _, some none, _ => some (a.put i none, .done)
    | some _, some (some v), .fine => some (a.put i (some v), .done)
    | some none, some (some _), .throws _ _ => some (a, .threw)
    | some (some _), some (some _), .throws dst _ => some (a.put i (some dst), .threw)
    | _, _, _ => none
  | .setMove i j =>
    match a i, a j, f with
    | some _, some none, _ => some (a.put i none, .done)
    | some _, some (some v), .fine =>
      if i = j then some (a.put i (some (E.selfMoved v)), .done)
      else some ((a.put i (some v)).put j (some (E.moved v)), .done)
    | some none, some (some _), .throws _ src => some (a.put j (some src), .threw)
    | some (some _), some (some _), .throws dst src => some ((a.put j (some src)).put i (some dst), .threw)
    | _, _, _ => none
  | .setValue i v =>
    match a i, f with
    | some _, .fine => some (a.put i (some v), .done)
    | some none, .throws _ _ => some (a, .threw)
    | some (some _), .throws dst _ => some (a.put i (some dst), .threw)
    | none, _ => none
  | .setFrom i j =>
    match a i, a j, f with
    | some _, some (some v), .fine => some (a.put i (some v), .done)
    | some none, some (some _), .throws _ _ => some (a, .threw)
    | some (some _), some (some _), .throws dst _ => some (a.put i (some dst), .threw)
    | _, _, _ => none
  | .emplace i v =>
    match a i, f with
    | some _, .fine => some (a.put i (some v), .done)
    | some _, .throws _ _ => some (a.put i none, .threw)
    | none, _ => none
  | .emplaceFrom i j =>
    if i = j then none else
    match a i, a j, f with
    | some _, some (some v), .fine => some (a.put i (some v), .done)
    | some _, some (some _), .throws _ _ => some (a.put i none, .threw)
    | _, _, _ => none
  | .swap i j =>
    match a i, a j, f with
    | some x, some y, .fine => some ((a.put i y).put j x, .done)
    | some none, some none, .throws _ _ => some (a, .done)
    | some (some _), some none, .throws _ src => some (a.put i (some src), .threw)
    | some none, some (some _), .throws _ src => some (a.put j (some src), .threw)
    | some (some _), some (some _), .throws dst src => some ((a.put j (some src)).put i (some dst), .threw)
    | _, _, _ => none
  | .hasValue i => (a i).map fun x => (a, .flag x.isSome)
  | .deref i =>
    match a i with
    | some (some v) => some (a, .val v)
    | _ => none
  | .getValue i =>
    match a i with
    | some (some v) => some (a, .val v)
    | some none => some (a, .noValue)
    | none => none
  | .valueOr i v =>
    match a i, f with
    | some none, _ => some (a, .val v)
    | some (some u), .fine => some (a, .val u)
    | some (some _), .throws _ _ => some (a, .threw)
    | none, _ => none
  | .takeOr i v =>
    match a i, f with
    | some none, _ => some (a, .val v)
    | some (some u), .fine => some (a.put i (some (E.moved u)), .val u)
    | some (some _), .throws _ src => some (a.put i (some src), .threw)
    | none, _ => none

/-- A program. -/
def run (E : Elem V) (a : Vars V) : List (Op V × Fate V) → Option (Vars V × List (Obs V))
  | [] => some (a, [])
  | (o, f) :: ops =>
    match step E a f o with
    | none => none
    | some (a', b) =>
      match run E a' ops with
      | none => none
      | some (a'', bs) => some (a'', b :: bs)

/-- The operation does not construct a variable from itself (`optional<T> o(o)`). -/
def notFromItself : Op V → Bool
  | .copy i j => i ≠ j
  | .move i j => i ≠ j
  | _ => true

/-- The lives of objects of type `T`, by variable: an object is constructed only where none lives, destroyed
only where one lives, and storage is given back without a living object, except when the destructor of `T` is
trivial. Result: where an object lives at the end. -/
def lives (trivial : Bool) : List Ev → (Nat → Bool) → Option (Nat → Bool)
  | [], l => some l
  | .ctor i :: es, l => if l i then none else lives trivial es fun k => if k = i then true else l k
  | .dtor i :: es, l => if l i then lives trivial es fun k => if k = i then false else l k else none
  | .gone i :: es, l =>
    if l i && !trivial then none else lives trivial es fun k => if k = i then false else l k

/-- Number of objects constructed in variable `i`. -/
def built (i : Nat) (es : List Ev) : Nat := es.countP fun e => match e with | .ctor k => k = i | _ => false

/-- Number of objects destroyed in variable `i`. -/
def destroyed (i : Nat) (es : List Ev) : Nat := es.countP fun e => match e with | .dtor k => k = i | _ => false

/-- The order of optional values: nothing is less than every value. -/
def below [LT V] (x y : Option V) : Prop :=
  match x, y with
  | _, none => False
  | none, some _ => True
  | some u, some v => u < v

/-- The six operators, for operands equal or not, and below or not. -/
def IsSix (s : Six) (eq lt gt : Prop) : Prop :=
  (s.eq ↔ eq) ∧ (s.ne ↔ ¬ eq) ∧ (s.lt ↔ lt) ∧ (s.gt ↔ gt) ∧ (s.le ↔ lt ∨ eq) ∧ (s.ge ↔ gt ∨ eq)

/-- The operators of `T` are those of a linear order. -/
def CmpOk [LT V] (C : Cmp V) : Prop :=
  ∀ u v, (C.eq u v ↔ u = v) ∧ (C.ne u v ↔ u ≠ v) ∧ (C.lt u v ↔ u < v) ∧ (C.gt u v ↔ v < u) ∧
    (C.le u v ↔ u < v ∨ u = v) ∧ (C.ge u v ↔ v < u ∨ u = v)

/-- What a program sees through an optional reference: the object that the variable is bound to. -/
def target (s : RefSt V) (i : Nat) : Option V := ((s.refs i).getD none).bind fun x => s.mem x

/-- The operation writes to an object. -/
def writes : RefOp V → Bool
  | .write _ _ => true
  | _ => false

end Verif.Optional.Spec
