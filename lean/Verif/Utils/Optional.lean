import Verif.Common.Map

/-!
# The optional values of `optional.hpp`

Model of `lib/include/sse/schemes/utils/optional.hpp`, the header that gives `std::experimental::optional`,
in which the callbacks of the cuckoo tables and of Oceanus receive their result
(`lib/include/sse/schemes/oceanus/cuckoo.hpp` L282, `oceanus.hpp` L173).

The variables of type `optional<T>` are numbered. The storage of a variable (L330-345) holds a living object of
type `T` or none, beside the flag `init_`; the code must keep both in step, which is part of what is proved.
Objects of type `T` are values of `V`; the operations of `T` may throw, as the environment decides (`Fate`).

Simplifications: the overloads for `const T&`, `T&&` and `in_place` constructors, and those with an initialiser
list, are one operation, given the value that the constructor of `T` will produce; the pointer and reference
that `->` and `*` return are the value read through them at once; `noexcept` is not modelled. The assertions
are taken as in a build with assertions: a failing one is the outcome `bad`.
-/

namespace Verif.Optional

variable {V : Type}

/-- Effects of the operations of `T` on its objects: the value that a move leaves in its source, and the value
that an object has after it was assigned to itself by a move. -/
structure Elem (V : Type) where
  /-- value of the source after a move -/
  moved : V → V
  /-- value after a move to itself -/
  selfMoved : V → V
  /-- `is_trivially_destructible<T>` (L453-458) -/
  trivial : Bool

/-- What the operation of `T` called by an operation of `optional<T>` does: its effect, or it throws and leaves
its destination and its source, where these are objects, with given values. -/
inductive Fate (V : Type) where
  | fine
  | throws (dst src : V)

/-- `optional_base<T>` and `constexpr_optional_base<T>`: `init_` and the object that lives in `storage_`, if any
(L368-372, L411-415). -/
structure Cell (V : Type) where
  /-- `init_` -/
  init : Bool
  /-- the living object in `storage_.value_`, none when the storage holds `dummy_` -/
  obj : Option V

/-- Events in the life of the objects of type `T` inside variable `i`. -/
inductive Ev where
  /-- the constructor of `T` has run in the storage of `i` -/
  | ctor (i : Nat)
  /-- the destructor of `T` has run on the object in `i` -/
  | dtor (i : Nat)
  /-- the storage of `i` is given back -/
  | gone (i : Nat)

/-- The variables in scope and the events so far, oldest first. -/
structure St (V : Type) where
  cells : Map Nat (Cell V)
  log : List Ev

/-- Outcome of a piece of code: it returns, an exception leaves it, or it does something undefined (use of an
object that does not live, construction over a living object, use of a variable out of scope, failed
assertion). -/
inductive Res (V α : Type) where
  | ret (s : St V) (a : α)
  | threw (s : St V)
  | bad

/-- Code that works on the variables. -/
def M (V α : Type) : Type := St V → Res V α

/-- Sequence of two pieces of code. -/
def M.bind {α β : Type} (m : M V α) (f : α → M V β) : M V β := fun s =>
  match m s with
  | .ret s' a => f a s'
  | .threw s' => .threw s'
  | .bad => .bad

instance : Monad (M V) where
  pure a := fun s => .ret s a
  bind := M.bind

/-- Undefined behaviour. -/
def M.ub {α : Type} : M V α := fun _ => .bad

/-- An exception. -/
def M.throw {α : Type} : M V α := fun s => .threw s

/-- `initialized()` (L471-474). -/
def initialized (i : Nat) : M V Bool := fun s =>
  match s.cells i with
  | some c => .ret s c.init
  | none => .bad

/-- Assignment to `init_`. -/
def setInit (i : Nat) (b : Bool) : M V Unit := fun s =>
  match s.cells i with
  | some c => .ret { s with cells := s.cells.put i { c with init := b } } ()
  | none => .bad

/-- Read of the object in the storage of `i`: `contained_val()`, `*dataptr()` (L475-516). -/
def readObj (i : Nat) : M V V := fun s =>
  match s.cells i with
  | some ⟨_, some v⟩ => .ret s v
  | _ => .bad

/-- The object in the storage of `i` takes another value. -/
def writeObj (i : Nat) (v : V) : M V Unit := fun s =>
  match s.cells i with
  | some ⟨b, some _⟩ => .ret { s with cells := s.cells.put i ⟨b, some v⟩ } ()
  | _ => .bad

/-- `::new (dataptr()) T(…)`, when the constructor of `T` does not throw. -/
def construct (i : Nat) (v : V) : M V Unit := fun s =>
  match s.cells i with
  | some ⟨b, none⟩ => .ret ⟨s.cells.put i ⟨b, some v⟩, s.log ++ [.ctor i]⟩ ()
  | _ => .bad

/-- `dataptr()->T::~T()`. -/
def destruct (i : Nat) : M V Unit := fun s =>
  match s.cells i with
  | some ⟨b, some _⟩ => .ret ⟨s.cells.put i ⟨b, none⟩, s.log ++ [.dtor i]⟩ ()
  | _ => .bad

/-- A variable comes into scope with the members `init_` and the object given. -/
def alloc (i : Nat) (b : Bool) : M V Unit := fun s =>
  match s.cells i with
  | some _ => .bad
  | none => .ret { s with cells := s.cells.put i ⟨b, none⟩ } ()

/-- The storage of a variable is given back. -/
def release (i : Nat) : M V Unit := fun s =>
  match s.cells i with
  | some _ => .ret ⟨s.cells.erase i, s.log ++ [.gone i]⟩ ()
  | none => .bad

/-- The constructor of `T` with arguments that make the value `v`, in the storage of `i`. -/
def newT (f : Fate V) (i : Nat) (v : V) : M V Unit :=
  match f with
  | .fine => construct i v
  | .throws _ _ => M.throw

/-- `::new (dataptr()) T(std::move(*rhs))`. -/
def newMoved (E : Elem V) (f : Fate V) (i j : Nat) : M V Unit := do
  let v ← readObj j
  match f with
  | .fine => do construct i v; writeObj j (E.moved v)
  | .throws _ src => do writeObj j src; M.throw

/-- `contained_val() = v` with a value outside the variables, or with an object of another variable that is
copied. -/
def assignT (f : Fate V) (i : Nat) (v : V) : M V Unit :=
  match f with
  | .fine => writeObj i v
  | .throws dst _ => do writeObj i dst; M.throw

/-- `contained_val() = std::move(*rhs)`. -/
def assignMoved (E : Elem V) (f : Fate V) (i j : Nat) : M V Unit := do
  let v ← readObj j
  match f with
  | .fine => if i = j then writeObj i (E.selfMoved v) else do writeObj i v; writeObj j (E.moved v)
  | .throws dst src => do writeObj j src; writeObj i dst; M.throw

/-- `swap(**this, *rhs)` of two objects of type `T` (L700-701). -/
def swapT (f : Fate V) (i j : Nat) : M V Unit := do
  let u ← readObj i
  let v ← readObj j
  match f with
  | .fine => do writeObj i v; writeObj j u
  | .throws dst src => do writeObj j src; writeObj i dst; M.throw

/-- `clear()` (L518-526). -/
def clear (i : Nat) : M V Unit := do
  if ← initialized i then destruct i
  setInit i false

/-- `assert(initialized())` and the converse. -/
def assertInit (i : Nat) (b : Bool) : M V Unit := do
  if (← initialized i) = b then pure () else M.ub

/-- `initialize(v)` (L528-546). -/
def initValue (f : Fate V) (i : Nat) (v : V) : M V Unit := do
  assertInit i false
  newT f i v
  setInit i true

/-- `initialize(std::move(*rhs))`: `*rhs` asserts that `rhs` has a value (L736-746). -/
def initMoved (E : Elem V) (f : Fate V) (i j : Nat) : M V Unit := do
  assertInit j true
  assertInit i false
  newMoved E f i j
  setInit i true

/-- `*o` and `o->` (L716-746, L776-792). -/
def deref (i : Nat) : M V V := do
  assertInit i true
  readObj i

/-- End of the scope of a variable: `~optional()` calls the destructor of the base, which destroys the object
unless `T` is trivially destructible (L401-408, L450, L604). -/
def dtor (E : Elem V) (i : Nat) : M V Unit := do
  if !E.trivial then
    if ← initialized i then destruct i
  release i

/-- When the constructor of a variable throws, the variable does not come into being; `undo` is what becomes of
its base. -/
def undoIfThrown (undo : M V Unit) (m : M V Unit) : M V Unit := fun s =>
  match m s with
  | .threw s' =>
    match undo s' with
    | .ret s'' _ => .threw s''
    | .threw s'' => .threw s''
    | .bad => .bad
  | r => r

/-- `optional()` and `optional(nullopt_t)` (L551-554). -/
def ctorEmpty (i : Nat) : M V Unit := alloc i false

/-- `optional(const optional& rhs)` (L556-562). When the body throws, the base is complete and its destructor
runs (L401-408). -/
def ctorCopy (E : Elem V) (f : Fate V) (i j : Nat) : M V Unit := do
  alloc i false
  undoIfThrown (dtor E i) (do
    if ← initialized j then
      newT f i (← deref j)
      setInit i true)

/-- `optional(optional&& rhs)` (L564-571). When the body throws, the base is complete and its destructor
runs (L401-408). -/
def ctorMove (E : Elem V) (f : Fate V) (i j : Nat) : M V Unit := do
  alloc i false
  undoIfThrown (dtor E i) (do
    if ← initialized j then
      assertInit j true
      newMoved E f i j
      setInit i true)

/-- `optional(const T&)`, `optional(T&&)` and `optional(in_place_t, …)` (L373-398, L575-601): `init_` is set
before the object is constructed; when its constructor throws, the body of the destructor of the base does not
run. -/
def ctorValue (f : Fate V) (i : Nat) (v : V) : M V Unit := do
  alloc i true
  undoIfThrown (release i) (newT f i v)

/-- `operator=(const optional& rhs)` (L615-637). -/
def assignCopy (f : Fate V) (i j : Nat) : M V Unit := do
  let x ← initialized i
  let y ← initialized j
  if x = true ∧ y = false then clear i
  else if x = false ∧ y = true then do initValue f i (← deref j)
  else if x = true ∧ y = true then do assignT f i (← deref j)

/-- `operator=(optional&& rhs)` (L639-657). -/
def assignMove (E : Elem V) (f : Fate V) (i j : Nat) : M V Unit := do
  let x ← initialized i
  let y ← initialized j
  if x = true ∧ y = false then clear i
  else if x = false ∧ y = true then initMoved E f i j
  else if x = true ∧ y = true then do assertInit j true; assignMoved E f i j

/-- `operator=(U&& v)` with a value of type `T` (L659-671). -/
def assignValue (f : Fate V) (i : Nat) (v : V) : M V Unit := do
  if ← initialized i then assignT f i v else initValue f i v

/-- `emplace(args…)` with arguments that make the value `v` (L674-686). -/
def emplace (f : Fate V) (i : Nat) (v : V) : M V Unit := do
  clear i
  initValue f i v

/-- `oi.emplace(*oj)`: the argument is a reference to the object of `oj`, read by the constructor of `T` after
`clear` (L674-679). -/
def emplaceFrom (f : Fate V) (i j : Nat) : M V Unit := do
  assertInit j true
  clear i
  assertInit i false
  let v ← readObj j
  newT f i v
  setInit i true

/-- `oi = *oj` (L659-671). -/
def assignFrom (f : Fate V) (i j : Nat) : M V Unit := do
  assertInit j true
  if ← initialized i then
    assignT f i (← readObj j)
  else
    initValue f i (← readObj j)

/-- `swap(rhs)` (L689-704, L1333-1336). -/
def swap (E : Elem V) (f : Fate V) (i j : Nat) : M V Unit := do
  let x ← initialized i
  let y ← initialized j
  if x = true ∧ y = false then do initMoved E f j i; clear i
  else if x = false ∧ y = true then do initMoved E f i j; clear j
  else if x = true ∧ y = true then do assertInit i true; assertInit j true; swapT f i j

/-- `value()` (L748-772, L794-808): `none` is the exception `bad_optional_access`. -/
def value (i : Nat) : M V (Option V) := do
  if ← initialized i then return some (← readObj i) else return none

/-- `value_or(v)` on an lvalue: the result is a copy (L814-818). -/
def valueOr (f : Fate V) (i : Nat) (v : V) : M V V := do
  if ← initialized i then
    let u ← deref i
    match f with
    | .fine => return u
    | .throws _ _ => M.throw
  else return v

/-- `value_or(v)` on an rvalue: the object is moved to the result (L822-838). -/
def takeOr (E : Elem V) (f : Fate V) (i : Nat) (v : V) : M V V := do
  if ← initialized i then
    let u ← readObj i
    match f with
    | .fine => do writeObj i (E.moved u); return u
    | .throws _ src => do writeObj i src; M.throw
  else return v

/-- Operations of a program on its variables. -/
inductive Op (V : Type) where
  | empty (i : Nat)
  | copy (i j : Nat)
  | move (i j : Nat)
  | value (i : Nat) (v : V)
  | endScope (i : Nat)
  | setNull (i : Nat)
  | setCopy (i j : Nat)
  | setMove (i j : Nat)
  | setValue (i : Nat) (v : V)
  | setFrom (i j : Nat)
  | emplace (i : Nat) (v : V)
  | emplaceFrom (i j : Nat)
  | swap (i j : Nat)
  | hasValue (i : Nat)
  | deref (i : Nat)
  | getValue (i : Nat)
  | valueOr (i : Nat) (v : V)
  | takeOr (i : Nat) (v : V)

/-- What a program sees of an operation. -/
inductive Obs (V : Type) where
  | done
  | flag (b : Bool)
  | val (v : V)
  /-- `bad_optional_access` -/
  | noValue
  /-- the exception of an operation of `T` -/
  | threw
  deriving DecidableEq

/-- Result of a piece of code as a program sees it; `none` is undefined behaviour. -/
def Res.seen {α : Type} (g : α → Obs V) : Res V α → Option (St V × Obs V)
  | .ret s a => some (s, g a)
  | .threw s => some (s, .threw)
  | .bad => none

/-- One operation. -/
def step (E : Elem V) (s : St V) (f : Fate V) : Op V → Option (St V × Obs V)
  | .empty i => (ctorEmpty i s).seen fun _ => .done
  | .copy i j => (ctorCopy E f i j s).seen fun _ => .done
  | .move i j => (ctorMove E f i j s).seen fun _ => .done
  | .value i v => (ctorValue f i v s).seen fun _ => .done
  | .endScope i => (dtor E i s).seen fun _ => .done
  | .setNull i => (clear i s).seen fun _ => .done
  | .setCopy i j => (assignCopy f i j s).seen fun _ => .done
  | .setMove i j => (assignMove E f i j s).seen fun _ => .done
  | .setValue i v => (assignValue f i v s).seen fun _ => .done
  | .setFrom i j => (assignFrom f i j s).seen fun _ => .done
  | .emplace i v => (Optional.emplace f i v s).seen fun _ => .done
  | .emplaceFrom i j => (Optional.emplaceFrom f i j s).seen fun _ => .done
  | .swap i j => (Optional.swap E f i j s).seen fun _ => .done
  | .hasValue i => (initialized i s).seen .flag
  | .deref i => (Optional.deref i s).seen .val
  | .getValue i => (Optional.value i s).seen fun o => match o with | some v => .val v | none => .noValue
  | .valueOr i v => (Optional.valueOr f i v s).seen .val
  | .takeOr i v => (Optional.takeOr E f i v s).seen .val

/-- A program: operations, each with what the operation of `T` does. -/
def run (E : Elem V) (s : St V) : List (Op V × Fate V) → Option (St V × List (Obs V))
  | [] => some (s, [])
  | (o, f) :: ops =>
    match step E s f o with
    | none => none
    | some (s', b) =>
      match run E s' ops with
      | none => none
      | some (s'', bs) => some (s'', b :: bs)

/-- Before the first variable. -/
def start : St V := ⟨Map.empty, []⟩

/-! ## Comparisons and hash -/

/-- The comparison operators of `T`. -/
structure Cmp (V : Type) where
  eq : V → V → Bool
  ne : V → V → Bool
  lt : V → V → Bool
  gt : V → V → Bool
  le : V → V → Bool
  ge : V → V → Bool

/-- The six operators between two operands. -/
structure Six where
  eq : Bool
  ne : Bool
  lt : Bool
  gt : Bool
  le : Bool
  ge : Bool
  deriving DecidableEq

/-- `operator==(const optional<T>&, const optional<T>&)` (L996-999). -/
def optEq (C : Cmp V) (x y : Option V) : Bool :=
  if x.isSome ≠ y.isSome then false else
  match x, y with
  | some u, some v => C.eq u v
  | _, _ => true

/-- `operator<(const optional<T>&, const optional<T>&)` (L1008-1011). -/
def optLt (C : Cmp V) (x y : Option V) : Bool :=
  match y with
  | none => false
  | some v =>
    match x with
    | none => true
    | some u => C.lt u v

/-- The six operators between two optional values (L996-1029). -/
def cmpOpt (C : Cmp V) (x y : Option V) : Six where
  eq := optEq C x y
  ne := !optEq C x y
  lt := optLt C x y
  gt := optLt C y x
  le := !optLt C y x
  ge := !optLt C x y

/-- The six operators with `nullopt` on the right (L1034-1037, L1046-1049, L1058-1062, L1071-1074, L1084-1087,
L1097-1101). -/
def cmpNull (x : Option V) : Six where
  eq := !x.isSome
  ne := x.isSome
  lt := false
  gt := x.isSome
  le := !x.isSome
  ge := true

/-- The six operators with `nullopt` on the left (L1040-1043, L1052-1055, L1065-1068, L1077-1081, L1090-1094,
L1104-1107). -/
def nullCmp (x : Option V) : Six where
  eq := !x.isSome
  ne := x.isSome
  lt := x.isSome
  gt := false
  le := true
  ge := !x.isSome

/-- `bool(x) ? e : b`. -/
def orElse (x : Option V) (e : V → Bool) (b : Bool) : Bool :=
  match x with
  | some u => e u
  | none => b

/-- The six operators with a value of `T` on the right (L1112, L1124, L1136, L1148, L1160, L1172; the same for
`optional<T&>`, L1186-1249, and `optional<const T&>`, L1259-1322). -/
def cmpVal (C : Cmp V) (x : Option V) (v : V) : Six where
  eq := orElse x (fun u => C.eq u v) false
  ne := orElse x (fun u => C.ne u v) true
  lt := orElse x (fun u => C.lt u v) true
  gt := orElse x (fun u => C.gt u v) false
  le := orElse x (fun u => C.le u v) true
  ge := orElse x (fun u => C.ge u v) false

/-- The six operators with a value of `T` on the left (L1118, L1130, L1142, L1154, L1166, L1178; the same for
`optional<T&>`, L1192-1255, and `optional<const T&>`, L1265-1328). -/
def valCmp (C : Cmp V) (v : V) (x : Option V) : Six where
  eq := orElse x (fun u => C.eq v u) false
  ne := orElse x (fun u => C.ne v u) true
  lt := orElse x (fun u => C.lt v u) false
  gt := orElse x (fun u => C.gt v u) true
  le := orElse x (fun u => C.le v u) false
  ge := orElse x (fun u => C.ge v u) true

/-- `hash<optional<T>>` (L1357-1366). -/
def hashOpt (h : V → UInt64) (x : Option V) : UInt64 :=
  match x with
  | some v => h v
  | none => 0

/-! ## Optional references -/

/-- Objects of type `T` outside the optional values, by address, and the variables of type `optional<T&>`: the
member `ref`, none when it is the null pointer (L861-868). -/
structure RefSt (V : Type) where
  mem : Map Nat V
  refs : Map Nat (Option Nat)

/-- Operations on variables of type `optional<T&>`. -/
inductive RefOp (V : Type) where
  | empty (i : Nat)
  | bind (i addr : Nat)
  | copy (i j : Nat)
  | endScope (i : Nat)
  | setNull (i : Nat)
  | setRef (i j : Nat)
  | emplace (i addr : Nat)
  | swap (i j : Nat)
  | hasValue (i : Nat)
  | getValue (i : Nat)
  | valueOr (i : Nat) (v : V)
  /-- `*o = v` -/
  | write (i : Nat) (v : V)

/-- One operation on optional references (L869-984); `none` is undefined behaviour. -/
def refStep (s : RefSt V) : RefOp V → Option (RefSt V × Obs V)
  | .empty i =>
    match s.refs i with
    | some _ => none
    | none => some ({ s with refs := s.refs.put i none }, .done)
  | .bind i a =>
    match s.refs i with
    | some _ => none
    | none => some ({ s with refs := s.refs.put i (some a) }, .done)
  | .copy i j =>
    match s.refs i, s.refs j with
    | none, some r => some ({ s with refs := s.refs.put i r }, .done)
    | _, _ => none
  | .endScope i =>
    match s.refs i with
    | some _ => some ({ s with refs := s.refs.erase i }, .done)
    | none => none
  | .setNull i =>
    match s.refs i with
    | some _ => some ({ s with refs := s.refs.put i none }, .done)
    | none => none
  | .setRef i j =>
    match s.refs i, s.refs j with
    | some _, some r => some ({ s with refs := s.refs.put i r }, .done)
    | _, _ => none
  | .emplace i a =>
    match s.refs i with
    | some _ => some ({ s with refs := s.refs.put i (some a) }, .done)
    | none => none
  | .swap i j =>
    match s.refs i, s.refs j with
    | some r, some q => some ({ s with refs := (s.refs.put i q).put j r }, .done)
    | _, _ => none
  | .hasValue i =>
    match s.refs i with
    | some r => some (s, .flag r.isSome)
    | none => none
  | .getValue i =>
    match s.refs i with
    | some (some a) =>
      match s.mem a with
      | some v => some (s, .val v)
      | none => none
    | some none => some (s, .noValue)
    | none => none
  | .valueOr i v =>
    match s.refs i with
    | some (some a) =>
      match s.mem a with
      | some u => some (s, .val u)
      | none => none
    | some none => some (s, .val v)
    | none => none
  | .write i v =>
    match s.refs i with
    | some (some a) =>
      match s.mem a with
      | some _ => some ({ s with mem := s.mem.put a v }, .done)
      | none => none
    | _ => none

/-! ## For which types the header compiles -/

/-- Destructor of a class. -/
inductive Dtor where
  | trivial
  | nonTrivial
  | deleted
  deriving DecidableEq

/-- `~storage_t() = default` (L344): by the rules of C++ the defaulted destructor of a union with a variant
member that has a destructor which is not trivial is deleted. -/
def storageDtor : Dtor → Dtor
  | .trivial => .trivial
  | _ => .deleted

/-- `~optional_base()` (L401-408) calls the destructor of `T` and, after its body, that of `storage_`; a deleted
one makes the program ill formed. The base of trivially destructible types has a defaulted destructor (L450),
which is trivial as those of its members are. -/
def compiles (t : Dtor) : Bool :=
  if t = .trivial then storageDtor t = .trivial
  else t ≠ .deleted ∧ storageDtor t ≠ .deleted

end Verif.Optional
