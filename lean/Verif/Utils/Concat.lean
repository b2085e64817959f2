/-!
# Iteration over two containers

`concat_iterator` and `concat_const_iterator` (identical up to constness),
`/repo/lib/include/sse/schemes/utils/concat_iterator.hpp`.

Simplification: iterators into different containers are different (for vectors this is the case
unless the end of the first one happens to be the beginning of the second in memory).
-/

namespace Verif.Concat

variable {α : Type}

/-- A container iterator: which container it points into and the position, and the flag
`point_to_container_2`. -/
structure Iter where
  /-- container pointed to by `internal_iterator`: `false` is `container_1` -/
  second : Bool
  pos : Nat
  /-- `point_to_container_2` (L75) -/
  flag : Bool
  deriving DecidableEq

/-- Constructor L52-56: the beginning of the concatenation. -/
def begin : Iter := { second := false, pos := 0, flag := false }

/-- Constructor L58-65 called with `c2.end()` and `true`: the end of the concatenation. -/
def «end» (c2 : List α) : Iter := { second := true, pos := c2.length, flag := true }

/-- `operator==` (L39-42): only the internal iterators are compared. -/
def Iter.eq (a b : Iter) : Bool := a.second == b.second && a.pos == b.pos

/-- The container pointed into. -/
def Iter.container (c1 c2 : List α) (it : Iter) : List α := if it.second then c2 else c1

/-- `operator*` (L47-50); `none` is undefined behaviour (dereferencing an end iterator). -/
def deref (c1 c2 : List α) (it : Iter) : Option α := (it.container c1 c2)[it.pos]?

/-- `operator++` (L20-28); `none` is undefined behaviour (incrementing an end iterator). -/
def next (c1 c2 : List α) (it : Iter) : Option Iter :=
  if it.pos < (it.container c1 c2).length then
    let it' := { it with pos := it.pos + 1 }
    if !it'.flag && (!it'.second && it'.pos == c1.length) then
      some { second := true, pos := 0, flag := true }
    else some it'
  else none

/-- Elements that can still be visited; used for termination only. -/
def Iter.left (c1 c2 : List α) (it : Iter) : Nat :=
  if it.second then c2.length - it.pos else (c1.length - it.pos) + c2.length + 1

theorem next_left (c1 c2 : List α) (it it' : Iter) (h : next c1 c2 it = some it') :
    it'.left c1 c2 < it.left c1 c2 := by
  obtain ⟨s, p, f⟩ := it
  unfold next Iter.container at h
  cases s <;> cases f <;> simp at h
  · obtain ⟨h1, h2⟩ := h
    split at h2 <;> (simp at h2; subst h2; simp [Iter.left]; try omega)
  all_goals (obtain ⟨h1, h2⟩ := h; subst h2; simp [Iter.left]; omega)

/-- `for (auto it = begin; it != end; ++it) visit(*it)`: the elements visited; `none` is undefined
behaviour. -/
def visit (c1 c2 : List α) (it : Iter) (acc : List α) : Option (List α) :=
  if it.eq («end» c2) then some acc
  else
    match deref c1 c2 it with
    | none => none
    | some a =>
      match _h : next c1 c2 it with
      | none => none
      | some it' => visit c1 c2 it' (acc ++ [a])
termination_by it.left c1 c2
decreasing_by exact next_left c1 c2 it it' _h

end Verif.Concat
