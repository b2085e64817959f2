import Verif.Oceanus.Files

/-!
# Moving a builder of a cuckoo table

Model of the defaulted move constructor of `CuckooBuilder`
(`/repo/lib/include/sse/schemes/oceanus/cuckoo.hpp` L51), which that of `PlutoBuilder`
(`/repo/lib/include/sse/schemes/pluto/pluto_builder.hpp` L45) calls, and of what then happens to the two
builders.
-/

namespace Verif.Oceanus.Moved

open Verif.Oceanus

variable {n : Nat}

/-- The new builder (cuckoo.hpp L51, L60-68): the vector of the values is moved by its own move constructor
(awonvm_vector.hpp L172-179, `Vec.Obj.move`), the other fields keep their values. -/
def moveTo (b : FBuilder n) : FBuilder n :=
  { b with data := { b.data with size := 0, committed := false } }

/-- What becomes of the old builder.  Its paths are moved, hence empty; so are the tables of the allocator. Only
`is_committed` matters for its destructor. -/
structure Husk where
  committed : Bool
deriving DecidableEq

/-- The old builder (cuckoo.hpp L51). -/
def moveFrom (b : FBuilder n) : Husk := ⟨b.committed⟩

/-- The destructor of the old builder (cuckoo.hpp L132-138). If it was not committed, `commit` (L186-243) calls
`fsync(0)`, and then opens the file of name "", which throws (utils.cpp L160-190); a destructor that throws ends
the process. -/
def Husk.destroy (h : Husk) : Except Fault Unit := if h.committed then .ok () else .error .runtimeError

/-- Uses of a builder, with moves -/
inductive MEv (n : Nat) where
  | use (e : Ev n)
  /-- the builder is moved; the new one is used from now on -/
  | move
  /-- the destructor of the oldest builder that was moved from -/
  | drop

/-- The files, the builder, and the builders that were moved from -/
structure MSys (n : Nat) where
  disk : Disk
  builder : Option (FBuilder n)
  husks : List Husk

/-- The process is over after this event. -/
def ends : Ev n → Except Fault Unit → Bool
  | .kill, _ => true
  | .killCommit _, _ => true
  | .destroy, .error _ => true
  | _, _ => false

/-- One event, and the exception it raises -/
def MSys.step (hash : Key → CKey) (s : MSys n) : MEv n → MSys n × Except Fault Unit
  | .use e =>
    let r := (⟨s.disk, s.builder⟩ : Sys n).step hash e
    (⟨r.1.disk, r.1.builder, if ends e r.2 then [] else s.husks⟩, r.2)
  | .move => match s.builder with
    | none => (s, .ok ())
    | some b => (⟨s.disk, some (moveTo b), s.husks ++ [moveFrom b]⟩, .ok ())
  | .drop => match s.husks with
    | [] => (s, .ok ())
    | h :: hs => match h.destroy with
      | .ok () => (⟨s.disk, s.builder, hs⟩, .ok ())
      | .error f => (⟨s.disk, none, []⟩, .error f)

/-- Events, and their outcomes -/
def MSys.run (hash : Key → CKey) : MSys n → List (MEv n) → MSys n × List (Except Fault Unit)
  | s, [] => (s, [])
  | s, e :: es =>
    let r := s.step hash e
    let q := MSys.run hash r.1 es
    (q.1, r.2 :: q.2)

end Verif.Oceanus.Moved
