import Verif.Tethys.Files

/-!
# Tethys with a counter database that fails

Model of the use of `RocksDBCounter` in `lib/include/sse/schemes/tethys/tethys_builder.hpp` and
`tethys_client.hpp` when RocksDB fails. `set` and `get` return `false`.
-/

namespace Verif.Tethys

variable {W : Type} [DecidableEq W]

/-- `insert_list` (tethys_builder.hpp L79-125): the last statement is `counter_db.set`, whose result is not
read (L123). `stored` is this result: when it is `false` the counter is not stored. -/
def Sys.insertF (P : Params W) (s : Sys W) (w : W) (ids : List Index) (stored : Bool) :
    Sys W × Except Fault Unit :=
  let r := s.step P (.insert w ids)
  if stored then r else (⟨{ r.1.disk with counters := s.disk.counters }, r.1.builder⟩, r.2)

/-- Insertions, and their outcomes -/
def Sys.insertsF (P : Params W) : Sys W → List ((W × List Index) × Bool) →
    Sys W × List (Except Fault Unit)
  | s, [] => (s, [])
  | s, x :: xs =>
    let r := s.insertF P x.1.1 x.1.2 x.2
    let q := Sys.insertsF P r.1 xs
    (q.1, r.2 :: q.2)

/-- A construction: a new builder, the insertions, `build` -/
def Sys.buildF (P : Params W) (s : Sys W) (n : Nat) (xs : List ((W × List Index) × Bool)) :
    Sys W × List (Except Fault Unit) :=
  let r := s.step P (.new n)
  let q := r.1.insertsF P xs
  let t := q.1.step P .build
  (t.1, r.2 :: (q.2 ++ [t.2]))

/-- A search by a client whose counter database fails (`false`): as for a keyword that is not found, the
number of blocks is zero (tethys_client.hpp L123-132). -/
def Disk.searchF (P : Params W) (d : Disk W) (read : Bool) (w : W) : Except Fault (List Index) :=
  if read then d.search P w
  else { d with counters := fun v => if v = w then none else d.counters v }.search P w

end Verif.Tethys
