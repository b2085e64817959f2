import Verif.ThreadPool.Model
import Verif.Counter.Model
import Verif.Common.Bytes

/-!
# `load_inverted_index` of the gRPC clients

Model of `SophosClientRunner::load_inverted_index` (`/repo/lib/sophos/sophos_client_runner.cpp` L383-430) and
`DianaClientRunner::load_inverted_index` (`/repo/lib/diana/client_runner.cpp` L436-489), with
`insert_in_session` (sophos L326-341; diana L350-393) and `end_update_session` (sophos L359-380; diana
L411-433).

The parser calls back for each list of the file (L391-407); the callback enqueues a task in a pool of
`std::thread::hardware_concurrency()` threads. The task asks the client for update requests, which reads and
writes the counter of the keyword, and writes them to the stream. A failed `Write` is logged only, as is a
bad status at the end of the session. When the file has been parsed, the pool is joined, and the result is
`true`.

Simplifications: the file is parsed without error (otherwise the result is `false`) and the counter store
does not fail. A body may write its requests as soon as they are available, which covers both the one by one
insertion of Sophos and the insertion in bulk of Diana.
-/

namespace Verif.Runner

open ThreadPool (Joiner)

/-- A message: keyword, document and counter, from which the client builds the update request -/
abbrev Msg (Kw : Type) := Kw × Index × UInt32

/-- State of the call -/
structure Loader (Kw : Type) where
  /-- the pool and the parsing thread; the tasks are the numbers of the lists in the file, and the effect of
  a task is the start of its body -/
  pool : ThreadPool.Sys Nat Nat
  /-- the counters of the client; the body of the task `i` is the thread `i` -/
  client : Counter.Sys Kw Index
  /-- messages that the body `i` has to write -/
  unsent : List (List (Msg Kw))
  /-- messages written to the stream, in order -/
  sent : List (Msg Kw)
  /-- messages for which `Write` failed -/
  lost : List (Msg Kw)

/-- The insertions of the tasks -/
def insertions {Kw : Type} (file : List (Kw × List Index)) : List (List (Kw × Index)) :=
  file.map (fun x => x.2.map (fun d => (x.1, d)))

/-- The call starts: pool of `n` threads, where `n` is `std::thread::hardware_concurrency()` (sophos L387;
diana L440). -/
def Loader.init {Kw : Type} [DecidableEq Kw] (n : Nat) (file : List (Kw × List Index)) : Loader Kw where
  pool := ThreadPool.Sys.init n [List.range file.length]
  client := Counter.Sys.init (insertions file)
  unsent := file.map (fun _ => [])
  sent := []
  lost := []

/-- The body `i` has returned. -/
def Loader.BodyDone {Kw : Type} (s : Loader Kw) (i : Nat) : Prop :=
  s.client.threads[i]? = some ⟨[], none⟩ ∧ s.unsent[i]? = some []

/-- One atomic step -/
inductive LoadStep {Kw : Type} [DecidableEq Kw] : Loader Kw → Loader Kw → Prop
  /-- a step of the pool or of the parsing thread, which joins the pool at the end of the file (sophos
  L416-418; diana L475-477); a task is finished only when its body has returned. -/
  | pool (s : Loader Kw) (l : Bool) (p : ThreadPool.Sys Nat Nat) (h : ThreadPool.SeqStep some l s.pool p)
      (hfin : ∀ i ∈ p.pool.finished, s.BodyDone i) : LoadStep s { s with pool := p }
  /-- a body that has started reads the counter of its keyword (as `Counter.Step.read`). -/
  | read (s : Loader Kw) (i : Nat) (w : Kw) (d : Index) (rest : List (Kw × Index))
      (hs : i ∈ s.pool.pool.emitted) (h : s.client.threads[i]? = some ⟨(w, d) :: rest, none⟩) :
      LoadStep s { s with client := { s.client with
        threads := s.client.threads.set i ⟨rest, some (w, d, Counter.nextValue (Counter.get s.client.counters w))⟩ } }
  /-- it writes the counter (as `Counter.Step.write`), and has a message. -/
  | put (s : Loader Kw) (i : Nat) (w : Kw) (d : Index) (v : UInt32) (rest : List (Kw × Index))
      (out : List (Msg Kw)) (h : s.client.threads[i]? = some ⟨rest, some (w, d, v)⟩)
      (ho : s.unsent[i]? = some out) :
      LoadStep s { s with
        client := ⟨s.client.counters.put w v, s.client.threads.set i ⟨rest, none⟩, s.client.emitted ++ [(w, d, v)]⟩
        unsent := s.unsent.set i (out ++ [(w, d, v)]) }
  /-- `bulk_update_state_.writer->Write(message)` returns `true` (sophos L336-340; diana L360-364, L384). -/
  | write (s : Loader Kw) (i : Nat) (m : Msg Kw) (out : List (Msg Kw)) (ho : s.unsent[i]? = some (m :: out)) :
      LoadStep s { s with unsent := s.unsent.set i out, sent := s.sent ++ [m] }
  /-- `Write` returns `false`: the stream is broken; an error is logged. Diana then skips the other messages
  of the task. -/
  | fail (s : Loader Kw) (i : Nat) (m : Msg Kw) (out : List (Msg Kw)) (ho : s.unsent[i]? = some (m :: out)) :
      LoadStep s { s with unsent := s.unsent.set i out, lost := s.lost ++ [m] }

/-- Reachable states -/
def LoadReachable {Kw : Type} [DecidableEq Kw] (n : Nat) (file : List (Kw × List Index)) (s : Loader Kw) : Prop :=
  Relation.ReflTransGen LoadStep (Loader.init n file) s

/-- The result of the call, once `pool.join()` has returned (sophos L423; diana L482) -/
def Loader.result {Kw : Type} (s : Loader Kw) : Option Bool :=
  match s.pool.pool.joiner with
  | .returned => some true
  | _ => none

end Verif.Runner
