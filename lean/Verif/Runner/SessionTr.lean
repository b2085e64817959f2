import Verif.Runner.SessionSpec

/-!
# The steps of update sessions as a relation
-/

namespace Verif.Runner.Sess

open Verif

variable {Kw : Type} {S : Scheme Kw}

/-- The requests for a list of insertions -/
def cliRun (S : Scheme Kw) : S.Cli → List (Kw × Index) → List S.Upd × S.Cli
  | m, [] => ([], m)
  | m, (w, i) :: l => ((S.request m w i).1 :: (cliRun S (S.request m w i).2 l).1, (cliRun S (S.request m w i).2 l).2)

/-- Messages with numbers from `k` on -/
def number {U : Type} : Nat → List U → List (Nat × U)
  | _, [] => []
  | k, u :: us => (k, u) :: number (k + 1) us

theorem numReqs_append (t u : List (Event Kw)) : numReqs (t ++ u) = numReqs t + numReqs u := by
  simp [numReqs]

theorem requests_eq (s : State S) (n : Nat) (l : List (Kw × Index)) :
    s.requests n l = ({ s with cli := (cliRun S s.cli l).2,
                               trace := s.trace ++ l.map (fun x => Event.requested n x.1 x.2) },
      number (numReqs s.trace) (cliRun S s.cli l).1) := by
  induction l generalizing s with
  | nil => simp [State.requests, cliRun, number]
  | cons x l ih =>
    obtain ⟨w, i⟩ := x
    simp only [State.requests, State.request, ih, cliRun, number, List.map_cons, List.append_assoc,
      List.cons_append, List.nil_append, numReqs_append]
    rfl

/-- The moves that only change the position of a call -/
inductive Move (s : State S) : Call Kw → Pc S → Pc S → Prop where
  | inSession (w i) (h : s.writer.isSome = true) : Move s (.insert w i) .begin .single
  | direct (w i) (h : s.writer = none) : Move s (.insert w i) .begin .direct
  | single (w i) : Move s (.insertIn w i) .begin .single
  | check (c ms) (h : s.isUp = true) : Move s c (.check ms) (.lock ms)
  | list (l) (h : s.isUp = true) : Move s (.insertList l) .begin .list
  | opening (h : s.writer = none) : Move s .start .begin .opening
  | closing (h : s.writer.isSome = true) : Move s .finish .begin .writesDone
  | waited (c k z) (h : s.writer = some k) (hz : s.streams[k]? = some z) (hq : z.queue = []) :
      Move s c .wait .down
  | broken (c m ms k z) (h : s.writer = some k) (hz : s.streams[k]? = some z) (hb : z.broken = true) :
      Move s c (.write (m :: ms)) (.write [])

/-- The steps that end a call normally, with the session afterwards: `writer`, `isUp` and `mtx` -/
inductive Ret (s : State S) : Call Kw → Pc S → Option Nat → Bool → Option Nat → Prop where
  | write (c) : Ret s c (.write []) s.writer s.isUp none
  | start (h : s.writer.isSome = true) : Ret s .start .begin s.writer s.isUp s.mtx
  | up (c) : Ret s c .up s.writer true s.mtx
  | finish (h : s.writer = none) : Ret s .finish .begin s.writer s.isUp s.mtx
  | reset (c) : Ret s c .reset none s.isUp s.mtx

/-- The steps that throw -/
inductive Throw (s : State S) : Call Kw → Pc S → Prop where
  | check (c ms) (h : s.isUp = false) : Throw s c (.check ms)
  | list (l) (h : s.isUp = false) : Throw s (.insertList l) .begin

/-- The requests of a call: its insertions, and where it is before and after -/
inductive Asks : Call Kw → Pc S → List (Kw × Index) → (List (Msg S) → Pc S) → Prop where
  | direct (w i) : Asks (.insert w i) .direct [(w, i)]
      (fun ms => match ms with | m :: _ => .rpc m | [] => .over)
  | single (w i) : Asks (.insert w i) .single [(w, i)] .check
  | singleIn (w i) : Asks (.insertIn w i) .single [(w, i)] .check
  | list (l) : Asks (.insertList l) .list l .lock

/-- The steps of the model; `good` if there is no failure of the network or of the server -/
inductive Tr (s : State S) : Bool → State S → Prop where
  | call (g c) : Tr s g { s with calls := s.calls ++ [(c, .begin)],
                                 trace := s.trace ++ [.called s.calls.length c] }
  | move (g n c pc pc') (hn : s.calls[n]? = some (c, pc)) (h : Move s c pc pc') :
      Tr s g { s with calls := s.calls.set n (c, pc') }
  | ret (g n c pc w u x) (hn : s.calls[n]? = some (c, pc)) (h : Ret s c pc w u x) :
      Tr s g { s with calls := s.calls.set n (c, .over), writer := w, isUp := u, mtx := x,
                      trace := s.trace ++ [.returned n] }
  | throw (g n c pc) (hn : s.calls[n]? = some (c, pc)) (h : Throw s c pc) :
      Tr s g { s with calls := s.calls.set n (c, .over), trace := s.trace ++ [.threw n] }
  | request (g n c pc l pc') (hn : s.calls[n]? = some (c, pc)) (h : Asks c pc l pc') :
      Tr s g { s with calls := s.calls.set n (c, pc' (number (numReqs s.trace) (cliRun S s.cli l).1)),
                      cli := (cliRun S s.cli l).2,
                      trace := s.trace ++ l.map (fun x => Event.requested n x.1 x.2) }
  | rpc (g n c m) (hn : s.calls[n]? = some (c, .rpc m)) :
      Tr s g { s with calls := s.calls.set n (c, .over), srv := S.store s.srv m.2,
                      trace := s.trace ++ [.stored m.1] ++ [.returned n] }
  | rpcLost (n c m) (hn : s.calls[n]? = some (c, .rpc m)) :
      Tr s false { s with calls := s.calls.set n (c, .over), trace := s.trace ++ [.returned n] }
  | lock (g n c ms) (hn : s.calls[n]? = some (c, .lock ms)) (h : s.mtx = none) :
      Tr s g { s with calls := s.calls.set n (c, .write ms), mtx := some n }
  | write (g n c m ms k z) (hn : s.calls[n]? = some (c, .write (m :: ms))) (h : s.writer = some k)
      (hz : s.streams[k]? = some z) (hd : z.done = false) (hb : z.broken = false) :
      Tr s g { s with calls := s.calls.set n (c, .write ms),
                      streams := s.streams.set k { z with queue := z.queue ++ [m] } }
  | opened (g n c) (hn : s.calls[n]? = some (c, .opening)) (h : s.writer = none) :
      Tr s g { s with calls := s.calls.set n (c, .up), streams := s.streams ++ [⟨[], false, false⟩],
                      writer := some s.streams.length }
  | reopened (g n c k) (hn : s.calls[n]? = some (c, .opening)) (h : s.writer = some k) :
      Tr s g { s with calls := s.calls.set n (c, .up),
                      streams := s.streams.modify k (fun z => { z with queue := [], broken := true }) ++
                        [⟨[], false, false⟩],
                      writer := some s.streams.length }
  | writesDone (g n c k z) (hn : s.calls[n]? = some (c, .writesDone)) (h : s.writer = some k)
      (hz : s.streams[k]? = some z) (hd : z.done = false) :
      Tr s g { s with calls := s.calls.set n (c, .wait),
                      streams := s.streams.set k { z with done := true } }
  | down (g n c) (hn : s.calls[n]? = some (c, .down)) :
      Tr s g { s with calls := s.calls.set n (c, .reset), isUp := false }
  | search (g n w) (hn : s.calls[n]? = some (.search w, .begin)) :
      Tr s g { s with calls := s.calls.set n (.search w, .over),
                      trace := s.trace ++ [.found n w (S.find s.cli s.srv w)] }
  | recv (g k m ms d) (hz : s.streams[k]? = some ⟨m :: ms, d, false⟩) :
      Tr s g { s with srv := S.store s.srv m.2, trace := s.trace ++ [.stored m.1],
                      streams := s.streams.set k ⟨ms, d, false⟩ }
  | break (k) : Tr s false { s with streams := s.streams.modify k (fun z => { z with queue := [], broken := true }) }
  | nullWrite (g) (n : Nat) (c : Call Kw) (m ms) (hn : s.calls[n]? = some (c, .write (m :: ms))) (h : s.writer = none) :
      Tr s g { s with fault := some .null }
  | nullDone (g) (n : Nat) (c : Call Kw) (hn : s.calls[n]? = some (c, .writesDone)) (h : s.writer = none) :
      Tr s g { s with fault := some .null }
  | nullWait (g) (n : Nat) (c : Call Kw) (hn : s.calls[n]? = some (c, .wait)) (h : s.writer = none) :
      Tr s g { s with fault := some .null }
  | lateWrite (g) (n : Nat) (c : Call Kw) (m ms) (k : Nat) (z) (hn : s.calls[n]? = some (c, .write (m :: ms))) (h : s.writer = some k)
      (hz : s.streams[k]? = some z) (hd : z.done = true) :
      Tr s g { s with fault := some .writeAfterDone }
  | lateDone (g) (n : Nat) (c : Call Kw) (k : Nat) (z) (hn : s.calls[n]? = some (c, .writesDone)) (h : s.writer = some k)
      (hz : s.streams[k]? = some z) (hd : z.done = true) :
      Tr s g { s with fault := some .writeAfterDone }

theorem goto_eq (s : State S) {n : Nat} {c : Call Kw} {pc : Pc S} (hn : s.calls[n]? = some (c, pc))
    (pc' : Pc S) : s.goto n pc' = { s with calls := s.calls.set n (c, pc') } := by
  simp [State.goto, hn]

theorem ret_eq (s : State S) {n : Nat} {c : Call Kw} {pc : Pc S} (hn : s.calls[n]? = some (c, pc)) :
    s.ret n = { s with calls := s.calls.set n (c, .over), trace := s.trace ++ [.returned n] } := by
  simp [State.ret, goto_eq s hn]

theorem throw_eq (s : State S) {n : Nat} {c : Call Kw} {pc : Pc S} (hn : s.calls[n]? = some (c, pc)) :
    s.throw n = { s with calls := s.calls.set n (c, .over), trace := s.trace ++ [.threw n] } := by
  simp [State.throw, goto_eq s hn]

theorem request_eq (s : State S) (n : Nat) (w : Kw) (i : Index) :
    s.request n w i = ({ s with cli := (cliRun S s.cli [(w, i)]).2,
                                trace := s.trace ++ [(w, i)].map (fun x => Event.requested n x.1 x.2) },
      (numReqs s.trace, (S.request s.cli w i).1)) := rfl

theorem advance_tr (s : State S) (g : Bool) {n : Nat} {c : Call Kw} {pc : Pc S}
    (hn : s.calls[n]? = some (c, pc)) : s.advance n c pc = s ∨ Tr s g (s.advance n c pc) := by
  cases pc with
  | begin =>
    cases c with
    | insert w i =>
      simp only [State.advance, goto_eq s hn]
      right
      split
      · rename_i hw; exact .move g n _ _ _ hn (.inSession w i hw)
      · rename_i hw; exact .move g n _ _ _ hn (.direct w i (by simpa using hw))
    | insertIn w i =>
      simp only [State.advance, goto_eq s hn]
      exact .inr (.move g n _ _ _ hn (.single w i))
    | insertList l =>
      simp only [State.advance, goto_eq s hn, throw_eq s hn]
      right
      split
      · rename_i hw; exact .move g n _ _ _ hn (.list l hw)
      · rename_i hw; exact .throw g n _ _ hn (.list l (by simpa using hw))
    | start =>
      simp only [State.advance, goto_eq s hn, ret_eq s hn]
      right
      split
      · rename_i hw; exact .ret g n _ _ _ _ _ hn (.start hw)
      · rename_i hw; exact .move g n _ _ _ hn (.opening (by simpa using hw))
    | finish =>
      simp only [State.advance, goto_eq s hn, ret_eq s hn]
      right
      split
      · rename_i hw; exact .move g n _ _ _ hn (.closing hw)
      · rename_i hw; exact .ret g n _ _ _ _ _ hn (.finish (by simpa using hw))
    | search w =>
      simp only [State.advance, goto_eq s hn]
      exact .inr (.search g n w hn)
  | direct =>
    cases c with
    | insert w i =>
      simp only [State.advance, request_eq]
      rw [goto_eq _ (c := .insert w i) (pc := .direct) (by exact hn)]
      exact .inr (.request g n _ _ _ _ hn (.direct w i))
    | _ => exact .inl rfl
  | rpc m =>
    right
    simp only [State.advance]
    rw [ret_eq (s.store m) (c := c) (pc := .rpc m) (by exact hn)]
    exact .rpc g n c m hn
  | single =>
    cases c with
    | insert w i =>
      simp only [State.advance, request_eq]
      rw [goto_eq _ (c := .insert w i) (pc := .single) (by exact hn)]
      exact .inr (.request g n _ _ _ _ hn (.single w i))
    | insertIn w i =>
      simp only [State.advance, request_eq]
      rw [goto_eq _ (c := .insertIn w i) (pc := .single) (by exact hn)]
      exact .inr (.request g n _ _ _ _ hn (.singleIn w i))
    | _ => exact .inl rfl
  | check ms =>
    right
    simp only [State.advance, goto_eq s hn, throw_eq s hn]
    split
    · rename_i hw; exact .move g n _ _ _ hn (.check c ms hw)
    · rename_i hw; exact .throw g n _ _ hn (.check c ms (by simpa using hw))
  | list =>
    cases c with
    | insertList l =>
      simp only [State.advance, requests_eq]
      rw [goto_eq _ (c := .insertList l) (pc := .list) (by exact hn)]
      exact .inr (.request g n _ _ _ _ hn (.list l))
    | _ => exact .inl rfl
  | lock ms =>
    simp only [State.advance, goto_eq s hn]
    split
    · rename_i hm; exact .inr (.lock g n c ms hn hm)
    · exact .inl rfl
  | write ms =>
    cases ms with
    | nil =>
      right
      simp only [State.advance, ret_eq s hn]
      exact .ret g n _ _ _ _ _ hn (.write c)
    | cons m ms =>
      simp only [State.advance, goto_eq s hn]
      split
      · rename_i hw; exact .inr (.nullWrite g n c m ms hn hw)
      · rename_i k hw
        split
        · exact .inl rfl
        · rename_i z hz
          right
          split
          · rename_i hd; exact .lateWrite g n c m ms k z hn hw hz hd
          · rename_i hd
            split
            · rename_i hb; exact .move g n _ _ _ hn (.broken c m ms k z hw hz hb)
            · rename_i hb
              exact Tr.write g n c m ms k z hn hw hz (by simpa using hd) (by simpa using hb)
  | writesDone =>
    simp only [State.advance, goto_eq s hn]
    split
    · rename_i hw; exact .inr (.nullDone g n c hn hw)
    · rename_i k hw
      split
      · exact .inl rfl
      · rename_i z hz
        right
        split
        · rename_i hd; exact .lateDone g n c k z hn hw hz hd
        · rename_i hd; exact Tr.writesDone g n c k z hn hw hz (by simpa using hd)
  | wait =>
    simp only [State.advance, goto_eq s hn]
    split
    · rename_i hw; exact .inr (.nullWait g n c hn hw)
    · rename_i k hw
      split
      · exact .inl rfl
      · rename_i z hz
        split
        · rename_i hq; exact .inr (.move g n _ _ _ hn (.waited c k z hw hz (by simpa using hq)))
        · exact .inl rfl
  | down =>
    simp only [State.advance, goto_eq s hn]
    exact .inr (.down g n c hn)
  | reset =>
    simp only [State.advance, ret_eq s hn]
    exact .inr (.ret g n _ _ _ _ _ hn (.reset c))
  | opening =>
    simp only [State.advance, goto_eq s hn]
    right
    split
    · rename_i k hw; exact .reopened g n c k hn hw
    · rename_i hw; exact .opened g n c hn hw
  | up =>
    simp only [State.advance, ret_eq s hn]
    exact .inr (.ret g n _ _ _ _ _ hn (.up c))
  | over => exact .inl rfl

/-- Every step of the model is one of the relation, or changes nothing. -/
theorem step_tr (s : State S) (a : Act Kw) :
    s.step a = s ∨ (s.fault = none ∧ Tr s (Act.good a) (s.step a)) := by
  unfold State.step
  split
  · exact .inl rfl
  · rename_i hf
    cases a with
    | call c => exact .inr ⟨hf, .call _ c⟩
    | step n =>
      dsimp only
      split
      · rename_i c pc hn
        rcases advance_tr s true hn with h | h
        · exact .inl h
        · exact .inr ⟨hf, h⟩
      · exact .inl rfl
    | rpcFail n st =>
      dsimp only
      split
      · rename_i c m hn
        right
        refine ⟨hf, ?_⟩
        cases st with
        | true =>
          simp only [if_true]
          rw [ret_eq (s.store m) (c := c) (pc := .rpc m) (by exact hn)]
          exact .rpc _ n c m hn
        | false =>
          simp only [Bool.false_eq_true, if_false]
          rw [ret_eq s hn]
          exact .rpcLost n c m hn
      · exact .inl rfl
    | recv k =>
      dsimp only
      split
      · rename_i m ms d hz
        exact .inr ⟨hf, .recv _ k m ms d hz⟩
      · exact .inl rfl
    | «break» k => exact .inr ⟨hf, .break k⟩

end Verif.Runner.Sess
