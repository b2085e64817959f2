import Verif.Runner.SessionEx

/-!
# Update sessions: the steps preserve `Ex`, and there is no fault
-/

namespace Verif.Runner.Sess

open Verif

variable {Kw : Type} {S : Scheme Kw} [DecidableEq Kw]

omit [DecidableEq Kw] in
theorem shape_insert {c : Call Kw} {pc : Pc S} (h : Shape c pc) (h1 : pc ≠ .begin) (h2 : pc ≠ .over)
    (h3 : pc.mid = false) : c.isSession = false ∧ c.isSearch = false := by
  cases pc <;> simp only [Shape] at h <;> first
    | exact absurd rfl h1
    | exact absurd rfl h2
    | exact h
    | (obtain ⟨l, rfl⟩ := h; exact ⟨rfl, rfl⟩)
    | (obtain ⟨w, i, rfl⟩ := h; exact ⟨rfl, rfl⟩)
    | (obtain ⟨w, i, rfl | rfl⟩ := h <;> exact ⟨rfl, rfl⟩)
    | simp [Pc.mid] at h3

/-- The session of an insertion in progress -/
theorem Ex.insIdle {s : State S} (h : Ex s) (hx : (scan s.trace).exclusive = true) {n : Nat} {c : Call Kw}
    {pc : Pc S} (hn : s.calls[n]? = some (c, pc)) (h1 : pc ≠ .begin) (h2 : pc ≠ .over) (h3 : pc.mid = false) :
    Idle s := by
  obtain ⟨hc, hs⟩ := shape_insert (h.shape n c pc hn) h1 h2 h3
  exact h.idle (h.noMid hx hn h2 hc hs)

theorem Ex.move {s : State S} (h : Ex s) (hx : (scan s.trace).exclusive = true) {n : Nat} {c : Call Kw}
    {pc pc' : Pc S} (hn : s.calls[n]? = some (c, pc)) (hm : Move s c pc pc') :
    Ex { s with calls := s.calls.set n (c, pc') } := by
  have hidle : ∀ {l}, c = Call.insertList l → pc = .begin → Idle s := by
    rintro l rfl rfl
    exact h.idle (h.noMid hx hn (by simp) rfl rfl)
  have hsidle : c.isSession = true → pc = .begin → Idle s := by
    rintro hc rfl
    refine h.idle fun m d q hq => ?_
    by_cases hmn : m = n
    · subst hmn
      rw [hn] at hq
      cases hq
      rfl
    · rcases h.others hx hn (by simp) hc hq hmn with rfl | rfl <;> rfl
  have hover : pc ≠ .over := by cases hm <;> simp
  have hover' : pc' ≠ .over := by cases hm <;> simp
  refine h.calm hn rfl rfl rfl rfl (h.act.goto hn hover hover' rfl) ?_ ?_ ?_ h.opn h.stOpen
  · cases hm with
    | inSession w i => exact ⟨w, i, .inl rfl⟩
    | direct w i => exact ⟨w, i, rfl⟩
    | single w i => exact ⟨w, i, .inr rfl⟩
    | check ms =>
      obtain ⟨w, i, rfl | rfl⟩ := h.shape n c _ hn <;> exact ⟨rfl, rfl⟩
    | list l => exact ⟨l, rfl⟩
    | opening => rfl
    | closing => rfl
    | waited => exact (h.shape n c _ hn : Shape c Pc.wait)
    | broken => exact (h.shape n c _ hn : Shape c (Pc.write _))
  · cases hm with
    | inSession w i hw => exact fun _ => hw
    | direct w i hw => exact hw
    | single w i => rintro ⟨w', i', he⟩; cases he
    | check _ ms hu =>
      have := h.insIdle hx hn (by simp) (by simp) rfl
      rw [this.1] at hu
      exact hu
    | list l hu =>
      have := hidle rfl rfl
      rw [this.1] at hu
      exact hu
    | opening hw =>
      have := hsidle rfl rfl
      refine ⟨hw, ?_⟩
      rw [this.1, hw]
      rfl
    | closing hw =>
      have hi := hsidle rfl rfl
      refine ⟨by rw [hi.1]; exact hw, ?_⟩
      obtain ⟨k, hk⟩ := Option.isSome_iff_exists.mp hw
      obtain ⟨z, hz, hd⟩ := hi.2 k hk
      exact ⟨k, z, hk, hz, hd⟩
    | waited _ k z hw hz hq => exact ⟨k, z, hw, hz, hq⟩
    | broken _ m ms k z hw hz hb => exact (h.loc n c _ hn : Loc s c (Pc.write (m :: ms)))
  · cases hm <;> simp [Pc.mid]

/-- A step that does not change the positions of the calls -/
theorem Ex.still {s s' : State S} (h : Ex s) (hc : s'.calls = s.calls) (ht : scan s'.trace = scan s.trace)
    (f : Frame s s') (hq : ∀ (k : Nat) z, s.streams[k]? = some z → z.queue = [] →
      ∀ z', s'.streams[k]? = some z' → z'.queue = []) : Ex s' := by
  refine ⟨?_, ?_, ?_, ?_, ?_, ?_⟩
  · intro n c
    rw [ht, hc]
    exact h.act n c
  · rw [hc]; exact h.shape
  · rw [hc]
    intro n c pc hn
    exact f.loc (fun _ => hq) (h.loc n c pc hn)
  · rw [hc]
    intro hall
    exact f.idle (h.idle hall)
  · rw [ht, f.writer]; exact h.opn
  · rw [ht]; exact h.stOpen

theorem Ex.call {s : State S} (h : Ex s) (c : Call Kw) :
    Ex { s with calls := s.calls ++ [(c, .begin)], trace := s.trace ++ [.called s.calls.length c] } := by
  have hget : ∀ {m : Nat} {d q}, (s.calls ++ [(c, Pc.begin)])[m]? = some (d, q) →
      s.calls[m]? = some (d, q) ∨ (m = s.calls.length ∧ d = c ∧ q = .begin) := by
    intro m d q hm
    rw [List.getElem?_append] at hm
    split at hm
    · exact .inl hm
    · right
      cases hx : m - s.calls.length with
      | zero => rw [hx] at hm; simp at hm; exact ⟨by omega, hm.1.symm, hm.2.symm⟩
      | succ x => rw [hx] at hm; simp at hm
  have f : Frame s { s with calls := s.calls ++ [(c, .begin)],
                            trace := s.trace ++ [.called s.calls.length c] } := frame_same rfl rfl rfl
  have hq : ∀ (k : Nat) z, s.streams[k]? = some z → z.queue = [] →
      ∀ z', s.streams[k]? = some z' → z'.queue = [] := by
    intro k z h1 h2 z' h3
    rw [h1] at h3
    cases h3
    exact h2
  refine ⟨?_, ?_, ?_, ?_, ?_, ?_⟩
  · intro m d
    simp only [next_called, List.mem_append, List.mem_singleton, h.act m d, Prod.mk.injEq]
    constructor
    · rintro (⟨pc, h1, h2⟩ | ⟨rfl, rfl⟩)
      · refine ⟨pc, ?_, h2⟩
        rw [List.getElem?_append_left (List.getElem?_eq_some_iff.mp h1).1]
        exact h1
      · exact ⟨.begin, by simp, by simp⟩
    · rintro ⟨pc, h1, h2⟩
      rcases hget h1 with h1 | ⟨rfl, rfl, rfl⟩
      · exact .inl ⟨pc, h1, h2⟩
      · exact .inr ⟨rfl, rfl⟩
  · intro m d q hm
    rcases hget hm with h1 | ⟨rfl, rfl, rfl⟩
    · exact h.shape m d q h1
    · trivial
  · intro m d q hm
    rcases hget hm with h1 | ⟨rfl, rfl, rfl⟩
    · exact f.loc (fun _ => hq) (h.loc m d q h1)
    · trivial
  · intro hall
    refine f.idle (h.idle fun m d q h1 => hall m d q ?_)
    rw [List.getElem?_append_left (List.getElem?_eq_some_iff.mp h1).1]
    exact h1
  · simp only [next_called, Bool.or_eq_false_iff]
    intro ho
    exact h.opn ho.1
  · intro m
    simp only [next_called, List.mem_append, List.mem_singleton, Prod.mk.injEq, Bool.or_eq_true,
      decide_eq_true_eq]
    rintro (h1 | ⟨-, h1⟩)
    · exact .inl (h.stOpen m h1)
    · exact .inr h1.symm

theorem Ex.ret {s : State S} (h : Ex s) (hx : (scan s.trace).exclusive = true) {n : Nat} {c : Call Kw}
    {pc : Pc S} {w : Option Nat} {u : Bool} {x : Option Nat} (hn : s.calls[n]? = some (c, pc))
    (hr : Ret s c pc w u x) :
    Ex { s with calls := s.calls.set n (c, .over), writer := w, isUp := u, mtx := x,
                trace := s.trace ++ [.returned n] } := by
  have hact : ActOk (s.trace ++ [.returned n]) (s.calls.set n (c, .over)) :=
    h.act.over hn (by rw [next_returned])
  have hst : ∀ m, (m, Call.start) ∈ (scan (s.trace ++ [.returned n])).active → c ≠ .finish →
      (scan (s.trace ++ [.returned n])).isOpen = true := by
    intro m hm hc
    rw [h.returned_isOpen hn hc]
    rw [next_returned] at hm
    exact h.stOpen m (List.mem_of_mem_filter hm)
  have hsf : c = .finish → pc ≠ .over → ∀ m, (m, Call.start) ∈ (scan (s.trace ++ [.returned n])).active →
      (scan (s.trace ++ [.returned n])).isOpen = true := by
    rintro rfl hpc m hm
    rw [next_returned] at hm
    exact absurd (List.mem_of_mem_filter hm) (h.finish_start hx hn hpc m)
  cases hr with
  | write =>
    have hc : c ≠ .finish := by
      have := h.shape n c _ hn
      rintro rfl
      cases this.1
    refine h.calm (pc' := .over) hn rfl rfl rfl rfl hact trivial trivial (by simp [Pc.mid]) ?_ (fun m hm => hst m hm hc)
    dsimp only
    rw [h.returned_isOpen hn hc]
    exact h.opn
  | start hw =>
    refine h.calm (pc' := .over) hn rfl rfl rfl rfl hact trivial trivial (by simp [Pc.mid]) ?_
      (fun m hm => hst m hm (by simp))
    dsimp only
    rw [h.returned_isOpen hn (by simp)]
    exact h.opn
  | up =>
    have hc : c = .start := h.shape n c _ hn
    subst hc
    obtain ⟨-, k, z, hk, hz, hd⟩ := h.loc n _ _ hn
    refine h.turn (pc' := .over) hx hn rfl (by simp) rfl hact trivial trivial ?_ ?_ (fun m hm => hst m hm (by simp))
    · intro _
      refine ⟨by simp [hk], fun k' hk' => ?_⟩
      dsimp only at hk'
      rw [hk] at hk'
      cases hk'
      exact ⟨z, hz, hd⟩
    · dsimp only
      rw [h.returned_isOpen hn (by simp)]
      exact h.opn
  | finish hw =>
    refine h.calm (pc' := .over) hn rfl rfl rfl rfl hact trivial trivial (by simp [Pc.mid]) (fun _ => hw)
      (hsf rfl (by simp))
  | reset =>
    have hc : c = .finish := h.shape n c _ hn
    subst hc
    obtain ⟨hu, -⟩ := h.loc n _ _ hn
    refine h.turn (pc' := .over) hx hn rfl (by simp) rfl hact trivial trivial ?_ (fun _ => rfl) (hsf rfl (by simp))
    intro _
    exact ⟨by simp [hu], fun k hk => by cases hk⟩

theorem Ex.tr {s s' : State S} {g : Bool} (h : Ex s) (hx : (scan s.trace).exclusive = true)
    (ht : Tr s g s') : Ex s' ∧ s'.fault = s.fault := by
  cases ht with
  | call _ c => exact ⟨h.call c, rfl⟩
  | move _ n c pc pc' hn hm => exact ⟨h.move hx hn hm, rfl⟩
  | ret _ n c pc w u x hn hr => exact ⟨h.ret hx hn hr, rfl⟩
  | throw _ n c pc hn hth =>
    refine ⟨?_, rfl⟩
    have hmid : pc.mid = false := by cases hth <;> rfl
    refine h.calm (pc' := .over) hn rfl rfl rfl rfl (h.act.over hn (by rw [next_threw])) trivial trivial
      (by simp [hmid]) ?_ ?_
    · dsimp only
      rw [next_threw]
      exact h.opn
    · intro m hm
      dsimp only at hm ⊢
      rw [next_threw] at hm ⊢
      exact h.stOpen m (List.mem_of_mem_filter hm)
  | request _ n c pc l pc' hn ha =>
    refine ⟨?_, rfl⟩
    have hover : pc ≠ .over := by cases ha <;> simp
    have hover' : pc' (number (numReqs s.trace) (cliRun S s.cli l).1) ≠ .over := by
      cases ha <;> simp [cliRun, number]
    have hloc := h.loc n c pc hn
    refine h.calm hn rfl rfl rfl rfl (h.act.goto hn hover hover' (scan_requested _ _ _)) ?_ ?_ ?_ ?_ ?_
    · cases ha with
      | direct w i => exact ⟨w, i, rfl⟩
      | single w i => exact ⟨w, i, .inl rfl⟩
      | singleIn w i => exact ⟨w, i, .inr rfl⟩
      | list => exact ⟨rfl, rfl⟩
    · cases ha with
      | direct w i => exact hloc
      | single w i => exact hloc
      | singleIn w i => exact hloc
      | list => exact hloc
    · cases ha <;> simp [Pc.mid]
    · dsimp only
      rw [scan_requested]
      exact h.opn
    · dsimp only
      rw [scan_requested]
      exact h.stOpen
  | rpc _ n c m hn =>
    refine ⟨?_, rfl⟩
    obtain ⟨w, i, rfl⟩ := h.shape n c _ hn
    have hsc : scan (s.trace ++ [.stored m.1] ++ [.returned n]) = scan (s.trace ++ [.returned n]) := by
      rw [next_returned, next_stored, next_returned]
    refine h.calm (pc' := .over) hn rfl rfl rfl rfl (h.act.over hn (by dsimp only; rw [hsc, next_returned]))
      trivial trivial (by simp [Pc.mid]) ?_ ?_
    · dsimp only
      rw [hsc, h.returned_isOpen hn (by simp)]
      exact h.opn
    · intro m' hm'
      dsimp only at hm' ⊢
      rw [hsc] at hm' ⊢
      rw [h.returned_isOpen hn (by simp)]
      rw [next_returned] at hm'
      exact h.stOpen m' (List.mem_of_mem_filter hm')
  | rpcLost n c m hn =>
    refine ⟨?_, rfl⟩
    obtain ⟨w, i, rfl⟩ := h.shape n c _ hn
    refine h.calm (pc' := .over) hn rfl rfl rfl rfl (h.act.over hn (by rw [next_returned]))
      trivial trivial (by simp [Pc.mid]) ?_ ?_
    · dsimp only
      rw [h.returned_isOpen hn (by simp)]
      exact h.opn
    · intro m' hm'
      dsimp only at hm' ⊢
      rw [h.returned_isOpen hn (by simp)]
      rw [next_returned] at hm'
      exact h.stOpen m' (List.mem_of_mem_filter hm')
  | lock _ n c ms hn hm =>
    refine ⟨?_, rfl⟩
    exact h.calm (pc' := .write ms) hn rfl rfl rfl rfl (h.act.goto hn (by simp) (by simp) rfl)
      (h.shape n c _ hn : Shape c (Pc.lock ms)) (h.loc n c _ hn : Loc s c (Pc.lock ms)) (by simp [Pc.mid]) h.opn h.stOpen
  | write _ n c m ms k z hn hw hz hd hb =>
    refine ⟨?_, rfl⟩
    obtain ⟨hc, hs⟩ := h.shape n c _ hn
    have hno := h.noMid hx hn (by simp) hc hs
    have hidle := h.idle hno
    have f : Frame s { s with calls := s.calls.set n (c, .write ms),
                              streams := s.streams.set k { z with queue := z.queue ++ [m] } } := by
      refine ⟨rfl, rfl, fun k' z' hz' => ?_⟩
      by_cases hk : k = k'
      · subst hk
        rw [hz] at hz'
        cases hz'
        exact ⟨{ z with queue := z.queue ++ [m] }, by simp [(List.getElem?_eq_some_iff.mp hz).1], rfl⟩
      · exact ⟨z', by rw [← hz']; exact List.getElem?_set_ne hk, rfl⟩
    refine ⟨h.act.goto hn (by simp) (by simp) rfl, ?_, ?_, fun _ => f.idle hidle, h.opn, h.stOpen⟩
    · intro j d q hj
      rcases getElem?_set_some hn hj with ⟨rfl, he⟩ | ⟨-, h0⟩
      · cases he; exact ⟨hc, hs⟩
      · exact h.shape j d q h0
    · intro j d q hj
      rcases getElem?_set_some hn hj with ⟨rfl, he⟩ | ⟨-, h0⟩
      · cases he
        exact h.loc _ _ _ hn
      · refine f.loc (fun hmid => ?_) (h.loc j d q h0)
        rw [hno j d q h0] at hmid
        cases hmid
  | opened _ n c hn hw =>
    refine ⟨?_, rfl⟩
    have hc : c = .start := h.shape n c _ hn
    subst hc
    obtain ⟨-, hu⟩ := h.loc n _ _ hn
    refine h.turn (pc' := .up) hx hn rfl (by simp) rfl (h.act.goto hn (by simp) (by simp) rfl) rfl ?_
      (by simp [Pc.mid]) ?_ h.stOpen
    · exact ⟨hu, s.streams.length, ⟨[], false, false⟩, rfl, by simp, rfl⟩
    · intro ho
      rw [h.stOpen n ((h.act n _).mpr ⟨_, hn, by simp⟩)] at ho
      cases ho
  | reopened _ n c k hn hw =>
    have hc : c = .start := h.shape n c _ hn
    subst hc
    obtain ⟨h0, -⟩ := h.loc n _ _ hn
    rw [hw] at h0
    cases h0
  | writesDone _ n c k z hn hw hz hd =>
    refine ⟨?_, rfl⟩
    have hc : c = .finish := h.shape n c _ hn
    subst hc
    obtain ⟨hu, -⟩ := h.loc n _ _ hn
    refine h.turn (pc' := .wait) hx hn rfl (by simp) rfl (h.act.goto hn (by simp) (by simp) rfl) rfl ?_
      (by simp [Pc.mid]) h.opn h.stOpen
    exact ⟨hu, k, { z with done := true }, hw, by simp [(List.getElem?_eq_some_iff.mp hz).1], rfl⟩
  | down _ n c hn =>
    refine ⟨?_, rfl⟩
    have hc : c = .finish := h.shape n c _ hn
    subst hc
    have hl := h.loc n _ _ hn
    exact h.turn (pc' := .reset) hx hn rfl (by simp) rfl (h.act.goto hn (by simp) (by simp) rfl) rfl
      ⟨rfl, hl⟩ (by simp [Pc.mid]) h.opn h.stOpen
  | search _ n w hn =>
    refine ⟨?_, rfl⟩
    refine h.calm (pc' := .over) hn rfl rfl rfl rfl (h.act.over hn (by rw [next_found])) trivial trivial
      (by simp [Pc.mid]) ?_ ?_
    · dsimp only
      rw [next_found]
      exact h.opn
    · intro m hm
      dsimp only at hm ⊢
      rw [next_found] at hm ⊢
      exact h.stOpen m (List.mem_of_mem_filter hm)
  | recv _ k m ms d hz =>
    refine ⟨?_, rfl⟩
    refine h.still rfl (next_stored _ _) ⟨rfl, rfl, fun k' z' hz' => ?_⟩ ?_
    · by_cases hk : k = k'
      · subst hk
        rw [hz] at hz'
        cases hz'
        exact ⟨⟨ms, d, false⟩, by simp [(List.getElem?_eq_some_iff.mp hz).1], rfl⟩
      · exact ⟨z', by rw [← hz']; exact List.getElem?_set_ne hk, rfl⟩
    · intro k' y hy hq y' hy'
      rcases getElem?_set_some hz hy' with ⟨rfl, rfl⟩ | ⟨-, h0⟩
      · rw [hz] at hy
        cases hy
        cases hq
      · rw [hy] at h0
        cases h0
        exact hq
  | «break» k =>
    refine ⟨?_, rfl⟩
    refine h.still rfl rfl ⟨rfl, rfl, fun k' z' hz' => ?_⟩ ?_
    · by_cases hk : k = k'
      · subst hk
        exact ⟨{ z' with queue := [], broken := true }, by simp [hz'], rfl⟩
      · exact ⟨z', by simp [hk, hz'], rfl⟩
    · intro k' y hy hq y' hy'
      obtain ⟨x, hx', rfl | rfl⟩ := getElem?_modify_some hy'
      · rw [hy] at hx'
        cases hx'
        exact hq
      · rfl
  | nullWrite _ n c m ms hn hw =>
    have := h.loc n c _ hn
    simp [Loc, hw] at this
  | nullDone _ n c hn hw =>
    obtain ⟨-, k, z, hk, -⟩ := h.loc n c _ hn
    rw [hw] at hk
    cases hk
  | nullWait _ n c hn hw =>
    obtain ⟨-, k, z, hk, -⟩ := h.loc n c _ hn
    rw [hw] at hk
    cases hk
  | lateWrite _ n c m ms k z hn hw hz hd =>
    obtain ⟨z', hz', hd'⟩ := (h.insIdle hx hn (by simp) (by simp) rfl).2 k hw
    rw [hz] at hz'
    cases hz'
    rw [hd] at hd'
    cases hd'
  | lateDone _ n c k z hn hw hz hd =>
    obtain ⟨-, k', z', hk, hz', hd'⟩ := h.loc n c _ hn
    rw [hw] at hk
    cases hk
    rw [hz] at hz'
    cases hz'
    rw [hd] at hd'
    cases hd'

omit [DecidableEq Kw] in
theorem step_trace (s : State S) (a : Act Kw) : ∃ u, (s.step a).trace = s.trace ++ u := by
  rcases step_tr s a with h | ⟨-, h⟩
  · exact ⟨[], by rw [h]; simp⟩
  · exact tr_trace h

omit [DecidableEq Kw] in
theorem run_trace (s : State S) (acts : List (Act Kw)) : ∃ u, (s.run acts).trace = s.trace ++ u := by
  unfold State.run
  induction acts generalizing s with
  | nil => exact ⟨[], by simp⟩
  | cons a acts ih =>
    obtain ⟨u, hu⟩ := step_trace s a
    obtain ⟨v, hv⟩ := ih (s.step a)
    exact ⟨u ++ v, by rw [List.foldl_cons, hv, hu, List.append_assoc]⟩

theorem Ex.step {s : State S} (h : Ex s) (hx : Exclusive s.trace) (a : Act Kw) :
    Ex (s.step a) ∧ (s.step a).fault = s.fault := by
  rcases step_tr s a with h0 | ⟨-, h0⟩
  · rw [h0]; exact ⟨h, rfl⟩
  · exact h.tr (hx s.trace [] (by simp)) h0

theorem Ex.run {s : State S} (h : Ex s) (acts : List (Act Kw)) (hx : Exclusive (s.run acts).trace) :
    Ex (s.run acts) ∧ (s.run acts).fault = s.fault := by
  induction acts generalizing s with
  | nil => exact ⟨h, rfl⟩
  | cons a acts ih =>
    have hx0 : Exclusive s.trace := by
      obtain ⟨u, hu⟩ := run_trace s (a :: acts)
      rw [hu] at hx
      intro p q hpq
      exact hx p (q ++ u) (by rw [hpq, List.append_assoc])
    obtain ⟨h1, h2⟩ := h.step hx0 a
    obtain ⟨h3, h4⟩ := ih h1 hx
    exact ⟨h3, h4.trans h2⟩

end Verif.Runner.Sess
