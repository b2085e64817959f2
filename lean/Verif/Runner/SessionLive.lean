import Verif.Runner.SessionGood
import Mathlib.Data.List.Induction

/-!
# Update sessions: the calls end
-/

namespace Verif.Runner.Sess

open Verif

variable {Kw : Type} {S : Scheme Kw}

/-- The mutex is held by a call that writes, and broken streams hold nothing. -/
structure Held (s : State S) : Prop where
  mtx : ∀ n, s.mtx = some n → ∃ c ms, s.calls[n]? = some (c, .write ms)
  broken : ∀ (k : Nat) z, s.streams[k]? = some z → z.broken = true → z.queue = []

theorem held_init : Held (init S) := by
  constructor <;> simp [init]

theorem Held.tr {s s' : State S} {g : Bool} (h : Held s) (ht : Tr s g s') : Held s' := by
  -- a call other than the one that holds the mutex goes on
  have hset : ∀ {n : Nat} {c : Call Kw} {pc pc' : Pc S}, s.calls[n]? = some (c, pc) →
      ((∀ ms, pc ≠ .write ms) ∨ ∃ ms, pc' = .write ms) →
      ∀ m, s.mtx = some m → ∃ d ms, (s.calls.set n (c, pc'))[m]? = some (d, .write ms) := by
    intro n c pc pc' hn hpc m hm
    obtain ⟨d, ms, hd⟩ := h.mtx m hm
    by_cases he : n = m
    · subst he
      rw [hn] at hd
      cases hd
      rcases hpc with h1 | ⟨ms', rfl⟩
      · exact absurd rfl (h1 ms)
      · exact ⟨c, ms', by rw [List.getElem?_set_self (List.getElem?_eq_some_iff.mp hn).1]⟩
    · exact ⟨d, ms, by rw [List.getElem?_set_ne he]; exact hd⟩
  have hcut : ∀ (k j : Nat) (z : Stream S),
      (s.streams.modify k (fun z => { z with queue := [], broken := true }))[j]? = some z →
      z.broken = true → z.queue = [] := by
    intro k j z hj hb
    obtain ⟨x, hx, rfl | rfl⟩ := getElem?_modify_some hj
    · exact h.broken j z hx hb
    · rfl
  have hnew : ∀ (l : List (Stream S)), (∀ (j : Nat) z, l[j]? = some z → z.broken = true → z.queue = []) →
      ∀ (j : Nat) z, (l ++ [⟨[], false, false⟩])[j]? = some z → z.broken = true → z.queue = [] := by
    intro l hl j z hj hb
    rw [List.getElem?_append] at hj
    split at hj
    · exact hl j z hj hb
    · have : z = ⟨[], false, false⟩ := by simpa using List.mem_of_getElem? hj
      rw [this]
  cases ht with
  | call _ c =>
    refine ⟨fun m hm => ?_, h.broken⟩
    obtain ⟨d, ms, hd⟩ := h.mtx m hm
    exact ⟨d, ms, by rw [List.getElem?_append_left (List.getElem?_eq_some_iff.mp hd).1]; exact hd⟩
  | move _ n c pc pc' hn hm =>
    refine ⟨hset hn ?_, h.broken⟩
    cases hm with
    | broken => exact .inr ⟨_, rfl⟩
    | _ => exact .inl (by simp)
  | ret _ n c pc w u x hn hr =>
    refine ⟨?_, h.broken⟩
    cases hr with
    | write => intro m hm; cases hm
    | _ => exact hset hn (.inl (by simp))
  | throw _ n c pc hn ht => exact ⟨hset hn (.inl (by cases ht <;> simp)), h.broken⟩
  | request _ n c pc l pc' hn ha => exact ⟨hset hn (.inl (by cases ha <;> simp)), h.broken⟩
  | rpc _ n c m hn => exact ⟨hset hn (.inl (by simp)), h.broken⟩
  | rpcLost n c m hn => exact ⟨hset hn (.inl (by simp)), h.broken⟩
  | lock _ n c ms hn hm =>
    refine ⟨fun m h1 => ?_, h.broken⟩
    cases h1
    exact ⟨c, ms, by rw [List.getElem?_set_self (List.getElem?_eq_some_iff.mp hn).1]⟩
  | write _ n c m ms k z hn hw hz hd hb =>
    refine ⟨hset hn (.inr ⟨_, rfl⟩), fun j y hj hy => ?_⟩
    rcases getElem?_set_some hz hj with ⟨rfl, rfl⟩ | ⟨-, h0⟩
    · rw [hb] at hy; cases hy
    · exact h.broken j y h0 hy
  | opened _ n c hn hw => exact ⟨hset hn (.inl (by simp)), hnew _ h.broken⟩
  | reopened _ n c k hn hw => exact ⟨hset hn (.inl (by simp)), hnew _ (hcut k)⟩
  | writesDone _ n c k z hn hw hz hd =>
    refine ⟨hset hn (.inl (by simp)), fun j y hj hy => ?_⟩
    rcases getElem?_set_some hz hj with ⟨rfl, rfl⟩ | ⟨-, h0⟩
    · exact h.broken j z hz hy
    · exact h.broken j y h0 hy
  | down _ n c hn => exact ⟨hset hn (.inl (by simp)), h.broken⟩
  | search _ n w hn => exact ⟨hset hn (.inl (by simp)), h.broken⟩
  | recv _ k m ms d hz =>
    refine ⟨h.mtx, fun j y hj hy => ?_⟩
    rcases getElem?_set_some hz hj with ⟨rfl, rfl⟩ | ⟨-, h0⟩
    · cases hy
    · exact h.broken j y h0 hy
  | «break» k => exact ⟨h.mtx, hcut k⟩
  | nullWrite | nullDone | nullWait | lateWrite | lateDone => exact ⟨h.mtx, h.broken⟩

theorem Held.step {s : State S} (h : Held s) (a : Act Kw) : Held (s.step a) := by
  rcases step_tr s a with h0 | ⟨-, h0⟩
  · rw [h0]; exact h
  · exact h.tr h0

theorem Held.run {s : State S} (h : Held s) (acts : List (Act Kw)) : Held (s.run acts) := by
  induction acts generalizing s with
  | nil => exact h
  | cons a acts ih => exact ih (h.step a)

/-- An upper bound for the steps that a call still makes, twice counting messages, which are also read -/
def weight : Call Kw → Pc S → Nat
  | .insert _ _, .begin => 7
  | .insertIn _ _, .begin => 7
  | .insertList l, .begin => 2 * l.length + 4
  | .start, .begin => 3
  | .finish, .begin => 5
  | .search _, .begin => 1
  | _, .direct => 2
  | _, .rpc _ => 1
  | _, .single => 6
  | _, .check ms => 2 * ms.length + 3
  | .insertList l, .list => 2 * l.length + 3
  | _, .list => 0
  | _, .lock ms => 2 * ms.length + 2
  | _, .write ms => 2 * ms.length + 1
  | _, .writesDone => 4
  | _, .wait => 3
  | _, .down => 2
  | _, .reset => 1
  | _, .opening => 2
  | _, .up => 1
  | _, .over => 0

/-- The steps still to make -/
def total (s : State S) : Nat :=
  (s.calls.map (fun c => weight c.1 c.2)).sum + (s.streams.map (fun z => z.queue.length)).sum

theorem total_set {s : State S} {n : Nat} {c : Call Kw} {pc pc' : Pc S} (hn : s.calls[n]? = some (c, pc))
    (h : weight c pc' < weight c pc) (str : List (Stream S))
    (hs : (str.map (fun z => z.queue.length)).sum ≤ (s.streams.map (fun z => z.queue.length)).sum) :
    ((s.calls.set n (c, pc')).map (fun c => weight c.1 c.2)).sum + (str.map (fun z => z.queue.length)).sum <
      total s := by
  have := sum_set (fun c : Call Kw × Pc S => weight c.1 c.2) (c, pc') hn
  simp only [total] at *
  omega

theorem number_length {U : Type} (k : Nat) (us : List U) : (number k us).length = us.length := by
  induction us generalizing k with
  | nil => rfl
  | cons u us ih => simp [number, ih]

/-- Every step but a call makes the number of steps smaller. -/
theorem total_tr {s s' : State S} {g : Bool} (h : Tr s g s') (hf : s'.fault = s.fault) (hs : s.fault = none)
    (hc : s'.calls.length = s.calls.length) (hg : g = true) : total s' < total s := by
  subst hg
  cases h with
  | call _ c => simp at hc
  | move _ n c pc pc' hn hm =>
    refine total_set hn ?_ _ (Nat.le_refl _)
    cases hm with
    | check => cases c <;> simp [weight]
    | waited => cases c <;> simp [weight]
    | broken => cases c <;> simp [weight]
    | _ => simp [weight]
  | ret _ n c pc w u x hn hr =>
    refine total_set hn ?_ _ (Nat.le_refl _)
    cases hr <;> (try cases c) <;> simp [weight]
  | throw _ n c pc hn ht =>
    refine total_set hn ?_ _ (Nat.le_refl _)
    cases ht <;> (try cases c) <;> simp [weight]
  | request _ n c pc l pc' hn ha =>
    refine total_set hn ?_ _ (Nat.le_refl _)
    cases ha with
    | direct => simp [weight, cliRun, number]
    | single => simp [weight, number_length, cliRun_length]
    | singleIn => simp [weight, number_length, cliRun_length]
    | list => simp [weight, number_length, cliRun_length]
  | rpc _ n c m hn =>
    refine total_set hn ?_ _ (Nat.le_refl _)
    cases c <;> simp [weight]
  | lock _ n c ms hn hm =>
    refine total_set hn ?_ _ (Nat.le_refl _)
    cases c <;> simp [weight]
  | write _ n c m ms k z hn hw hz hd hb =>
    have h1 := sum_set (fun c : Call Kw × Pc S => weight c.1 c.2) (c, .write ms) hn
    have h2 := sum_set (fun z : Stream S => z.queue.length) { z with queue := z.queue ++ [m] } hz
    have h3 : weight c (Pc.write (m :: ms)) = weight c (Pc.write ms) + 2 := by
      cases c <;> simp [weight] <;> omega
    simp only [total, List.length_append, List.length_cons, List.length_nil] at *
    omega
  | opened _ n c hn hw =>
    refine total_set hn ?_ _ (by simp)
    cases c <;> simp [weight]
  | reopened _ n c k hn hw =>
    refine total_set hn ?_ _ ?_
    · cases c <;> simp [weight]
    · simp only [List.map_append, List.sum_append]
      have := sum_modify_le (fun z : Stream S => z.queue.length) s.streams k
        (fun z => { z with queue := [], broken := true }) (by simp)
      simpa using this
  | writesDone _ n c k z hn hw hz hd =>
    refine total_set hn ?_ _ ?_
    · cases c <;> simp [weight]
    · have := sum_set (fun z : Stream S => z.queue.length) { z with done := true } hz
      dsimp only at this ⊢
      omega
  | down _ n c hn =>
    refine total_set hn ?_ _ (Nat.le_refl _)
    cases c <;> simp [weight]
  | search _ n w hn =>
    refine total_set hn ?_ _ (Nat.le_refl _)
    simp [weight]
  | recv _ k m ms d hz =>
    have := sum_set (fun z : Stream S => z.queue.length) ⟨ms, d, false⟩ hz
    simp only [total, List.length_cons] at *
    omega
  | nullWrite | nullDone | nullWait | lateWrite | lateDone =>
    dsimp only at hf
    rw [hs] at hf
    cases hf

variable [DecidableEq Kw]

omit [DecidableEq Kw] in
theorem goto_length (s : State S) (n : Nat) (pc : Pc S) : (s.goto n pc).calls.length = s.calls.length := by
  unfold State.goto
  split <;> simp

omit [DecidableEq Kw] in
theorem requests_calls (s : State S) (n : Nat) (l : List (Kw × Index)) : (s.requests n l).1.calls = s.calls := by
  rw [requests_eq]

omit [DecidableEq Kw] in
theorem advance_length (s : State S) (n : Nat) (c : Call Kw) (pc : Pc S) :
    (s.advance n c pc).calls.length = s.calls.length := by
  unfold State.advance
  split <;> (repeat' split) <;>
    simp [goto_length, requests_calls, State.ret, State.throw, State.request, State.store]

/-- A call that is not over can go on, or the server can read a message, or another call can go on. -/
theorem can_step {s : State S} (h : Held s) (hx : Ex s) (he : (scan s.trace).exclusive = true)
    (hf : s.fault = none) {n : Nat} {c : Call Kw} {pc : Pc S} (hn : s.calls[n]? = some (c, pc)) (ho : pc ≠ .over) :
    ∃ a, (∃ m, a = .step m ∨ a = .recv m) ∧ s.step a ≠ s := by
  have hstep : ∀ {m : Nat} {d : Call Kw} {q : Pc S}, s.calls[m]? = some (d, q) →
      s.step (.step m) = s.advance m d q := by
    intro m d q hm
    simp [State.step, hf, hm]
  have hl : ∀ {m : Nat} {d : Call Kw} {q : Pc S}, s.calls[m]? = some (d, q) → m < s.calls.length :=
    fun hm => (List.getElem?_eq_some_iff.mp hm).1
  -- a step that changes where the call is changes the state
  have hne : ∀ {m : Nat} {d : Call Kw} {q q' : Pc S} {s' : State S}, s.calls[m]? = some (d, q) →
      s'.calls[m]? = some (d, q') → q' ≠ q → s' ≠ s := by
    intro m d q q' s' hm hs hq heq
    subst heq
    rw [hm] at hs
    cases hs
    exact hq rfl
  -- the step of a call that writes
  have hwrite : ∀ (m : Nat) (d : Call Kw) (ms : List (Msg S)), s.calls[m]? = some (d, .write ms) →
      s.step (.step m) ≠ s := by
    intro m d ms hm
    rw [hstep hm]
    obtain ⟨hc1, hc2⟩ := (hx.shape m d _ hm : d.isSession = false ∧ d.isSearch = false)
    have hid := hx.idle (hx.noMid he hm (by simp) hc1 hc2)
    cases ms with
    | nil =>
      simp only [State.advance, ret_eq s hm]
      exact hne (q' := .over) hm (by simp [hl hm]) (by simp)
    | cons x ms =>
      obtain ⟨k, hk⟩ := Option.isSome_iff_exists.mp (hx.loc m d _ hm : s.writer.isSome = true)
      obtain ⟨z, hz, hd⟩ := hid.2 k hk
      simp only [State.advance, hk, hz, hd, goto_eq s hm]
      split
      · cases ‹false = true›
      · split
        · exact hne (q' := .write []) hm (by simp [hl hm]) (by simp)
        · exact hne (q' := .write ms) hm (by simp [hl hm]) (by simp)
  have hgo : ∀ q' : Pc S, q' ≠ pc → s.step (.step n) = s.goto n q' →
      ∃ a, (∃ m, a = .step m ∨ a = .recv m) ∧ s.step a ≠ s := by
    intro q' hq hs
    refine ⟨.step n, ⟨n, .inl rfl⟩, ?_⟩
    rw [hs, goto_eq s hn]
    exact hne (q' := q') hn (by simp [hl hn]) hq
  have hend : ∀ s' : State S, s'.calls[n]? = some (c, .over) → s.step (.step n) = s' →
      ∃ a, (∃ m, a = .step m ∨ a = .recv m) ∧ s.step a ≠ s := by
    intro s' hs' hs
    refine ⟨.step n, ⟨n, .inl rfl⟩, ?_⟩
    rw [hs]
    exact hne (q' := .over) hn hs' (fun e => ho e.symm)
  have hmid : ∀ (q' : Pc S) (s' : State S), q' ≠ pc → s'.calls[n]? = some (c, q') → s.step (.step n) = s' →
      ∃ a, (∃ m, a = .step m ∨ a = .recv m) ∧ s.step a ≠ s := by
    intro q' s' hq hs' hs
    refine ⟨.step n, ⟨n, .inl rfl⟩, ?_⟩
    rw [hs]
    exact hne (q' := q') hn hs' hq
  have hst := hstep hn
  have hover : (s.calls.set n (c, .over))[n]? = some (c, .over) := by simp [hl hn]
  have hshape := hx.shape n c pc hn
  cases pc with
  | begin =>
    cases c with
    | insert w i =>
      rw [State.advance] at hst
      split at hst
      · exact hgo _ (by simp) hst
      · exact hgo _ (by simp) hst
    | insertIn w i => exact hgo _ (by simp) hst
    | insertList l =>
      rw [State.advance] at hst
      split at hst
      · exact hgo _ (by simp) hst
      · exact hend _ (by rw [throw_eq s hn]; exact hover) hst
    | start =>
      rw [State.advance] at hst
      split at hst
      · exact hend _ (by rw [ret_eq s hn]; exact hover) hst
      · exact hgo _ (by simp) hst
    | finish =>
      rw [State.advance] at hst
      split at hst
      · exact hgo _ (by simp) hst
      · exact hend _ (by rw [ret_eq s hn]; exact hover) hst
    | search w => exact hend _ (by simp only [State.advance, goto_eq s hn]; exact hover) hst
  | direct =>
    obtain ⟨w, i, rfl⟩ := hshape
    refine hmid (.rpc (s.request n w i).2) _ (by simp) ?_ hst
    simp only [State.advance]
    rw [goto_eq (s.request n w i).1 (c := .insert w i) (pc := .direct) (by exact hn)]
    exact List.getElem?_set_self (hl hn)
  | rpc m =>
    refine hend _ ?_ hst
    simp only [State.advance]
    rw [ret_eq (s.store m) (c := c) (pc := .rpc m) (by exact hn)]
    exact hover
  | single =>
    obtain ⟨w, i, rfl | rfl⟩ := hshape
    · refine hmid (.check [(s.request n w i).2]) _ (by simp) ?_ hst
      simp only [State.advance]
      rw [goto_eq (s.request n w i).1 (c := .insert w i) (pc := .single) (by exact hn)]
      exact List.getElem?_set_self (hl hn)
    · refine hmid (.check [(s.request n w i).2]) _ (by simp) ?_ hst
      simp only [State.advance]
      rw [goto_eq (s.request n w i).1 (c := .insertIn w i) (pc := .single) (by exact hn)]
      exact List.getElem?_set_self (hl hn)
  | check ms =>
    rw [State.advance] at hst
    split at hst
    · exact hgo _ (by simp) hst
    · exact hend _ (by rw [throw_eq s hn]; exact hover) hst
  | list =>
    obtain ⟨l, rfl⟩ := hshape
    refine hmid (.lock (s.requests n l).2) _ (by simp) ?_ hst
    simp only [State.advance]
    rw [goto_eq (s.requests n l).1 (c := .insertList l) (pc := .list) (by rw [requests_calls]; exact hn)]
    rw [requests_calls]
    exact List.getElem?_set_self (hl hn)
  | lock ms =>
    rw [State.advance] at hst
    split at hst
    · refine hmid (.write ms) _ (by simp) ?_ hst
      rw [goto_eq s hn]
      exact List.getElem?_set_self (hl hn)
    · rename_i m hm
      obtain ⟨d, ms', hd⟩ := h.mtx m hm
      exact ⟨.step m, ⟨m, .inl rfl⟩, hwrite m d ms' hd⟩
  | write ms => exact ⟨.step n, ⟨n, .inl rfl⟩, hwrite n c ms hn⟩
  | writesDone =>
    obtain ⟨-, k, z, hk, hz, hd⟩ := hx.loc n c _ hn
    refine hmid .wait _ (by simp) ?_ hst
    simp only [State.advance, hk, hz, hd, goto_eq s hn]
    exact List.getElem?_set_self (hl hn)
  | wait =>
    obtain ⟨-, k, z, hk, hz, -⟩ := hx.loc n c _ hn
    cases hq : z.queue with
    | nil =>
      refine hgo .down (by simp) ?_
      rw [hst]
      simp [State.advance, hk, hz, hq]
    | cons m ms =>
      have hb : z.broken = false := by
        by_contra hb
        have := h.broken k z hz (by simpa using hb)
        rw [hq] at this
        cases this
      refine ⟨.recv k, ⟨k, .inr rfl⟩, ?_⟩
      obtain ⟨zq, zd, zb⟩ := z
      dsimp only at hq hb
      subst hq
      subst hb
      intro heq
      have := congrArg State.trace heq
      simp [State.step, hf, hz, State.store] at this
  | down =>
    refine hmid .reset _ (by simp) ?_ hst
    simp only [State.advance, goto_eq s hn]
    exact List.getElem?_set_self (hl hn)
  | reset =>
    refine hend _ ?_ hst
    simp only [State.advance, ret_eq s hn]
    exact hover
  | opening =>
    refine hmid .up _ (by simp) ?_ hst
    simp only [State.advance, goto_eq s hn]
    exact List.getElem?_set_self (hl hn)
  | up =>
    refine hend _ ?_ hst
    simp only [State.advance, ret_eq s hn]
    exact hover
  | over => exact absurd rfl ho

omit [DecidableEq Kw] in
theorem exclusive_filter (z : Scan Kw) (n : Nat) (b b' : Bool) (h : Scan.exclusive ⟨z.active, b⟩ = true) :
    Scan.exclusive ⟨z.active.filter (·.1 ≠ n), b'⟩ = true := by
  unfold Scan.exclusive at h ⊢
  rw [List.all_eq_true] at h ⊢
  intro a ha
  rw [List.all_eq_true]
  intro d hd
  have := h a (List.mem_filter.mp ha).1
  rw [List.all_eq_true] at this
  exact this d (List.mem_filter.mp hd).1

/-- Without new calls, the calls in progress stay compatible. -/
theorem exclusive_next (z : Scan Kw) (e : Event Kw) (h : z.exclusive = true) (hc : ∀ n c, e ≠ .called n c) :
    (z.next e).exclusive = true := by
  cases e with
  | called n c => exact absurd rfl (hc n c)
  | returned n => exact exclusive_filter z n _ _ h
  | threw n => exact exclusive_filter z n _ _ h
  | found n w r => exact exclusive_filter z n _ _ h
  | requested => exact h
  | stored => exact h

theorem exclusive_append {t u : List (Event Kw)} (h : Exclusive t) (hu : ∀ e ∈ u, ∀ n c, e ≠ .called n c) :
    Exclusive (t ++ u) := by
  induction u using List.reverseRecOn with
  | nil => simpa using h
  | append_singleton u e ih =>
    have ih' := ih (fun x hx => hu x (by simp [hx]))
    intro p q hpq
    rcases List.eq_nil_or_concat q with rfl | ⟨q', y, rfl⟩
    · rw [List.append_nil] at hpq
      rw [← hpq, ← List.append_assoc, scan_append]
      exact exclusive_next _ e (ih' (t ++ u) [] (by simp)) (hu e (by simp))
    · rw [List.concat_eq_append, ← List.append_assoc, ← List.append_assoc] at hpq
      exact ih' p q' (List.append_inj_left' hpq rfl)

omit [DecidableEq Kw] in
theorem tr_nocall {s s' : State S} {g : Bool} (h : Tr s g s') (hc : s'.calls.length = s.calls.length) :
    ∃ u, s'.trace = s.trace ++ u ∧ ∀ e ∈ u, ∀ n c, e ≠ Event.called n c := by
  cases h with
  | call => simp at hc
  | request =>
    refine ⟨_, rfl, ?_⟩
    intro e he n w
    obtain ⟨x, -, rfl⟩ := List.mem_map.mp he
    simp
  | _ => first
    | exact ⟨[], (List.append_nil _).symm, by simp⟩
    | exact ⟨_, rfl, by simp⟩
    | exact ⟨_, List.append_assoc _ _ _, by simp⟩

omit [DecidableEq Kw] in
theorem step_length (s : State S) (a : Act Kw) (h : ∃ m, a = .step m ∨ a = .recv m) :
    (s.step a).calls.length = s.calls.length := by
  obtain ⟨m, rfl | rfl⟩ := h
  · unfold State.step
    split
    · rfl
    · dsimp only
      split
      · exact advance_length s m _ _
      · rfl
  · unfold State.step
    split
    · rfl
    · dsimp only
      split <;> rfl

/-- All calls end if the calls and the server go on. -/
theorem completes {s : State S} (h : Held s) (hx : Ex s) (he : Exclusive s.trace) (hf : s.fault = none) :
    ∃ acts : List (Act Kw), (∀ a ∈ acts, ∃ m, a = .step m ∨ a = .recv m) ∧
      Ex (s.run acts) ∧ ∀ (n : Nat) c pc, (s.run acts).calls[n]? = some (c, pc) → pc = .over := by
  generalize ht : total s = t
  induction t using Nat.strongRecOn generalizing s with
  | _ t ih =>
    by_cases hall : ∀ (n : Nat) c pc, s.calls[n]? = some (c, pc) → pc = .over
    · exact ⟨[], by simp, hx, hall⟩
    · push Not at hall
      obtain ⟨n, c, pc, hn, ho⟩ := hall
      obtain ⟨a, ha, hne⟩ := can_step h hx (he s.trace [] (by simp)) hf hn ho
      have hlen := step_length s a ha
      obtain ⟨hx', hf'⟩ := hx.step he a
      rcases step_tr s a with h0 | ⟨-, h0⟩
      · exact absurd h0 hne
      · have hgood : Act.good a = true := by obtain ⟨m, rfl | rfl⟩ := ha <;> rfl
        have hlt := total_tr h0 hf' hf hlen hgood
        obtain ⟨u, hu, huc⟩ := tr_nocall h0 hlen
        obtain ⟨acts, h1, h2⟩ := ih _ (by omega) (h.step a) hx' (by rw [hu]; exact exclusive_append he huc)
          (hf'.trans hf) rfl
        refine ⟨a :: acts, ?_, h2⟩
        intro b hb
        rcases List.mem_cons.mp hb with rfl | hb
        · exact ha
        · exact h1 b hb

end Verif.Runner.Sess
