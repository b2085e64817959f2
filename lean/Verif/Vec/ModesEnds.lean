import Verif.Vec.ModesLemmas

/-!
# Calls end, and each asynchronous read is answered once
-/

namespace Verif.Vec.Modes

open Spec

variable {sz : Nat}

theorem sum_set {α : Type} (f : α → Nat) {l : List α} {n : Nat} {a : α} (h : l[n]? = some a) (x : α) :
    ((l.set n x).map f).sum + f a = (l.map f).sum + f x := by
  induction l generalizing n with
  | nil => cases h
  | cons y l ih =>
    cases n with
    | zero =>
      obtain rfl := Option.some.inj h
      simp only [List.set_cons_zero, List.map_cons, List.sum_cons]; omega
    | succ n =>
      have := ih h
      simp only [List.set_cons_succ, List.map_cons, List.sum_cons]; omega

theorem le_sum_of_mem {l : List Nat} {a : Nat} (h : a ∈ l) : a ≤ l.sum := by
  induction l with
  | nil => cases h
  | cons x l ih =>
    rw [List.sum_cons]
    rcases List.mem_cons.mp h with rfl | h
    · omega
    · have := ih h; omega

theorem count_eraseIdx {α : Type} (f : α → Nat) {l : List α} {i : Nat} {a : α} (h : l[i]? = some a) (x : Nat) :
    ((l.eraseIdx i).map f).count x + (if f a = x then 1 else 0) = (l.map f).count x := by
  induction l generalizing i with
  | nil => cases h
  | cons y l ih =>
    cases i with
    | zero =>
      obtain rfl := Option.some.inj h
      simp [List.count_cons]
    | succ i =>
      have := ih h
      simp only [List.eraseIdx_cons_succ, List.map_cons, List.count_cons]
      omega

/-! ## Answers -/

/-- How many reads of call `n` are pending in a scheduler -/
def asked (n : Nat) (d : Sched) : Nat := (d.pending.map Prod.fst).count n

/-- How many reads of call `n` are pending -/
def State.pendingOf (s : State sz) (n : Nat) : Nat := (s.scheds.map (asked n)).sum

/-- How many answers call `n` has -/
def State.answersOf (s : State sz) (n : Nat) : Nat := (s.answers.map Prod.fst).count n

/-- A call whose read was submitted has one read that is pending or answered, others have none. -/
def Once (s : State sz) : Prop :=
  ∀ n, s.pendingOf n + s.answersOf n = if s.calls[n]?.map Call.pc = some .submitted then 1 else 0

/-- Steps that do not submit and do not answer -/
theorem Once.same {s t : State sz} (h : Once s) {n : Nat} {c : Call sz} {pc' : Pc sz} (hn : s.calls[n]? = some c) (h1 : c.pc ≠ .submitted)
    (h2 : pc' ≠ .submitted) (hc : t.calls = s.calls.set n ⟨c.job, pc'⟩) (hp : ∀ m, t.pendingOf m = s.pendingOf m)
    (ha : t.answers = s.answers) : Once t := by
  intro m
  rw [hp, State.answersOf, ha]
  refine (h m).trans ?_
  by_cases e : m = n
  · subst e
    rw [hc, set_self hn, hn]
    simp [h1, h2]
  · rw [hc, List.getElem?_set_ne (Ne.symm e)]

theorem pendingOf_set {s : State sz} {k : Nat} {d d' : Sched} (hd : s.scheds[k]? = some d) (h : d'.pending = d.pending) (m : Nat) :
    ((s.scheds.set k d').map (asked m)).sum = s.pendingOf m := by
  have := sum_set (asked m) hd d'
  have e : asked m d' = asked m d := by simp [asked, h]
  rw [e] at this
  unfold State.pendingOf
  omega

theorem once_step {s : State sz} (h : Once s) (a : Act) : Once (s.step a) := by
  unfold State.step
  split
  · exact h
  cases a with
  | call j =>
    intro n
    refine (h n).trans ?_
    simp only
    rcases Nat.lt_trichotomy n s.calls.length with hl | hl | hl
    · rw [List.getElem?_append_left hl]
    · subst hl; simp
    · rw [List.getElem?_eq_none (l := s.calls) (by omega), List.getElem?_eq_none (by rw [List.length_append]; exact hl)]
  | advance n =>
    simp only
    cases hn : s.calls[n]? with
    | none => exact h
    | some c =>
      simp only
      by_cases hu : underWay c = true
      rotate_left
      · rw [next_ended s n c (by simpa using hu)]
        intro m
        refine (h m).trans ?_
        by_cases e : m = n
        · subst e
          simp only
          rw [set_self hn, hn]
        · simp only
          rw [List.getElem?_set_ne (Ne.symm e)]
      obtain ⟨j, pc⟩ := c
      have h1 : pc ≠ .submitted := by rintro rfl; cases hu
      have plain : ∀ pc', pc' ≠ .submitted → Once { s with calls := s.calls.set n ⟨j, pc'⟩ } :=
        fun pc' h2 => h.same hn h1 h2 rfl (fun _ => rfl) rfl
      have broken : ∀ pc', pc' ≠ .submitted → Once { s with calls := s.calls.set n ⟨j, pc'⟩, fault := true } :=
        fun pc' h2 => h.same hn h1 h2 rfl (fun _ => rfl) rfl
      cases j with
      | get i =>
        cases pc <;> simp only [next] <;> first | exact absurd rfl h1 | exact plain _ (by simp) | skip
        · split <;> exact plain _ (by simp)
        · split <;> exact plain _ (by simp)
      | asyncGet i =>
        cases pc <;> simp only [next] <;> first | exact absurd rfl h1 | exact plain _ (by simp) | skip
        · split <;> exact plain _ (by simp)
        · rename_i k fd
          unfold State.use
          split
          · exact broken _ (by simp)
          rename_i d hd
          dsimp only
          split
          · split
            · exact plain _ (by simp)
            · intro m
              have hm := h m
              have hs := sum_set (asked m) hd { d with pending := d.pending ++ [(n, fd, i)] }
              have he : asked m { d with pending := d.pending ++ [(n, fd, i)] } = asked m d + if m = n then 1 else 0 := by
                simp only [asked, List.map_append, List.map_cons, List.map_nil, List.count_append, List.count_singleton]
                by_cases e : m = n
                · subst e; simp
                · simp [e, Ne.symm e]
              rw [he] at hs
              unfold State.pendingOf State.answersOf at *
              simp only
              by_cases e : m = n
              · subst e
                rw [if_pos rfl] at hs
                rw [hn] at hm
                rw [set_self hn]
                simp only [Option.map_some, Option.some.injEq, h1, if_false, if_true] at hm ⊢
                omega
              · rw [if_neg e] at hs
                rw [List.getElem?_set_ne (Ne.symm e)]
                omega
          · exact broken _ (by simp)
      | direct b =>
        cases pc <;> simp only [next] <;> first | exact absurd rfl h1 | exact plain _ (by simp) | skip
        · split <;> exact plain _ (by simp)
        · unfold State.use
          split
          · exact broken _ (by simp)
          rename_i d hd
          dsimp only
          split
          · dsimp only
            refine h.same hn h1 ?_ rfl (fun m => pendingOf_set (d' := { d with stopped := true }) hd rfl m) rfl
            split <;> simp
          · exact broken _ (by simp)
        · unfold State.use
          split
          · exact broken _ (by simp)
          dsimp only
          split
          · dsimp only
            refine h.same hn h1 (by simp) rfl (fun m => ?_) rfl
            simp [State.pendingOf, asked]
          · exact broken _ (by simp)
        · unfold State.use
          split
          · exact broken _ (by simp)
          rename_i d hd
          dsimp only
          split
          · split
            · exact h.same hn h1 (by simp) rfl (fun m => pendingOf_set (d' := { d with alive := false, stopped := true }) hd rfl m) rfl
            · exact h.same hn h1 (by simp) rfl (fun m => pendingOf_set (d' := { d with stopped := true }) hd rfl m) rfl
          · exact broken _ (by simp)
  | complete k i =>
    simp only
    cases hd : s.scheds[k]? with
    | none => exact h
    | some d =>
      simp only
      cases hr : d.pending[i]? with
      | none => exact h
      | some r =>
        intro m
        have hm := h m
        have hs := sum_set (asked m) hd { d with pending := d.pending.eraseIdx i }
        have he : asked m { d with pending := d.pending.eraseIdx i } + (if r.1 = m then 1 else 0) = asked m d :=
          count_eraseIdx Prod.fst hr m
        have ha : ((s.answers ++ [(r.1, s.pread r.2.1 r.2.2)]).map Prod.fst).count m = s.answersOf m + if r.1 = m then 1 else 0 := by
          simp [State.answersOf, List.count_singleton]
        refine Eq.trans ?_ hm
        unfold State.pendingOf
        simp only [State.answersOf] at ha ⊢
        rw [ha]
        omega
  | openOther c => exact h
  | closeOther n =>
    simp only
    split
    · exact h
    · exact h

theorem once_run (acts : List Act) : ∀ s : State sz, Once s → Once (s.run acts) := by
  induction acts with
  | nil => exact fun s h => h
  | cons a acts ih => exact fun s h => ih _ (once_step h a)

theorem once_init (linux direct : Bool) (table : List UInt8) (files : List (List UInt8)) :
    Once (State.init sz linux direct table files) := by
  intro n; simp [State.init, State.pendingOf, State.answersOf, asked]

/-! ## Ends -/

/-- How many steps a call has to go at most -/
def rank : Pc sz → Nat
  | .begun => 8
  | .waiting _ => 7
  | .closing => 6
  | .opening => 5
  | .duplicating => 4
  | .replacing _ => 3
  | .destroying _ => 2
  | .calling _ => 2
  | .flagging => 1
  | .submitting _ _ => 1
  | .reading _ => 1
  | _ => 0

/-- Steps to go -/
def State.todo (s : State sz) : Nat := 2 * (s.calls.map fun c => rank c.pc).sum + (s.scheds.map fun d => d.pending.length).sum

theorem rank_pos {c : Call sz} (h : underWay c = true) : 0 < rank c.pc := by
  obtain ⟨j, pc⟩ := c
  cases pc <;> first | exact Nat.zero_lt_succ _ | cases h

/-- Changes of one call -/
theorem todo_set {s t : State sz} {n : Nat} {c : Call sz} {pc' : Pc sz} (hn : s.calls[n]? = some c) (hc : t.calls = s.calls.set n ⟨c.job, pc'⟩)
    (hr : rank pc' < rank c.pc)
    (hp : (t.scheds.map fun d => d.pending.length).sum ≤ (s.scheds.map fun d => d.pending.length).sum + 1) : t.todo < s.todo := by
  have := sum_set (fun c : Call sz => rank c.pc) hn ⟨c.job, pc'⟩
  unfold State.todo
  rw [hc]
  simp only at this
  omega

theorem pending_set {s : State sz} {k : Nat} {d d' : Sched} (hd : s.scheds[k]? = some d) (h : d'.pending.length ≤ d.pending.length + 1) :
    ((s.scheds.set k d').map fun d => d.pending.length).sum ≤ (s.scheds.map fun d => d.pending.length).sum + 1 := by
  have := sum_set (fun d : Sched => d.pending.length) hd d'
  omega

/-- Without pending reads, a call that has not ended goes on. -/
theorem todo_advance {s : State sz} (h : Inv s) (hp : NoPending s) {n : Nat} {c : Call sz} (hn : s.calls[n]? = some c)
    (hu : underWay c = true) : (s.step (.advance n)).todo < s.todo := by
  obtain ⟨hb, h⟩ := h
  unfold State.step
  rw [if_neg (by simp [hb.fault])]
  simp only [hn]
  obtain ⟨j, pc⟩ := c
  rcases h with h | ⟨m, b, pc2, h⟩
  · have hok := h.calls n _ hn hu
    cases j with
    | get i =>
      cases pc <;> try exact hok.elim
      · simp only [next]
        split <;> exact todo_set hn rfl (by simp [rank]) (Nat.le_succ _)
      · simp only [next]
        split <;> exact todo_set hn rfl (by simp [rank]) (Nat.le_succ _)
    | asyncGet i =>
      cases pc <;> try exact hok.elim
      · simp only [next]
        split <;> exact todo_set hn rfl (by simp [rank]) (Nat.le_succ _)
      · exact todo_set hn rfl (by simp [next, rank]) (Nat.le_succ _)
      · rename_i k fd
        obtain ⟨rfl, rfl⟩ := (show k = s.ptr ∧ fd = s.fd from hok)
        obtain ⟨d, hd, ha, -⟩ := h.sched
        simp only [next]
        rw [use_eq hd ha]
        split
        · exact todo_set hn rfl (by simp [rank]) (Nat.le_succ _)
        · exact todo_set hn rfl (by simp [rank]) (pending_set hd (by simp))
    | direct b =>
      cases pc <;> try exact hok.elim
      simp only [next]
      split <;> exact todo_set hn rfl (by simp [rank]) (Nat.le_succ _)
  · have : n = m := by
      refine Classical.byContradiction fun hne => ?_
      rw [h.sole n _ hn hne] at hu; cases hu
    subst this
    obtain ⟨rfl, rfl⟩ := Call.mk.inj (Option.some.inj (hn.symm.trans h.call))
    have hok := h.pc
    cases pc <;> try exact hok.elim
    · simp only [next]
      split <;> exact todo_set hn rfl (by simp [rank]) (Nat.le_succ _)
    · rename_i k
      obtain ⟨rfl, -, d, hd, ha⟩ := (show k = s.ptr ∧ _ from hok)
      simp only [next]
      rw [use_eq hd ha]
      simp only [if_pos (hp _ d hd)]
      exact todo_set hn rfl (by simp [rank]) (pending_set hd (by simp))
    · exact todo_set hn rfl (by simp [next, rank]) (Nat.le_succ _)
    · exact todo_set hn rfl (by simp [next, rank]) (Nat.le_succ _)
    · obtain ⟨-, -, d, hd, ha⟩ := hok
      simp only [next]
      rw [use_eq hd ha]
      exact todo_set hn rfl (by simp [rank]) (by simp)
    · exact todo_set hn rfl (by simp [next, rank]) (Nat.le_succ _)
    · rename_i k
      obtain ⟨-, -, -, -, d, hd, ha⟩ := hok
      simp only [next]
      rw [use_eq hd ha]
      simp only [if_pos (hp _ d hd)]
      exact todo_set hn rfl (by simp [rank]) (pending_set hd (by simp))
    · exact todo_set hn rfl (by simp [next, rank]) (Nat.le_succ _)

/-- A pending read can be done. -/
theorem todo_complete {s : State sz} (hf : s.fault = false) {k : Nat} {d : Sched} (hd : s.scheds[k]? = some d) (hp : d.pending ≠ []) :
    (s.step (.complete k 0)).todo < s.todo := by
  unfold State.step
  rw [if_neg (by simp [hf])]
  obtain ⟨r, rs, hr⟩ := List.exists_cons_of_ne_nil hp
  have := sum_set (fun d : Sched => d.pending.length) hd { d with pending := d.pending.eraseIdx 0 }
  simp only [hd, hr] at this ⊢
  unfold State.todo
  simp at this ⊢
  omega

theorem ends_aux (t : Nat) : ∀ s : State sz, Inv s → s.todo ≤ t →
    ∃ more, Going more ∧ NoPending (s.run more) ∧ ∀ c ∈ (s.run more).calls, underWay c = false := by
  induction t with
  | zero =>
    intro s h ht
    refine ⟨[], by simp [Going], fun k d hd => ?_, fun c hc => ?_⟩
    · refine Classical.byContradiction fun hne => ?_
      have := todo_complete h.1.fault hd hne
      omega
    · have : rank c.pc ≤ (s.calls.map fun c => rank c.pc).sum := le_sum_of_mem (List.mem_map_of_mem (f := fun c : Call sz => rank c.pc) hc)
      cases hu : underWay c with
      | false => rfl
      | true =>
        have := rank_pos hu
        unfold State.todo at ht
        omega
  | succ t ih =>
    intro s h ht
    by_cases hp : NoPending s
    · by_cases ha : ∀ c ∈ s.calls, underWay c = false
      · exact ⟨[], by simp [Going], hp, ha⟩
      · simp only [Classical.not_forall] at ha
        obtain ⟨c, hc, hu⟩ := ha
        obtain ⟨n, hn⟩ := List.getElem?_of_mem hc
        have hlt := todo_advance h hp hn (by simpa using hu)
        obtain ⟨more, h1, h2, h3⟩ := ih (s.step (.advance n)) (inv_step h _ (by simp)) (by omega)
        refine ⟨.advance n :: more, fun a ha => ?_, h2, h3⟩
        rcases List.mem_cons.mp ha with rfl | ha
        · exact Or.inl ⟨n, rfl⟩
        · exact h1 a ha
    · unfold NoPending at hp
      simp only [Classical.not_forall] at hp
      obtain ⟨k, d, hd, hne⟩ := hp
      have hlt := todo_complete h.1.fault hd hne
      obtain ⟨more, h1, h2, h3⟩ := ih (s.step (.complete k 0)) (inv_step h _ (by simp)) (by omega)
      refine ⟨.complete k 0 :: more, fun a ha => ?_, h2, h3⟩
      rcases List.mem_cons.mp ha with rfl | ha
      · exact Or.inr ⟨k, 0, rfl⟩
      · exact h1 a ha

/-! ## What does not change -/

theorem next_table (s : State sz) (n : Nat) (j : Job) (pc : Pc sz) :
    (next s n j pc).1.table = s.table ∧ (next s n j pc).1.linux = s.linux := by
  have use : ∀ k pc f, (∀ d, (f d : State sz × Pc sz).1.table = s.table ∧ (f d).1.linux = s.linux) →
      (s.use k pc f).1.table = s.table ∧ (s.use k pc f).1.linux = s.linux := by
    intro k pc f hf
    unfold State.use
    split
    · exact ⟨rfl, rfl⟩
    · split
      · exact hf _
      · exact ⟨rfl, rfl⟩
  unfold next
  split
  all_goals first
    | exact ⟨rfl, rfl⟩
    | (split <;> exact ⟨rfl, rfl⟩)
    | exact use _ _ _ (fun d => ⟨rfl, rfl⟩)
    | exact use _ _ _ (fun d => by split <;> exact ⟨rfl, rfl⟩)

theorem step_table (s : State sz) (a : Act) : (s.step a).table = s.table ∧ (s.step a).linux = s.linux := by
  unfold State.step
  split
  · exact ⟨rfl, rfl⟩
  cases a with
  | call j => exact ⟨rfl, rfl⟩
  | advance n =>
    simp only
    split
    · exact ⟨rfl, rfl⟩
    · exact next_table s _ _ _
  | complete k i =>
    simp only
    split
    · exact ⟨rfl, rfl⟩
    · split <;> exact ⟨rfl, rfl⟩
  | openOther c => exact ⟨rfl, rfl⟩
  | closeOther n => simp only; split <;> exact ⟨rfl, rfl⟩

theorem run_table (acts : List Act) : ∀ s : State sz, (s.run acts).table = s.table ∧ (s.run acts).linux = s.linux := by
  induction acts with
  | nil => exact fun s => ⟨rfl, rfl⟩
  | cons a acts ih =>
    intro s
    obtain ⟨h1, h2⟩ := ih (s.step a)
    obtain ⟨h3, h4⟩ := step_table s a
    exact ⟨h1.trans h3, h2.trans h4⟩

/-- Calls that have begun are not forgotten. -/
theorem step_jobs {s : State sz} (a : Act) (ha : ∀ j, a ≠ .call j) : (s.step a).calls.map Call.job = s.calls.map Call.job := by
  unfold State.step
  split
  · rfl
  cases a with
  | call j => exact absurd rfl (ha j)
  | advance n =>
    simp only
    split
    · rfl
    · rename_i c hc
      simp only
      rw [List.map_set]
      apply List.ext_getElem?
      intro m
      by_cases e : m = n
      · subst e
        have : (s.calls.map Call.job)[m]? = some c.job := by simp [hc]
        rw [set_self this, this]
      · rw [List.getElem?_set_ne (Ne.symm e)]
  | complete k i =>
    simp only
    split
    · rfl
    · split <;> rfl
  | openOther c => rfl
  | closeOther n => simp only; split <;> rfl

theorem run_jobs (acts : List Act) (ha : Going acts) : ∀ s : State sz, (s.run acts).calls.map Call.job = s.calls.map Call.job := by
  induction acts with
  | nil => exact fun s => rfl
  | cons a acts ih =>
    intro s
    refine (ih (fun b hb => ha b (List.mem_cons_of_mem _ hb)) (s.step a)).trans (step_jobs a ?_)
    rintro j rfl
    rcases ha _ (List.mem_cons_self ..) with ⟨n, h⟩ | ⟨k, i, h⟩ <;> cases h

/-! ## The mode -/

theorem next_direct (s : State sz) (n : Nat) (j : Job) (pc : Pc sz) :
    (next s n j pc).1.direct = s.direct ∨ (j = .direct (next s n j pc).1.direct ∧ pc = .flagging) := by
  have use : ∀ k pc f, (∀ d, (f d : State sz × Pc sz).1.direct = s.direct) → (s.use k pc f).1.direct = s.direct := by
    intro k pc f hf
    unfold State.use
    split
    · rfl
    · split
      · exact hf _
      · rfl
  unfold next
  split
  all_goals first
    | exact Or.inl rfl
    | exact Or.inr ⟨rfl, rfl⟩
    | (split <;> exact Or.inl rfl)
    | exact Or.inl (use _ _ _ (fun d => rfl))
    | exact Or.inl (use _ _ _ (fun d => by split <;> rfl))

/-- The mode does not change when no call asks for another one. -/
theorem mode_step {s : State sz} (h : NoneChanging s) (a : Act) (ha : ∀ b, a = .call (.direct b) → b = s.direct) :
    (s.step a).direct = s.direct ∧ NoneChanging (s.step a) := by
  unfold State.step
  split
  · exact ⟨rfl, h⟩
  cases a with
  | call j =>
    refine ⟨rfl, fun c hc hu b hb => ?_⟩
    rcases List.mem_append.mp hc with hc | hc
    · exact h c hc hu b hb
    · rw [List.mem_singleton] at hc
      subst hc
      exact ha b (by rw [← hb])
  | advance n =>
    simp only
    split
    · exact ⟨rfl, h⟩
    · rename_i c hc
      have hm := List.mem_of_getElem? hc
      have hd : (next s n c.job c.pc).1.direct = s.direct := by
        rcases next_direct s n c.job c.pc with e | ⟨e1, e2⟩
        · exact e
        · exact h c hm (by simp [underWay, e2]) _ e1
      refine ⟨hd, fun c' hc' hu b hb => ?_⟩
      simp only [hd]
      obtain ⟨m, hm'⟩ := List.getElem?_of_mem hc'
      rcases get_set hm' with ⟨-, rfl⟩ | ⟨-, hm'⟩
      · by_cases hw : underWay c = true
        · exact h c hm hw b hb
        · rw [next_ended s n c (by simpa using hw)] at hu
          exact absurd hu hw
      · exact h c' (List.mem_of_getElem? hm') hu b hb
  | complete k i =>
    simp only
    split
    · exact ⟨rfl, h⟩
    · split <;> exact ⟨rfl, h⟩
  | openOther c => exact ⟨rfl, h⟩
  | closeOther n => simp only; split <;> exact ⟨rfl, h⟩

theorem mode_run (acts : List Act) : ∀ s : State sz, NoneChanging s → (∀ b, .call (.direct b) ∈ acts → b = s.direct) →
    (s.run acts).direct = s.direct ∧ NoneChanging (s.run acts) := by
  induction acts with
  | nil => exact fun s h _ => ⟨rfl, h⟩
  | cons a acts ih =>
    intro s h ha
    obtain ⟨h1, h2⟩ := mode_step h a (fun b e => ha b (by rw [← e]; exact List.mem_cons_self ..))
    obtain ⟨h3, h4⟩ := ih (s.step a) h2 (fun b hb => (ha b (List.mem_cons_of_mem _ hb)).trans h1.symm)
    exact ⟨h3.trans h1, h4⟩

theorem careful_same {s : State sz} {acts : List Act} (h : NoneChanging s) (ha : ∀ b, .call (.direct b) ∈ acts → b = s.direct) :
    Careful s acts := by
  intro before j after e
  obtain ⟨h1, h2⟩ := mode_run before s h (fun b hb => ha b (by rw [e]; exact List.mem_append_left _ hb))
  refine ⟨h2, ?_⟩
  rintro b rfl hne
  exact absurd ((ha b (by rw [e]; simp)).trans h1.symm) hne

/-- All calls under way that set the mode ask for `l`, and this is the mode, or one of them will set it. -/
structure Towards (s : State sz) (l : Bool) : Prop where
  same : ∀ c ∈ s.calls, underWay c = true → ∀ b, c.job = .direct b → b = l
  mode : s.direct = l ∨ ∃ c ∈ s.calls, underWay c = true ∧ c.job = .direct l

theorem next_sets (s : State sz) (n : Nat) (b : Bool) (pc : Pc sz) (hu : underWay ⟨.direct b, pc⟩ = true) :
    underWay ⟨.direct b, (next s n (.direct b) pc).2⟩ = true ∨ (next s n (.direct b) pc).1.direct = b := by
  have use : ∀ k pc f, underWay (⟨.direct b, pc⟩ : Call sz) = true → (∀ d, underWay ⟨.direct b, (f d : State sz × Pc sz).2⟩ = true) →
      underWay ⟨.direct b, (s.use k pc f).2⟩ = true := by
    intro k pc f hp hf
    unfold State.use
    split
    · exact hp
    · split
      · exact hf _
      · exact hp
  cases pc with
  | begun =>
    by_cases e : b = s.direct
    · exact Or.inr (by simp [next, e])
    · exact Or.inl (by simp [next, e, underWay])
  | waiting k => exact Or.inl (use _ _ _ rfl (fun d => by split <;> rfl))
  | duplicating => exact Or.inl (use _ _ _ rfl (fun d => rfl))
  | destroying k => exact Or.inl (use _ _ _ rfl (fun d => by split <;> rfl))
  | flagging => exact Or.inr rfl
  | value v => cases hu
  | threw => cases hu
  | submitted => cases hu
  | done => cases hu
  | _ => exact Or.inl rfl

theorem towards_step {s : State sz} {l : Bool} (hf : s.fault = false) (h : Towards s l) (a : Act)
    (ha : ∀ j, a = .call j → NoneChanging s ∧ ∀ b, j = .direct b → b ≠ s.direct → ∀ c ∈ s.calls, underWay c = false) :
    Towards (s.step a) (lastMode l [a]) := by
  unfold State.step
  rw [if_neg (by simp [hf])]
  cases a with
  | call j =>
    obtain ⟨h1, h2⟩ := ha j rfl
    have keep : ∀ j', (∀ b, j' ≠ Job.direct b) → Towards { s with calls := s.calls ++ [⟨j', .begun⟩] } l := by
      intro j' hj
      refine ⟨fun c hc hu b hb => ?_, ?_⟩
      · rcases List.mem_append.mp hc with hc | hc
        · exact h.same c hc hu b hb
        · rw [List.mem_singleton] at hc; subst hc; exact absurd hb (hj b)
      · rcases h.mode with e | ⟨c, hc, e⟩
        · exact Or.inl e
        · exact Or.inr ⟨c, List.mem_append_left _ hc, e⟩
    cases j with
    | get i => exact keep _ (by simp)
    | asyncGet i => exact keep _ (by simp)
    | direct b =>
      simp only [lastMode, List.foldl_cons, List.foldl_nil]
      refine ⟨fun c hc hu b' hb => ?_, Or.inr ⟨_, List.mem_append_right _ (List.mem_singleton.mpr rfl), rfl, rfl⟩⟩
      rcases List.mem_append.mp hc with hc | hc
      · by_cases e : b = s.direct
        · exact (h1 c hc hu b' hb).trans e.symm
        · exact absurd hu (by simp [h2 b rfl e c hc])
      · rw [List.mem_singleton] at hc; subst hc; cases hb; rfl
  | advance n =>
    simp only [lastMode, List.foldl_cons, List.foldl_nil]
    split
    · exact h
    · rename_i c hc
      have hm := List.mem_of_getElem? hc
      have hw : underWay ⟨c.job, (next s n c.job c.pc).2⟩ = true → underWay c = true := by
        intro hu
        refine Classical.byContradiction fun hw => ?_
        rw [next_ended s n c (by simpa using hw)] at hu
        exact hw hu
      refine ⟨fun c' hc' hu b hb => ?_, ?_⟩
      · obtain ⟨m, hm'⟩ := List.getElem?_of_mem hc'
        rcases get_set hm' with ⟨-, rfl⟩ | ⟨-, hm'⟩
        · exact h.same c hm (hw hu) b hb
        · exact h.same c' (List.mem_of_getElem? hm') hu b hb
      · rcases next_direct s n c.job c.pc with e | ⟨e1, e2⟩
        · rcases h.mode with hd | ⟨c', hc', hu', hj'⟩
          · exact Or.inl (e.trans hd)
          · obtain ⟨m, hm'⟩ := List.getElem?_of_mem hc'
            by_cases en : m = n
            · subst en
              obtain rfl := Option.some.inj (hm'.symm.trans hc)
              have := next_sets s m l c'.pc (by rw [← hj']; exact hu')
              rw [← hj'] at this
              rcases this with hu | hd
              · exact Or.inr ⟨_, List.mem_of_getElem? (set_self hc), hu, hj'⟩
              · exact Or.inl hd
            · exact Or.inr ⟨c', List.mem_of_getElem? ((List.getElem?_set_ne (Ne.symm en)).trans hm'), hu', hj'⟩
        · exact Or.inl (h.same c hm (by simp [underWay, e2]) _ e1)
  | complete k i =>
    simp only [lastMode, List.foldl_cons, List.foldl_nil]
    split
    · exact h
    · split
      · exact h
      · exact ⟨h.same, h.mode⟩
  | openOther c => exact ⟨h.same, h.mode⟩
  | closeOther n =>
    simp only [lastMode, List.foldl_cons, List.foldl_nil]
    split
    · exact ⟨h.same, h.mode⟩
    · exact h

theorem towards_run (acts : List Act) : ∀ (s : State sz) l, Inv s → Towards s l → Careful s acts →
    Towards (s.run acts) (lastMode l acts) := by
  induction acts with
  | nil => exact fun s l _ h _ => h
  | cons a acts ih =>
    intro s l hi h hc
    have ha : ∀ j, a = .call j → NoneChanging s ∧ ∀ b, j = .direct b → b ≠ s.direct → ∀ c ∈ s.calls, underWay c = false := by
      rintro j rfl
      exact hc [] j acts rfl
    refine ih (s.step a) _ (inv_step hi a ha) (towards_step hi.1.fault h a ha) ?_
    intro before j after he
    exact hc (a :: before) j after (by rw [he]; rfl)

/-! ## Results -/

theorem readAt_some {table : List UInt8} {i : Nat} {v : Val sz} (hs : 0 < sz) (h : readAt sz table i = some v) :
    i < table.length / sz ∧ v.toList = element sz table i := by
  unfold readAt at h
  split at h
  · rename_i hl
    obtain rfl := Option.some.inj h
    refine ⟨?_, by simp [element]⟩
    simp only [List.length_take, List.length_drop] at hl
    rw [Nat.lt_div_iff_mul_lt hs]
    omega
  · cases h

theorem readAt_none {table : List UInt8} {i : Nat} (hs : 0 < sz) : readAt sz table i = none ↔ table.length / sz ≤ i := by
  constructor
  · intro h
    unfold readAt at h
    split at h
    · cases h
    · rename_i hl
      simp only [List.length_take, List.length_drop] at hl
      refine Nat.le_of_not_lt fun hlt => hl ?_
      have := (Nat.le_div_iff_mul_le hs).mp hlt
      rw [Nat.succ_mul] at this
      omega
  · intro h
    cases hr : readAt sz table i with
    | none => rfl
    | some v => exact absurd (readAt_some hs hr).1 (by omega)

theorem right_of_inv {s : State sz} (hs : 0 < sz) (h : Inv s) : Right s := by
  obtain ⟨hb, -⟩ := h
  refine ⟨hb.fault, fun i v hm => ?_, fun i hm => ?_, fun n r hm => ?_, fun i hm => ?_⟩
  · obtain ⟨n, hn⟩ := List.getElem?_of_mem hm
    exact readAt_some hs (hb.ended n _ hn rfl)
  · obtain ⟨n, hn⟩ := List.getElem?_of_mem hm
    rcases (show i > s.size ∨ readAt sz s.table i = none from hb.ended n _ hn rfl) with h | h
    · exact Nat.le_of_lt h
    · exact (readAt_none hs).mp h
  · obtain ⟨i, h1, h2⟩ := hb.answers _ hm
    simp only at h1 h2
    refine ⟨i, h1, by rw [h2]; exact readAt_none hs, fun v hv => ?_⟩
    exact (readAt_some hs (h2.symm.trans hv)).2
  · obtain ⟨n, hn⟩ := List.getElem?_of_mem hm
    exact hb.ended n _ hn rfl

end Verif.Vec.Modes
