import Verif.Cli.Lemmas

/-! # Helper lemmas: the output of the results -/

namespace Verif.Cli

/-- The call is between `lock` and `unlock`. -/
def Pc.inside : Pc → Bool
  | .locked | .separated | .marked | .printed => true
  | _ => false

/-- The result has been written. -/
def Pc.written : Pc → Bool
  | .printed | .over => true
  | _ => false

/-- The separator before the next result -/
def sep (done : List UInt64) : List String := if done = [] then [] else [", "]

theorem text_append (done : List UInt64) (x : UInt64) :
    Spec.text (done ++ [x]) = Spec.text done ++ sep done ++ [Nat.repr x.toNat] := by
  unfold Spec.text sep
  have key : ∀ (l : List String) (y : String),
      (l ++ [y]).intersperse ", " = l.intersperse ", " ++ (if l = [] then [] else [", "]) ++ [y] := by
    intro l y
    induction l with
    | nil => rfl
    | cons a l ih =>
      cases l with
      | nil => rfl
      | cons b l =>
        rw [List.cons_append, List.cons_append, List.intersperse_cons_cons, List.intersperse_cons_cons,
          ← List.cons_append, ih]
        simp
  rw [List.map_append, List.map_cons, List.map_nil, key]
  simp

/-- The text and the flag, when the call that holds the mutex is at `pc` -/
def TextOk (o : Out) (done : List UInt64) : Pc → Prop
  | .separated => o.text = Spec.text done ++ sep done ∧ o.first = decide (done = [])
  | .marked => o.text = Spec.text done ++ sep done ∧ o.first = false
  | _ => o.text = Spec.text done ∧ o.first = decide (done = [])

/-- The invariant; `done` are the results written, in order. -/
structure Inv (o : Out) (done : List UInt64) : Prop where
  written : done.Perm ((o.calls.filter (fun c => c.2.written)).map Prod.fst)
  holder : ∀ n, o.mtx = some n → ∃ c, o.calls[n]? = some c ∧ c.2.inside = true ∧ TextOk o done c.2
  inside : ∀ n c, o.calls[n]? = some c → c.2.inside = true → o.mtx = some n
  free : o.mtx = none → o.text = Spec.text done ∧ o.first = decide (done = [])

theorem inv_init : Inv Out.init [] :=
  ⟨List.Perm.refl _, (fun n h => by cases h), (fun n c h => by simp [Out.init] at h), fun _ => ⟨rfl, rfl⟩⟩

theorem filter_set_perm {α : Type} (p : α → Bool) {l : List α} {n : Nat} {c c' : α} (h : l[n]? = some c)
    (hc : p c = false) (hc' : p c' = true) : ((l.set n c').filter p).Perm (c' :: l.filter p) := by
  induction l generalizing n with
  | nil => cases h
  | cons a l ih =>
    cases n with
    | zero =>
      cases h
      rw [List.set_cons_zero, List.filter_cons, List.filter_cons, if_pos hc', hc]
      exact List.Perm.refl _
    | succ n =>
      rw [List.set_cons_succ, List.filter_cons, List.filter_cons]
      split
      · exact ((ih h).cons a).trans (List.Perm.swap ..)
      · exact ih h

theorem filter_set_same {α β : Type} (p : α → Bool) (f : α → β) {l : List α} {n : Nat} {c c' : α} (h : l[n]? = some c)
    (hp : p c = p c') (hf : f c = f c') : ((l.set n c').filter p).map f = (l.filter p).map f := by
  induction l generalizing n with
  | nil => cases h
  | cons a l ih =>
    cases n with
    | zero =>
      cases h
      rw [List.set_cons_zero, List.filter_cons, List.filter_cons, hp]
      split
      · rw [List.map_cons, List.map_cons, hf]
      · rfl
    | succ n =>
      rw [List.set_cons_succ, List.filter_cons, List.filter_cons]
      split
      · rw [List.map_cons, List.map_cons, ih h]
      · exact ih h

theorem step_none {quiet : Bool} {o : Out} {n : Nat} (h : o.calls[n]? = none) : o.step quiet (.step n) = o := by
  simp only [Out.step, h]

theorem step_some {quiet : Bool} {o : Out} {n : Nat} {res : UInt64} {pc : Pc} (h : o.calls[n]? = some (res, pc)) :
    o.step quiet (.step n) = { (o.next quiet n res pc).1 with
      calls := (o.next quiet n res pc).1.calls.set n (res, (o.next quiet n res pc).2) } := by
  simp only [Out.step, h]

theorem inv_step {o : Out} {done : List UInt64} (h : Inv o done) (a : Act) :
    ∃ done', Inv (o.step false a) done' := by
  cases a with
  | call res =>
    refine ⟨done, ?_, ?_, ?_, h.free⟩
    · show done.Perm (((o.calls ++ [(res, Pc.begun)]).filter (fun c => c.2.written)).map Prod.fst)
      rw [List.filter_append]
      simpa [Pc.written] using h.written
    · intro n hn
      obtain ⟨c, h1, h2⟩ := h.holder n hn
      refine ⟨c, ?_, h2⟩
      show (o.calls ++ _)[n]? = some c
      rw [List.getElem?_append_left (List.getElem?_eq_some_iff.mp h1).1]
      exact h1
    · intro n c hn hc
      change (o.calls ++ [(res, .begun)])[n]? = some c at hn
      rcases Nat.lt_or_ge n o.calls.length with hlt | hge
      · rw [List.getElem?_append_left hlt] at hn
        exact h.inside n c hn hc
      · rw [List.getElem?_append_right hge] at hn
        have := List.mem_of_getElem? hn
        rw [List.mem_singleton.mp this] at hc
        cases hc
  | step n =>
    cases hn : o.calls[n]? with
    | none => rw [step_none hn]; exact ⟨done, h⟩
    | some c =>
      obtain ⟨res, pc⟩ := c
      rw [step_some hn]
      have hlt := (List.getElem?_eq_some_iff.mp hn).1
      -- another call is not changed
      have hother : ∀ (x : UInt64 × Pc) m c, (o.calls.set n x)[m]? = some c → m ≠ n → o.calls[m]? = some c := by
        intro x m c hm hne
        rwa [List.getElem?_set_ne (fun e => hne e.symm)] at hm
      have hself : ∀ (x c : UInt64 × Pc), (o.calls.set n x)[n]? = some c → c = x := by
        intro x c hm
        rw [List.getElem?_set_self hlt] at hm
        exact (Option.some.inj hm).symm
      -- the mutex is held by `n` before and after
      have hheld : ∀ (pc' : Pc) (o' : Out) (done' : List UInt64), pc.inside = true → pc'.inside = true →
          o'.mtx = o.mtx → o'.calls = o.calls.set n (res, pc') →
          done'.Perm ((o'.calls.filter (fun c => c.2.written)).map Prod.fst) → TextOk o' done' pc' → Inv o' done' := by
        intro pc' o' done' h1 h1' h2 h3 h4 h5
        have hm := h.inside n _ hn h1
        refine ⟨h4, ?_, ?_, ?_⟩
        · intro m hm'
          rw [h2, hm] at hm'
          cases hm'
          exact ⟨(res, pc'), by rw [h3, List.getElem?_set_self hlt], h1', h5⟩
        · intro m c hmc hc
          rw [h2]
          by_cases hmn : m = n
          · rw [hmn]; exact hm
          · rw [h3] at hmc
            exact h.inside m c (hother _ m c hmc hmn) hc
        · intro hnone
          rw [h2, hm] at hnone
          cases hnone
      have hok : pc.inside = true → TextOk o done pc := by
        intro hi
        obtain ⟨c, h1, -, h2⟩ := h.holder n (h.inside n _ hn hi)
        rw [hn] at h1
        cases h1
        exact h2
      cases pc with
      | begun =>
        by_cases hm : o.mtx = none
        · obtain ⟨h1, h2⟩ := h.free hm
          simp only [Out.next, Bool.false_eq_true, if_false, hm, if_true]
          refine ⟨done, ?_, ?_, ?_, ?_⟩
          · simp only
            rw [filter_set_same (fun c : UInt64 × Pc => c.2.written) Prod.fst (c' := (res, .locked)) hn rfl rfl]
            exact h.written
          · intro m hm'
            cases hm'
            exact ⟨(res, .locked), List.getElem?_set_self hlt, rfl, h1, h2⟩
          · intro m c hmc hc
            by_cases hmn : m = n
            · rw [hmn]
            · have := h.inside m c (hother _ m c hmc hmn) hc
              rw [hm] at this
              cases this
          · intro hnone; cases hnone
        · simp only [Out.next, Bool.false_eq_true, if_false, hm]
          refine ⟨done, ?_, ?_, ?_, h.free⟩
          · simp only
            rw [filter_set_same (fun c : UInt64 × Pc => c.2.written) Prod.fst (c' := (res, .begun)) hn rfl rfl]
            exact h.written
          · intro m hm'
            obtain ⟨c, h1, h2⟩ := h.holder m hm'
            refine ⟨c, ?_, h2⟩
            have hmn : n ≠ m := by
              rintro rfl
              rw [hn] at h1
              cases h1
              cases h2.1
            simp only
            rw [List.getElem?_set_ne hmn]
            exact h1
          · intro m c hmc hc
            by_cases hmn : m = n
            · subst hmn
              rw [hself _ c hmc] at hc
              cases hc
            · exact h.inside m c (hother _ m c hmc hmn) hc
      | locked =>
        obtain ⟨h1, h2⟩ := hok rfl
        refine ⟨done, hheld .separated _ done rfl rfl ?_ ?_ ?_ ?_⟩
        · simp only [Out.next]; split <;> rfl
        · simp only [Out.next]; split <;> rfl
        · have : ((Out.next false o n res .locked).1.calls.set n (res, (Out.next false o n res .locked).2)) =
              o.calls.set n (res, .separated) := by simp only [Out.next]; split <;> rfl
          simp only
          rw [this, filter_set_same (fun c : UInt64 × Pc => c.2.written) Prod.fst (c' := (res, .separated)) hn rfl rfl]
          exact h.written
        · simp only [Out.next]
          by_cases hd : done = []
          · rw [h2]
            simp [TextOk, hd, sep, h1, h2]
          · rw [h2]
            simp [TextOk, hd, sep, h1]
      | separated =>
        obtain ⟨h1, h2⟩ := hok rfl
        refine ⟨done, hheld .marked _ done rfl rfl rfl rfl ?_ ?_⟩
        · simp only [Out.next]
          rw [filter_set_same (fun c : UInt64 × Pc => c.2.written) Prod.fst (c' := (res, .marked)) hn rfl rfl]
          exact h.written
        · exact ⟨h1, rfl⟩
      | marked =>
        obtain ⟨h1, h2⟩ := hok rfl
        refine ⟨done ++ [res], hheld .printed _ (done ++ [res]) rfl rfl rfl rfl ?_ ?_⟩
        · simp only [Out.next]
          have := (filter_set_perm (fun c : UInt64 × Pc => c.2.written) hn rfl
            (rfl : Pc.written (res, Pc.printed).2 = true)).map Prod.fst
          refine List.Perm.trans ?_ this.symm
          rw [List.map_cons]
          exact List.perm_append_comm.trans (h.written.cons res)
        · refine ⟨?_, ?_⟩
          · simp only [Out.next]
            rw [text_append, h1]
          · simp only [Out.next]
            rw [h2]
            simp
      | printed =>
        obtain ⟨h1, h2⟩ := hok rfl
        have hm := h.inside n _ hn rfl
        refine ⟨done, ?_, ?_, ?_, fun _ => ⟨h1, h2⟩⟩
        · simp only [Out.next]
          rw [filter_set_same (fun c : UInt64 × Pc => c.2.written) Prod.fst (c' := (res, .over)) hn rfl rfl]
          exact h.written
        · intro m hm'; cases hm'
        · intro m c hmc hc
          by_cases hmn : m = n
          · subst hmn
            rw [hself _ c hmc] at hc
            cases hc
          · have := h.inside m c (hother _ m c hmc hmn) hc
            rw [hm] at this
            exact absurd (Option.some.inj this).symm hmn
      | over =>
        have hset : o.calls.set n (res, .over) = o.calls := by
          apply List.ext_getElem?
          intro m
          by_cases hmn : n = m
          · subst hmn; rw [List.getElem?_set_self hlt, hn]
          · rw [List.getElem?_set_ne hmn]
        refine ⟨done, ?_⟩
        simp only [Out.next]
        rw [hset]
        exact h

theorem run_append_out (quiet : Bool) (acts : List Act) (a : Act) :
    Out.run quiet (acts ++ [a]) = (Out.run quiet acts).step quiet a := by
  unfold Out.run; rw [List.foldl_append]; rfl

theorem inv_run (acts : List Act) : ∃ done, Inv (Out.run false acts) done := by
  induction acts using List.reverseRecOn with
  | nil => exact ⟨[], inv_init⟩
  | append_singleton acts a ih =>
    obtain ⟨done, h⟩ := ih
    rw [run_append_out]
    exact inv_step h a

theorem next_calls (quiet : Bool) (o : Out) (n : Nat) (res : UInt64) (pc : Pc) :
    (o.next quiet n res pc).1.calls = o.calls := by
  cases pc <;> simp only [Out.next] <;> repeat' (first | rfl | split)

theorem calls_results (quiet : Bool) (acts : List Act) :
    (Out.run quiet acts).calls.map Prod.fst = Spec.results acts := by
  induction acts using List.reverseRecOn with
  | nil => rfl
  | append_singleton acts a ih =>
    rw [run_append_out]
    have : Spec.results (acts ++ [a]) = Spec.results acts ++ Spec.results [a] := by
      unfold Spec.results; rw [List.filterMap_append]
    rw [this, ← ih]
    generalize Out.run quiet acts = o
    cases a with
    | call res => simp [Out.step, Spec.results]
    | step n =>
      simp only [Spec.results, List.filterMap_cons, List.filterMap_nil, List.append_nil]
      cases hn : o.calls[n]? with
      | none => rw [step_none hn]
      | some c =>
        obtain ⟨res, pc⟩ := c
        rw [step_some hn]
        simp only
        rw [next_calls, List.map_set]
        apply List.ext_getElem?
        intro m
        by_cases hmn : n = m
        · subst hmn
          have hlt := (List.getElem?_eq_some_iff.mp hn).1
          rw [List.getElem?_set_self (by simpa using hlt), List.getElem?_map, hn]
          rfl
        · rw [List.getElem?_set_ne hmn]

theorem quiet_text (acts : List Act) :
    (Out.run true acts).text = [] ∧ ∀ c ∈ (Out.run true acts).calls, c.2 = .begun ∨ c.2 = .over := by
  induction acts using List.reverseRecOn with
  | nil => exact ⟨rfl, by simp [Out.run, Out.init]⟩
  | append_singleton acts a ih =>
    rw [run_append_out]
    generalize Out.run true acts = o at ih ⊢
    obtain ⟨h1, h2⟩ := ih
    cases a with
    | call res =>
      refine ⟨h1, fun c hc => ?_⟩
      rcases List.mem_append.mp hc with hc | hc
      · exact h2 c hc
      · rw [List.mem_singleton.mp hc]; exact .inl rfl
    | step n =>
      cases hn : o.calls[n]? with
      | none => rw [step_none hn]; exact ⟨h1, h2⟩
      | some c =>
        obtain ⟨res, pc⟩ := c
        rw [step_some hn]
        rcases h2 _ (List.mem_of_getElem? hn) with h | h
        · simp only at h
          subst h
          refine ⟨h1, fun c hc => ?_⟩
          rcases List.mem_or_eq_of_mem_set hc with hc | rfl
          · exact h2 c hc
          · exact .inr rfl
        · simp only at h
          subst h
          refine ⟨h1, fun c hc => ?_⟩
          rcases List.mem_or_eq_of_mem_set hc with hc | rfl
          · exact h2 c hc
          · exact .inr rfl

end Verif.Cli
