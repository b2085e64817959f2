import Verif.Vec.Modes

/-!
# The invariant for changes of the access mode that overlap with nothing
-/

namespace Verif.Vec.Modes

open Spec

variable {sz : Nat}

/-- The descriptor of the vector is an open file, that of the vector. -/
def Opened (s : State sz) : Prop := s.fds[s.fd]? = some (some .own)

/-- No read is pending. -/
def NoPending (s : State sz) : Prop := ∀ (k : Nat) (d : Sched), s.scheds[k]? = some d → d.pending = []

/-- What a call that has ended gave -/
def Res (s : State sz) (c : Call sz) : Prop :=
  match c.job, c.pc with
  | .get i, .value v => readAt sz s.table i = some v
  | .get i, .threw => i > s.size ∨ readAt sz s.table i = none
  | .asyncGet _, .submitted => True
  | .asyncGet i, .threw => i > s.size ∨ (s.linux = true ∧ sz % 512 ≠ 0)
  | .direct _, .done => True
  | _, _ => False

/-- A call under way while the mode does not change -/
def QOk (s : State sz) (c : Call sz) : Prop :=
  match c.job, c.pc with
  | .get _, .begun => True
  | .get _, .reading m => m = s.fd
  | .asyncGet _, .begun => True
  | .asyncGet _, .calling k => k = s.ptr
  | .asyncGet _, .submitting k m => k = s.ptr ∧ m = s.fd
  | .direct b, .begun => b = s.direct
  | _, _ => False

/-- The point of a call that changes the mode -/
def COk (s : State sz) : Pc sz → Prop
  | .begun => Opened s ∧ ∃ d, s.scheds[s.ptr]? = some d ∧ d.alive = true ∧ d.stopped = false
  | .waiting k => k = s.ptr ∧ Opened s ∧ ∃ d, s.scheds[s.ptr]? = some d ∧ d.alive = true
  | .closing => Opened s ∧ NoPending s ∧ ∃ d, s.scheds[s.ptr]? = some d ∧ d.alive = true
  | .opening => NoPending s ∧ ∃ d, s.scheds[s.ptr]? = some d ∧ d.alive = true
  | .duplicating => Opened s ∧ NoPending s ∧ ∃ d, s.scheds[s.ptr]? = some d ∧ d.alive = true
  | .replacing m => Opened s ∧ NoPending s ∧ m ≠ s.ptr ∧ s.scheds[m]? = some ⟨true, false, []⟩ ∧
      ∃ d, s.scheds[s.ptr]? = some d ∧ d.alive = true
  | .destroying k => Opened s ∧ NoPending s ∧ k ≠ s.ptr ∧ s.scheds[s.ptr]? = some ⟨true, false, []⟩ ∧
      ∃ d, s.scheds[k]? = some d ∧ d.alive = true
  | .flagging => Opened s ∧ NoPending s ∧ s.scheds[s.ptr]? = some ⟨true, false, []⟩
  | _ => False

/-- What always holds -/
structure Base (s : State sz) : Prop where
  fault : s.fault = false
  pend : ∀ (k : Nat) (d : Sched), s.scheds[k]? = some d → ∀ r ∈ d.pending,
    k = s.ptr ∧ r.2.1 = s.fd ∧ s.calls[r.1]? = some ⟨.asyncGet r.2.2, .submitted⟩
  ended : ∀ (n : Nat) (c : Call sz), s.calls[n]? = some c → underWay c = false → Res s c
  answers : ∀ x ∈ s.answers, ∃ i, s.calls[x.1]? = some ⟨.asyncGet i, .submitted⟩ ∧ x.2 = readAt sz s.table i

/-- The mode does not change. -/
structure Quiet (s : State sz) : Prop where
  opened : Opened s
  sched : ∃ d, s.scheds[s.ptr]? = some d ∧ d.alive = true ∧ d.stopped = false
  calls : ∀ (n : Nat) (c : Call sz), s.calls[n]? = some c → underWay c = true → QOk s c

/-- Call number `n` changes the mode. -/
structure Changing (s : State sz) (n : Nat) (b : Bool) (pc : Pc sz) : Prop where
  call : s.calls[n]? = some ⟨.direct b, pc⟩
  way : underWay (⟨.direct b, pc⟩ : Call sz) = true
  flag : b ≠ s.direct
  sole : ∀ (m : Nat) (c : Call sz), s.calls[m]? = some c → m ≠ n → underWay c = false
  pc : COk s pc

/-- The invariant -/
def Inv (s : State sz) : Prop := Base s ∧ (Quiet s ∨ ∃ n b pc, Changing s n b pc)

theorem get_set {α : Type} {l : List α} {n : Nat} {a x : α} {m : Nat} (h : (l.set n x)[m]? = some a) :
    (m = n ∧ a = x) ∨ (m ≠ n ∧ l[m]? = some a) := by
  rw [List.getElem?_set] at h
  by_cases e : n = m
  · rw [if_pos e] at h
    by_cases hl : n < l.length
    · rw [if_pos hl] at h
      exact Or.inl ⟨e.symm, (Option.some.inj h).symm⟩
    · rw [if_neg hl] at h; cases h
  · rw [if_neg e] at h
    exact Or.inr ⟨Ne.symm e, h⟩

theorem set_ne {α : Type} {l : List α} {n m : Nat} {a x : α} (h : l[m]? = some a) (hn : m ≠ n) : (l.set n x)[m]? = some a := by
  rw [List.getElem?_set, if_neg (Ne.symm hn)]; exact h

theorem set_self {α : Type} {l : List α} {n : Nat} {a x : α} (h : l[n]? = some a) : (l.set n x)[n]? = some x := by
  obtain ⟨hl, -⟩ := List.getElem?_eq_some_iff.mp h
  rw [List.getElem?_set, if_pos rfl, if_pos hl]

/-- `open` keeps the open files. -/
theorem openFile_ne {fds : List (Option Desc)} {d x : Desc} {m : Nat} (h : fds[m]? = some (some x)) :
    (openFile fds d)[m]? = some (some x) := by
  unfold openFile
  split
  · rename_i hl
    refine set_ne h ?_
    rintro rfl
    have h1 : fds[lowest fds].isNone = true := List.findIdx_getElem (p := Option.isNone) (xs := fds) (w := hl)
    have h2 := List.getElem?_eq_getElem hl
    rw [show fds[lowest fds] = some x from Option.some.inj (h2.symm.trans h)] at h1
    cases h1
  · rw [List.getElem?_append_left (List.getElem?_eq_some_iff.mp h).1]; exact h

/-- `open` opens the file. -/
theorem openFile_self (fds : List (Option Desc)) (d : Desc) : (openFile fds d)[lowest fds]? = some (some d) := by
  unfold openFile
  split
  · rename_i hl
    rw [List.getElem?_set, if_pos rfl, if_pos hl]
  · rename_i hl
    have : lowest fds = fds.length := Nat.le_antisymm List.findIdx_le_length (by omega)
    rw [this]; simp

/-- Results do not depend on the rest of the state. -/
theorem Res.congr {s t : State sz} {c : Call sz} (h : Res s c) (h1 : t.table = s.table) (h2 : t.linux = s.linux) : Res t c := by
  have hs : t.size = s.size := by simp [State.size, h1]
  unfold Res at *
  rw [hs, h1, h2]; exact h

theorem inv_init (linux direct : Bool) (table : List UInt8) (files : List (List UInt8)) :
    Inv (State.init sz linux direct table files) := by
  refine ⟨⟨rfl, ?_, by simp [State.init], by simp [State.init]⟩, Or.inl ⟨?_, ⟨_, rfl, rfl, rfl⟩, by simp [State.init]⟩⟩
  · intro k d hd r hr
    have : d ∈ [(⟨true, false, []⟩ : Sched)] := List.mem_of_getElem? hd
    rw [List.mem_singleton] at this
    subst this; cases hr
  · simp [Opened, State.init]

/-- The state in which call `n` has gone on to `pc` -/
abbrev State.put (s : State sz) (n : Nat) (j : Job) (pc : Pc sz) : State sz := { s with calls := s.calls.set n ⟨j, pc⟩ }

theorem Base.put {s : State sz} (h : Base s) {n : Nat} {j : Job} {pc pc' : Pc sz} (hn : s.calls[n]? = some ⟨j, pc⟩)
    (hw : underWay (⟨j, pc⟩ : Call sz) = true) (hr : underWay (⟨j, pc'⟩ : Call sz) = false → Res s ⟨j, pc'⟩) : Base (s.put n j pc') := by
  have key : ∀ (m i : Nat), s.calls[m]? = some ⟨.asyncGet i, .submitted⟩ → (s.put n j pc').calls[m]? = some ⟨.asyncGet i, .submitted⟩ := by
    intro m i hm
    refine set_ne hm ?_
    rintro rfl
    rw [hn] at hm
    have := Option.some.inj hm
    rw [this] at hw; cases hw
  refine ⟨h.fault, fun k d hd r hr => ?_, fun m c hm hc => ?_, fun x hx => ?_⟩
  · obtain ⟨h1, h2, h3⟩ := h.pend k d hd r hr
    exact ⟨h1, h2, key _ _ h3⟩
  · rcases get_set hm with ⟨-, rfl⟩ | ⟨-, hm⟩
    · exact Res.congr (hr hc) rfl rfl
    · exact Res.congr (h.ended m c hm hc) rfl rfl
  · obtain ⟨i, h1, h2⟩ := h.answers x hx
    exact ⟨i, key _ _ h1, h2⟩

/-- A call goes on while the mode does not change, and only its own point changes. -/
theorem Inv.quiet_put {s : State sz} (hb : Base s) (hq : Quiet s) {n : Nat} {j : Job} {pc pc' : Pc sz} (hn : s.calls[n]? = some ⟨j, pc⟩)
    (hw : underWay (⟨j, pc⟩ : Call sz) = true) (hr : underWay (⟨j, pc'⟩ : Call sz) = false → Res s ⟨j, pc'⟩)
    (hk : underWay (⟨j, pc'⟩ : Call sz) = true → QOk s ⟨j, pc'⟩) : Inv (s.put n j pc') := by
  refine ⟨hb.put hn hw hr, Or.inl ⟨hq.opened, hq.sched, fun m c hm hc => ?_⟩⟩
  rcases get_set hm with ⟨-, rfl⟩ | ⟨-, hm⟩
  · exact hk hc
  · exact hq.calls m c hm hc

theorem use_eq {s : State sz} {k : Nat} {d : Sched} (hd : s.scheds[k]? = some d) (ha : d.alive = true) (pc : Pc sz)
    (f : Sched → State sz × Pc sz) : s.use k pc f = f d := by
  simp [State.use, hd, ha]

/-- A step of a call while the mode does not change -/
theorem inv_quiet {s : State sz} (hb : Base s) (hq : Quiet s) {n : Nat} {j : Job} {pc : Pc sz} (hn : s.calls[n]? = some ⟨j, pc⟩)
    (hw : underWay (⟨j, pc⟩ : Call sz) = true) :
    Inv { (next s n j pc).1 with calls := s.calls.set n ⟨j, (next s n j pc).2⟩ } := by
  have hok := hq.calls n _ hn hw
  cases j with
  | get i =>
    cases pc <;> try exact hok.elim
    · simp only [next]
      split
      · rename_i hi
        exact Inv.quiet_put hb hq hn hw (fun _ => Or.inl hi) (fun h => by cases h)
      · exact Inv.quiet_put hb hq hn hw (fun h => by cases h) (fun _ => rfl)
    · rename_i m
      obtain rfl : m = s.fd := hok
      have hp : s.pread s.fd i = readAt sz s.table i := by
        have := hq.opened
        unfold Opened at this
        simp [State.pread, this]
      simp only [next, hp]
      cases hv : readAt sz s.table i with
      | none => exact Inv.quiet_put hb hq hn hw (fun _ => Or.inr hv) (fun h => by cases h)
      | some v => exact Inv.quiet_put hb hq hn hw (fun _ => hv) (fun h => by cases h)
  | asyncGet i =>
    cases pc <;> try exact hok.elim
    · simp only [next]
      split
      · rename_i hi
        exact Inv.quiet_put hb hq hn hw (fun _ => Or.inl hi) (fun h => by cases h)
      · exact Inv.quiet_put hb hq hn hw (fun h => by cases h) (fun _ => rfl)
    · rename_i k
      exact Inv.quiet_put hb hq hn hw (fun h => by cases h) (fun _ => ⟨hok, rfl⟩)
    · rename_i k m
      obtain ⟨rfl, rfl⟩ := (show k = s.ptr ∧ m = s.fd from hok)
      obtain ⟨d, hd, ha, hs⟩ := hq.sched
      simp only [next]
      rw [use_eq hd ha]
      split
      · rename_i hl
        refine Inv.quiet_put hb hq hn hw (fun _ => Or.inr ⟨hl.1, ?_⟩) (fun h => by cases h)
        exact hl.2.resolve_left (by simp [hs])
      · obtain ⟨b1, b2⟩ := Inv.quiet_put (pc' := Pc.submitted) hb hq hn hw (fun _ => trivial) (fun h => by cases h)
        refine ⟨⟨b1.fault, fun k e he r hr => ?_, b1.ended, b1.answers⟩, Or.inl ⟨hq.opened, ⟨_, set_self hd, ha, hs⟩, ?_⟩⟩
        · rcases get_set he with ⟨rfl, rfl⟩ | ⟨hk, he⟩
          · rcases List.mem_append.mp hr with hr | hr
            · exact b1.pend _ d hd r hr
            · rw [List.mem_singleton] at hr
              subst hr
              exact ⟨rfl, rfl, set_self hn⟩
          · exact b1.pend k e he r hr
        · intro m c hm hc
          rcases get_set hm with ⟨-, rfl⟩ | ⟨-, hm⟩
          · cases hc
          · exact hq.calls m c hm hc
  | direct b =>
    cases pc <;> try exact hok.elim
    have hbd : b = s.direct := hok
    simp only [next, if_pos hbd]
    exact Inv.quiet_put hb hq hn hw (fun _ => trivial) (fun h => by cases h)

/-- A change of the mode goes on: what is needed of the new state -/
theorem inv_changed {s t : State sz} (hb : Base s) {n : Nat} {b : Bool} {pc pc' : Pc sz} (hc : Changing s n b pc)
    (hf : t.fault = false) (htab : t.table = s.table) (hlin : t.linux = s.linux) (hans : t.answers = s.answers)
    (hcalls : t.calls = s.calls.set n ⟨.direct b, pc'⟩) (hdir : b ≠ t.direct)
    (hw : underWay (⟨.direct b, pc'⟩ : Call sz) = true) (hpc : COk t pc')
    (hpend : ∀ (k : Nat) (d : Sched), t.scheds[k]? = some d → ∀ r ∈ d.pending,
      t.ptr = s.ptr ∧ t.fd = s.fd ∧ ∃ e, s.scheds[k]? = some e ∧ r ∈ e.pending) : Inv t := by
  have hput := hb.put (pc' := pc') hc.call hc.way (fun h => by rw [hw] at h; cases h)
  refine ⟨⟨hf, fun k d hd r hr => ?_, fun m c hm hu => ?_, fun x hx => ?_⟩,
    Or.inr ⟨n, b, pc', by rw [hcalls]; exact set_self hc.call, hw, hdir, fun m c hm hne => ?_, hpc⟩⟩
  · obtain ⟨e1, e2, e, he, hre⟩ := hpend k d hd r hr
    obtain ⟨h1, h2, h3⟩ := hput.pend k e he r hre
    exact ⟨h1.trans e1.symm, h2.trans e2.symm, by rw [hcalls]; exact h3⟩
  · rw [hcalls] at hm
    exact (hput.ended m c hm hu).congr htab hlin
  · rw [hans] at hx
    obtain ⟨i, h1, h2⟩ := hput.answers x hx
    exact ⟨i, by rw [hcalls]; exact h1, by rw [htab]; exact h2⟩
  · rw [hcalls] at hm
    rcases get_set hm with ⟨rfl, -⟩ | ⟨-, hm⟩
    · exact absurd rfl hne
    · exact hc.sole m c hm hne

/-- A step of the call that changes the mode -/
theorem inv_changing {s : State sz} (hb : Base s) {n : Nat} {b : Bool} {pc : Pc sz} (hc : Changing s n b pc) :
    Inv { (next s n (.direct b) pc).1 with calls := s.calls.set n ⟨.direct b, (next s n (.direct b) pc).2⟩ } := by
  have hok := hc.pc
  have none_of : NoPending s → ∀ (k : Nat) (d : Sched), s.scheds[k]? = some d → ∀ r ∈ d.pending, False := by
    intro h k d hd r hr; rw [h k d hd] at hr; cases hr
  cases pc <;> try exact hok.elim
  · obtain ⟨h1, d, h2, h3, h4⟩ := hok
    simp only [next, if_neg hc.flag]
    exact inv_changed hb hc hb.fault rfl rfl rfl rfl hc.flag rfl ⟨rfl, h1, d, h2, h3⟩ (fun k d hd r hr => ⟨rfl, rfl, d, hd, hr⟩)
  · rename_i k
    obtain ⟨rfl, h1, d, h2, h3⟩ := (show k = s.ptr ∧ _ from hok)
    simp only [next]
    rw [use_eq h2 h3]
    by_cases hp : d.pending = []
    · simp only [if_pos hp]
      refine inv_changed hb hc hb.fault rfl rfl rfl rfl hc.flag rfl ⟨h1, ?_, _, set_self h2, h3⟩ ?_
      · intro k e he
        rcases get_set he with ⟨-, rfl⟩ | ⟨hk, he⟩
        · exact hp
        · refine Classical.byContradiction fun hne => ?_
          obtain ⟨r, hr⟩ := List.exists_mem_of_ne_nil _ hne
          exact hk (hb.pend k e he r hr).1
      · intro k e he r hr
        rcases get_set he with ⟨rfl, rfl⟩ | ⟨hk, he⟩
        · exact ⟨rfl, rfl, d, h2, hr⟩
        · exact ⟨rfl, rfl, e, he, hr⟩
    · simp only [if_neg hp]
      refine inv_changed hb hc hb.fault rfl rfl rfl rfl hc.flag rfl ⟨rfl, h1, _, set_self h2, h3⟩ ?_
      intro k e he r hr
      rcases get_set he with ⟨rfl, rfl⟩ | ⟨hk, he⟩
      · exact ⟨rfl, rfl, d, h2, hr⟩
      · exact ⟨rfl, rfl, e, he, hr⟩
  · obtain ⟨h1, h2, h3⟩ := hok
    exact inv_changed hb hc hb.fault rfl rfl rfl rfl hc.flag rfl ⟨h2, h3⟩ (fun k d hd r hr => (none_of h2 k d hd r hr).elim)
  · obtain ⟨h2, h3⟩ := hok
    exact inv_changed hb hc hb.fault rfl rfl rfl rfl hc.flag rfl ⟨openFile_self _ _, h2, h3⟩
      (fun k d hd r hr => (none_of h2 k d hd r hr).elim)
  · obtain ⟨h1, h2, d, h3, h4⟩ := hok
    simp only [next]
    rw [use_eq h3 h4]
    have hlt := (List.getElem?_eq_some_iff.mp h3).1
    have hnp : ∀ (k : Nat) (e : Sched), (s.scheds ++ [⟨true, false, []⟩])[k]? = some e → e.pending = [] := by
      intro k e he
      rcases List.mem_append.mp (List.mem_of_getElem? he) with h | h
      · obtain ⟨k', hk'⟩ := List.getElem?_of_mem h
        exact h2 k' e hk'
      · rw [List.mem_singleton] at h; subst h; rfl
    refine inv_changed hb hc hb.fault rfl rfl rfl rfl hc.flag rfl
      ⟨h1, hnp, by simp only; omega, by simp, d, ?_, h4⟩ (fun k e he r hr => by rw [hnp k e he] at hr; cases hr)
    simp only
    rw [List.getElem?_append_left hlt]; exact h3
  · rename_i m
    obtain ⟨h1, h2, h3, h4, h5⟩ := hok
    exact inv_changed hb hc hb.fault rfl rfl rfl rfl hc.flag rfl ⟨h1, h2, h3.symm, h4, h5⟩
      (fun k d hd r hr => (none_of h2 k d hd r hr).elim)
  · rename_i k
    obtain ⟨h1, h2, h3, h4, d, h5, h6⟩ := hok
    simp only [next]
    rw [use_eq h5 h6]
    simp only [if_pos (h2 k d h5)]
    have hnp : ∀ (k' : Nat) (e : Sched), (s.scheds.set k { d with alive := false, stopped := true })[k']? = some e → e.pending = [] := by
      intro k' e he
      rcases get_set he with ⟨-, rfl⟩ | ⟨-, he⟩
      · exact h2 k d h5
      · exact h2 k' e he
    exact inv_changed hb hc hb.fault rfl rfl rfl rfl hc.flag rfl ⟨h1, hnp, set_ne h4 h3.symm⟩
      (fun k e he r hr => by rw [hnp k e he] at hr; cases hr)
  · obtain ⟨h1, h2, h3⟩ := hok
    simp only [next]
    have hput := hb.put (pc' := Pc.done) hc.call hc.way (fun _ => trivial)
    refine ⟨⟨hput.fault, hput.pend, fun m c hm hu => (hput.ended m c hm hu).congr rfl rfl, hput.answers⟩,
      Or.inl ⟨h1, ⟨_, h3, rfl, rfl⟩, fun m c hm hu => ?_⟩⟩
    rcases get_set hm with ⟨-, rfl⟩ | ⟨hne, hm⟩
    · cases hu
    · rw [hc.sole m c hm hne] at hu; cases hu

/-- A call that has ended does not go on. -/
theorem next_ended (s : State sz) (n : Nat) (c : Call sz) (h : underWay c = false) : next s n c.job c.pc = (s, c.pc) := by
  obtain ⟨j, pc⟩ := c
  cases j <;> cases pc <;> first | rfl | cases h

/-- Other files do not matter. -/
theorem Inv.fds {s : State sz} (h : Inv s) {fds : List (Option Desc)}
    (hf : s.fds[s.fd]? = some (some .own) → fds[s.fd]? = some (some .own)) : Inv { s with fds := fds } := by
  obtain ⟨hb, h⟩ := h
  refine ⟨⟨hb.fault, hb.pend, fun m c hm hu => (hb.ended m c hm hu).congr rfl rfl, hb.answers⟩, ?_⟩
  rcases h with h | ⟨n, b, pc, h⟩
  · exact Or.inl ⟨hf h.opened, h.sched, h.calls⟩
  · refine Or.inr ⟨n, b, pc, h.call, h.way, h.flag, h.sole, ?_⟩
    have hok := h.pc
    cases pc <;> try exact hok.elim
    · exact ⟨hf hok.1, hok.2⟩
    · exact ⟨hok.1, hf hok.2.1, hok.2.2⟩
    · exact ⟨hf hok.1, hok.2⟩
    · exact hok
    · exact ⟨hf hok.1, hok.2⟩
    · exact ⟨hf hok.1, hok.2⟩
    · exact ⟨hf hok.1, hok.2⟩
    · exact ⟨hf hok.1, hok.2⟩

/-- A new call -/
theorem inv_call {s : State sz} (h : Inv s) (j : Job) (h1 : NoneChanging s)
    (h2 : ∀ b, j = .direct b → b ≠ s.direct → ∀ c ∈ s.calls, underWay c = false) :
    Inv { s with calls := s.calls ++ [⟨j, .begun⟩] } := by
  obtain ⟨hb, h⟩ := h
  have key : ∀ (m : Nat) (c : Call sz), s.calls[m]? = some c → (s.calls ++ [⟨j, .begun⟩])[m]? = some c := by
    intro m c hm
    rw [List.getElem?_append_left (List.getElem?_eq_some_iff.mp hm).1]; exact hm
  have split : ∀ (m : Nat) (c : Call sz), (s.calls ++ [⟨j, .begun⟩])[m]? = some c →
      s.calls[m]? = some c ∨ (m = s.calls.length ∧ c = ⟨j, .begun⟩) := by
    intro m c hm
    rcases Nat.lt_or_ge m s.calls.length with hl | hl
    · rw [List.getElem?_append_left hl] at hm; exact Or.inl hm
    · rw [List.getElem?_append_right hl] at hm
      have hm0 : m - s.calls.length = 0 := by
        have := (List.getElem?_eq_some_iff.mp hm).1
        simp at this; omega
      rw [hm0] at hm
      exact Or.inr ⟨by omega, (Option.some.inj hm).symm⟩
  have hq : Quiet s := by
    rcases h with h | ⟨n, b, pc, h⟩
    · exact h
    · exact absurd (h1 _ (List.mem_of_getElem? h.call) h.way b rfl) h.flag
  refine ⟨⟨hb.fault, fun k d hd r hr => ?_, fun m c hm hu => ?_, fun x hx => ?_⟩, ?_⟩
  · obtain ⟨e1, e2, e3⟩ := hb.pend k d hd r hr
    exact ⟨e1, e2, key _ _ e3⟩
  · rcases split m c hm with hm | ⟨-, rfl⟩
    · exact (hb.ended m c hm hu).congr rfl rfl
    · cases hu
  · obtain ⟨i, e1, e2⟩ := hb.answers x hx
    exact ⟨i, key _ _ e1, e2⟩
  · by_cases hj : ∃ b, j = .direct b ∧ b ≠ s.direct
    · obtain ⟨b, rfl, hbd⟩ := hj
      refine Or.inr ⟨s.calls.length, b, .begun, by simp, rfl, hbd, fun m c hm hne => ?_, hq.opened, hq.sched⟩
      rcases split m c hm with hm | ⟨rfl, -⟩
      · exact h2 b rfl hbd c (List.mem_of_getElem? hm)
      · exact absurd rfl hne
    · refine Or.inl ⟨hq.opened, hq.sched, fun m c hm hu => ?_⟩
      rcases split m c hm with hm | ⟨-, rfl⟩
      · exact hq.calls m c hm hu
      · cases j with
        | get i => trivial
        | asyncGet i => trivial
        | direct b => exact Classical.byContradiction fun hne => hj ⟨b, rfl, hne⟩

/-- A read of a scheduler -/
theorem inv_complete {s : State sz} (h : Inv s) (k i : Nat) (d : Sched) (hd : s.scheds[k]? = some d) (r : Nat × Nat × Nat)
    (hr : d.pending[i]? = some r) :
    Inv { s with scheds := s.scheds.set k { d with pending := d.pending.eraseIdx i }, answers := s.answers ++ [(r.1, s.pread r.2.1 r.2.2)] } := by
  obtain ⟨hb, h⟩ := h
  have hrm := List.mem_of_getElem? hr
  obtain ⟨rfl, e2, e3⟩ := hb.pend k d hd r hrm
  have hne : ¬ NoPending s := fun hp => by rw [hp _ d hd] at hrm; cases hrm
  have hop : Opened s := by
    rcases h with h | ⟨n, b, pc, h⟩
    · exact h.opened
    · have hok := h.pc
      cases pc <;> try exact hok.elim
      · exact hok.1
      · exact hok.2.1
      · exact hok.1
      · exact absurd hok.1 hne
      · exact hok.1
      · exact hok.1
      · exact hok.1
      · exact hok.1
  have hread : s.pread r.2.1 r.2.2 = readAt sz s.table r.2.2 := by
    unfold Opened at hop
    rw [e2]; simp [State.pread, hop]
  refine ⟨⟨hb.fault, fun k' e he x hx => ?_, fun m c hm hu => (hb.ended m c hm hu).congr rfl rfl, fun x hx => ?_⟩, ?_⟩
  · rcases get_set he with ⟨rfl, rfl⟩ | ⟨-, he⟩
    · exact hb.pend _ d hd x (List.mem_of_mem_eraseIdx hx)
    · exact hb.pend k' e he x hx
  · rcases List.mem_append.mp hx with hx | hx
    · exact hb.answers x hx
    · rw [List.mem_singleton] at hx
      subst hx
      exact ⟨_, e3, hread⟩
  · have hs : ∀ P : Sched → Prop, (∃ e, s.scheds[s.ptr]? = some e ∧ P e) →
        (∀ e e' : Sched, e'.alive = e.alive → e'.stopped = e.stopped → P e → P e') →
        ∃ e, (s.scheds.set s.ptr { d with pending := d.pending.eraseIdx i })[s.ptr]? = some e ∧ P e := by
      rintro P ⟨e, he, hpe⟩ hP
      rw [hd] at he
      obtain rfl := Option.some.inj he
      exact ⟨_, set_self hd, hP d _ rfl rfl hpe⟩
    rcases h with h | ⟨n, b, pc, h⟩
    · refine Or.inl ⟨h.opened, ?_, h.calls⟩
      exact hs (fun e => e.alive = true ∧ e.stopped = false) h.sched (fun e e' h1 h2 h3 => ⟨h1.trans h3.1, h2.trans h3.2⟩)
    · refine Or.inr ⟨n, b, pc, h.call, h.way, h.flag, h.sole, ?_⟩
      have hok := h.pc
      cases pc <;> try exact hok.elim
      · exact ⟨hok.1, hs (fun e => e.alive = true ∧ e.stopped = false) hok.2 (fun e e' h1 h2 h3 => ⟨h1.trans h3.1, h2.trans h3.2⟩)⟩
      · exact ⟨hok.1, hok.2.1, hs (fun e => e.alive = true) hok.2.2 (fun e e' h1 h2 h3 => h1.trans h3)⟩
      · exact absurd hok.2.1 hne
      · exact absurd hok.1 hne
      · exact absurd hok.2.1 hne
      · exact absurd hok.2.1 hne
      · exact absurd hok.2.1 hne
      · exact absurd hok.2.1 hne

/-- One step -/
theorem inv_step {s : State sz} (h : Inv s) (a : Act) (ha : ∀ j, a = .call j → NoneChanging s ∧
    ∀ b, j = .direct b → b ≠ s.direct → ∀ c ∈ s.calls, underWay c = false) : Inv (s.step a) := by
  unfold State.step
  rw [if_neg (by simp [h.1.fault])]
  cases a with
  | call j => exact inv_call h j (ha j rfl).1 (ha j rfl).2
  | advance n =>
    simp only
    cases hn : s.calls[n]? with
    | none => exact h
    | some c =>
      simp only
      by_cases hu : underWay c = true
      · rcases h.2 with hq | ⟨m, b, pc, hc⟩
        · exact inv_quiet h.1 hq hn hu
        · have : n = m := by
            refine Classical.byContradiction fun hne => ?_
            rw [hc.sole n c hn hne] at hu; cases hu
          subst this
          obtain rfl : c = ⟨.direct b, pc⟩ := Option.some.inj (hn.symm.trans hc.call)
          exact inv_changing h.1 hc
      · rw [next_ended s n c (by simpa using hu)]
        have : s.calls.set n ⟨c.job, c.pc⟩ = s.calls := by
          apply List.ext_getElem?
          intro m
          by_cases e : m = n
          · subst e; rw [set_self hn, hn]
          · rw [List.getElem?_set_ne (Ne.symm e)]
        simp only [this]
        exact h
  | complete k i =>
    simp only
    cases hd : s.scheds[k]? with
    | none => exact h
    | some d =>
      simp only
      cases hr : d.pending[i]? with
      | none => exact h
      | some r => exact inv_complete h k i d hd r hr
  | openOther c => exact h.fds openFile_ne
  | closeOther n =>
    simp only
    split
    · rename_i c hc
      refine h.fds fun ho => set_ne ho ?_
      intro e
      rw [e, hc] at ho
      cases ho
    · exact h

theorem inv_run (acts : List Act) : ∀ s : State sz, Inv s → Careful s acts → Inv (s.run acts) := by
  induction acts with
  | nil => intro s h _; exact h
  | cons a acts ih =>
    intro s h hc
    refine ih (s.step a) (inv_step h a ?_) ?_
    · rintro j rfl
      exact hc [] j acts rfl
    · intro before j after he
      exact hc (a :: before) j after (by rw [he]; rfl)

end Verif.Vec.Modes
