import Verif.Vec.BuffersStep
import Mathlib.Data.Nat.Bitwise

/-!
# Calls that submit all their requests or none
-/

namespace Verif.Vec.Buf

variable {c : Cfg} {s : State}

theorem isAligned_of_dvd {p k a : Nat} (hp : p = 2 ^ k) (h : p ∣ a) : isAligned a p = true := by
  subst hp
  simp only [isAligned, Nat.and_two_pow_sub_one_eq_mod, beq_iff_eq]
  exact Nat.mod_eq_zero_of_dvd h

/-- A call without an error of `io_submit` that submits all or nothing -/
def Call.Whole (u : Call) : Prop :=
  u.failed = false ∧ (u.sub ++ u.todo = u.bufs ∨ (u.sub = [] ∧ u.todo = []))

theorem prepare_addr {align size n : Nat} {rs : List (Nat × Option Nat)}
    (h : rs.all (fun r => r.2.all (fun a => a % align == 0)) = true) :
    ∀ x ∈ (prepare size n rs).1, align ∣ x.2.2 := by
  induction rs generalizing n with
  | nil => simp [prepare]
  | cons r rs ih =>
    obtain ⟨i, mem⟩ := r
    simp only [List.all_cons, Bool.and_eq_true] at h
    unfold prepare
    split
    · simp
    · cases mem with
      | none => simp
      | some a =>
        intro x hx
        simp only [List.mem_cons] at hx
        rcases hx with rfl | hx
        · have := h.1
          simp at this
          exact Nat.dvd_of_mod_eq_zero this
        · exact ih h.2 x hx

theorem check_of_fits {align : Nat} (hf : c.fits align) {a i : Nat} (h : align ∣ a) :
    c.check i a = true := by
  unfold Cfg.fits at hf
  unfold Cfg.check
  split
  · rfl
  next p hp =>
    rw [hp] at hf
    obtain ⟨⟨k, hk⟩, h1, h2⟩ := hf
    rw [isAligned_of_dvd hk (h1.trans h)]
    have h3 : 512 ∣ i * c.sz := h2.trans (Dvd.intro_left i rfl)
    simp [Nat.mod_eq_zero_of_dvd h2, Nat.mod_eq_zero_of_dvd h3]

theorem whole_start {align : Nat} (hf : c.fits align) (hw : ∀ u ∈ s.calls, u.Whole) (k : Kind)
    {rs : List (Nat × Option Nat)} (h : rs.all (fun r => r.2.all (fun a => a % align == 0)) = true) :
    ∀ u ∈ (s.start c k (prepare s.size s.next rs)).calls, u.Whole := by
  have ha := prepare_addr (size := s.size) (n := s.next) h
  unfold State.start
  split
  · intro u hu
    rcases List.mem_append.1 hu with hu | hu
    · exact hw u hu
    · simp at hu
      subst hu
      refine ⟨rfl, ?_⟩
      dsimp only
      unfold Cfg.passing
      split
      · exact .inr ⟨rfl, rfl⟩
      · refine .inl ?_
        rw [List.nil_append, List.filter_eq_self.2]
        intro x hx
        exact check_of_fits hf (ha x hx)
  · exact hw

theorem whole_step {align : Nat} (hf : c.fits align) (hw : ∀ u ∈ s.calls, u.Whole) {a : Act}
    (hg : a.good align = true) : ∀ u ∈ (s.step c a).calls, u.Whole := by
  cases a with
  | get i mem =>
    simp only [State.step]
    split
    · exact hw
    · exact whole_start hf hw .get (by simpa [Act.good] using hg)
  | gets rs =>
    simp only [State.step]
    split
    · exact hw
    · exact whole_start hf hw .gets (by simpa [Act.good] using hg)
  | push mem =>
    simp only [State.step]
    split
    · exact hw
    · exact whole_start hf hw .push (by simpa [Act.good] using hg)
  | submit j n =>
    simp only [State.step]
    cases hj : s.calls[j]? with
    | none => exact hw
    | some u =>
      simp only
      split
      · exact hw
      next hc =>
        intro v hv
        rcases mem_set hv with rfl | hv
        · obtain ⟨h1, h2⟩ := hw u (List.mem_of_getElem? hj)
          refine ⟨h1, .inl ?_⟩
          dsimp only
          rw [List.append_assoc, List.take_append_drop]
          rcases h2 with h2 | h2
          · exact h2
          · exact absurd (.inr h2.2) hc
        · exact hw v hv
  | error j => simp [Act.good] at hg
  | finish j =>
    simp only [State.step]
    cases hj : s.calls[j]? with
    | none => exact hw
    | some u =>
      simp only
      split
      · exact hw
      · split
        · exact fun v hv => hw v (List.mem_of_mem_eraseIdx hv)
        · exact fun v hv => hw v (List.mem_of_mem_eraseIdx hv)
  | io i res =>
    simp only [State.step]
    split <;> exact hw
  | notify i =>
    simp only [State.step]
    split <;> exact hw
  | drop i =>
    simp only [State.step]
    split <;> exact hw
  | wait => exact hw
  | renew cm =>
    simp only [State.step]
    split <;> exact hw

theorem finish_allOrNothing (h : Inv c s) (hw : ∀ u ∈ s.calls, u.Whole) (j : Nat) :
    AllOrNothing (s.step c (.finish j)).trace := by
  have h0 := h.allOrNothing
  simp only [State.step]
  cases hj : s.calls[j]? with
  | none => exact h0
  | some u =>
    have hu := List.mem_of_getElem? hj
    have hc := h.calls u hu
    obtain ⟨hf, hw⟩ := hw u hu
    simp only
    split
    · exact h0
    next htodo =>
    split
    · intro b e bs h1 h2 h3
      simp at h1 h3
      exact h0 b e bs h1 h2 h3
    next hfail =>
      intro b e bs h1 h2 h3
      have htodo : u.todo = [] := by simpa using htodo
      have hsub : u.sub = [] := by
        rcases hw with hw | hw
        · rw [htodo, List.append_nil] at hw
          exact absurd ⟨hf, by rw [hw]⟩ hfail
        · exact hw.1
      have hfr : ∀ e, (∀ x, e ≠ Event.free x) →
          e ∉ (if u.kind = Kind.push then [] else u.bufs.map Event.free) := by
        intro e he hm
        split at hm
        · simp at hm
        · obtain ⟨x, -, rfl⟩ := List.mem_map.1 hm
          exact he x rfl
      have h3' : Event.submitted b ∈ s.trace := by
        rcases List.mem_append.1 h3 with h3 | h3
        · rcases List.mem_append.1 h3 with h3 | h3
          · exact h3
          · exact absurd h3 (hfr _ (by simp))
        · simp at h3
      rcases List.mem_append.1 h1 with h1 | h1
      · rcases List.mem_append.1 h1 with h1 | h1
        · exact h0 b e bs h1 h2 h3'
        · exact absurd h1 (hfr _ (by simp))
      · simp at h1
        obtain ⟨-, -, rfl⟩ := h1
        have := mem_of_isSub.1 h3'
        rw [hc.subm b h2, hsub] at this
        simp at this

theorem Inv.runGood {align : Nat} (hf : c.fits align) (h : Inv c s) (hw : ∀ u ∈ s.calls, u.Whole)
    (acts : List Act) (hg : acts.all (Act.good align) = true) : Inv c (s.run c acts) := by
  induction acts generalizing s with
  | nil => exact h
  | cons a acts ih =>
    simp only [List.all_cons, Bool.and_eq_true] at hg
    refine ih (s := s.step c a) (h.step a ?_) (whole_step hf hw hg.1) hg.2
    intro j _
    exact finish_allOrNothing h hw j

end Verif.Vec.Buf
