import Verif.Runner.SetupConc

/-!
# Invariant of the calls of a service at the same time as its set-up
-/

namespace Verif.Runner

variable {sch : Scheme} {valid : Bytes → Bool} {calls : List Call}

/-! ## A call alone -/

/-- The call alone on a service that was never set up, after `n` steps -/
def alone (sch : Scheme) (valid : Bytes → Bool) (c : Call) : Nat → Pc × Disk × Proc
  | 0 => (.start, .absent, ⟨false, none⟩)
  | n + 1 =>
    let r := alone sch valid c n
    callStep sch valid c r.1 r.2.1 r.2.2

/-- A set-up message alone does what `setup` of `Verif.Runner.Setup` does. -/
theorem alone_setup (key : Bytes) (p : Plan) (hp : p.mkdirFails = false) (n : Nat) :
    alone sch valid (.setup key p) (n + 8) =
      (.done (.status (setup sch valid p key .absent ⟨false, none⟩).2),
        lastState (.absent, ⟨false, none⟩) (setup sch valid p key .absent ⟨false, none⟩).1) := by
  induction n with
  | zero =>
    obtain ⟨mk, op, ko, wr⟩ := p
    dsimp only at hp
    subst hp
    cases sch <;> cases op <;> cases ko <;> cases hv : valid key <;>
      simp [alone, callStep, setup, sophosSetup, dianaSetup, lastState, hv]
  | succ n ih =>
    rw [show n + 1 + 8 = (n + 8) + 1 by omega, alone, ih]
    simp [callStep]

/-- What is true of a set-up message alone from the creation of the directory on -/
structure Owned (sch : Scheme) (key : Bytes) (p : Plan) (r : Pc × Disk × Proc) : Prop where
  disk : r.2.1 ≠ .absent
  sophos : sch = .sophos → r.2.2.core = true → r.2.2.key = some key
  ends : (∃ st, r.1 = .done (.status st)) ∨ r.1 = .construct ∨ r.1 = .assign ∨ r.1 = .keyOpen ∨ r.1 = .keyWrite ∨ r.1 = .wrapper
  ok : r.1 = .done (.status .ok) → r.2 = (.dir true (some (key.take p.written)), ⟨true, some key⟩)
  core : r.2.2.core = true → r.1 ≠ .construct

theorem alone_owned (key : Bytes) (p : Plan) (hp : p.mkdirFails = false) (n : Nat) :
    Owned sch key p (alone sch valid (.setup key p) (n + 3)) := by
  have h8 : n + 3 = 3 ∨ n + 3 = 4 ∨ n + 3 = 5 ∨ n + 3 = 6 ∨ n + 3 = 7 ∨ ∃ k, n + 3 = k + 8 := by
    rcases Nat.lt_or_ge n 5 with h | h
    · omega
    · exact Or.inr (Or.inr (Or.inr (Or.inr (Or.inr ⟨n - 5, by omega⟩))))
  obtain ⟨mk, op, ko, wr⟩ := p
  dsimp only at hp
  subst hp
  rcases h8 with h | h | h | h | h | ⟨k, h⟩
  all_goals first | rw [h, alone_setup _ _ rfl] | rw [h]
  all_goals
    constructor <;> cases sch <;> cases op <;> cases ko <;> cases hv : valid key <;>
      simp [alone, callStep, setup, sophosSetup, dianaSetup, lastState, hv]

/-! ## The invariant -/

/-- The call has not got to `create_directory`, or did not return from it. -/
def Pc.Early (pc : Pc) : Prop := pc = .start ∨ pc = .exist ∨ pc = .mkdir

/-- No directory was created. -/
structure Untouched (calls : List Call) (s : Calls) : Prop where
  disk : s.disk = .absent
  proc : s.proc = ⟨false, none⟩
  setups : ∀ i key p, calls[i]? = some (.setup key p) →
    (s.pc i).Early ∨ (p.mkdirFails = true ∧ s.pc i = .done (.status .permissionDenied))

/-- The call number `w` created the directory; it is as if it were alone. -/
structure OwnedBy (sch : Scheme) (valid : Bytes → Bool) (calls : List Call) (s : Calls) (w : Nat) (key : Bytes) (p : Plan) (n : Nat) : Prop where
  call : calls[w]? = some (.setup key p)
  plan : p.mkdirFails = false
  state : (s.pc w, s.disk, s.proc) = alone sch valid (.setup key p) (n + 3)
  setups : ∀ i, i ≠ w → ∀ key' p', calls[i]? = some (.setup key' p') → (s.pc i).Early ∨ ∃ st, st ≠ .ok ∧ s.pc i = .done (.status st)

/-- Where an insertion or a search is -/
def Served (sch : Scheme) (s : Calls) (c : Call) (pc : Pc) : Prop :=
  pc = .start ∨ (pc = .use ∧ s.proc.core = true) ∨ pc = .done (.status .failedPrecondition) ∨
    (pc = .done (.status .ok) ∧ s.proc.core = true) ∨
    (pc = .done .nullPointer ∧ c = .search ∧ sch = .diana ∧ s.crashed = true)

def Inv (sch : Scheme) (valid : Bytes → Bool) (calls : List Call) (s : Calls) : Prop :=
  (Untouched calls s ∨ ∃ w key p n, OwnedBy sch valid calls s w key p n) ∧
    (∀ i c, calls[i]? = some c → c = .insert ∨ c = .search → Served sch s c (s.pc i))

theorem inv_fresh : Inv sch valid calls Calls.fresh :=
  ⟨Or.inl ⟨rfl, rfl, fun _ _ _ _ => Or.inl (Or.inl rfl)⟩, fun _ _ _ _ => Or.inl rfl⟩

/-- Others are not moved; `server_` stays set. -/
theorem served_other {s : Calls} {c : Call} {pc : Pc} {d : Disk} {pr : Proc} {f : Nat → Pc} {b : Bool} (h : Served sch s c pc)
    (hc : s.proc.core = true → pr.core = true) (hs : s.crashed = false) : Served sch ⟨d, pr, f, b⟩ c pc := by
  rcases h with h | ⟨h, h'⟩ | h | ⟨h, h'⟩ | ⟨-, -, -, h⟩
  · exact Or.inl h
  · exact Or.inr (Or.inl ⟨h, hc h'⟩)
  · exact Or.inr (Or.inr (Or.inl h))
  · exact Or.inr (Or.inr (Or.inr (Or.inl ⟨h, hc h'⟩)))
  · rw [hs] at h; cases h

theorem inv_step {s : Calls} (h : Inv sch valid calls s) (i : Nat) : Inv sch valid calls (s.step sch valid calls i) := by
  unfold Calls.step
  cases hcr : s.crashed with
  | true => exact h
  | false =>
    simp only [Bool.false_eq_true, if_false]
    cases hc : calls[i]? with
    | none => exact h
    | some c =>
      obtain ⟨h1, h2⟩ := h
      dsimp only
      by_cases hk : ∃ key p, c = .setup key p
      · obtain ⟨key, p, rfl⟩ := hk
        -- the other calls
        have hserved : (s.proc.core = true → (callStep sch valid (.setup key p) (s.pc i) s.disk s.proc).2.2.core = true) →
            ∀ j c', calls[j]? = some c' → c' = .insert ∨ c' = .search → Served sch
              ⟨(callStep sch valid (.setup key p) (s.pc i) s.disk s.proc).2.1, (callStep sch valid (.setup key p) (s.pc i) s.disk s.proc).2.2,
                fun j => if j = i then (callStep sch valid (.setup key p) (s.pc i) s.disk s.proc).1 else s.pc j,
                decide ((callStep sch valid (.setup key p) (s.pc i) s.disk s.proc).1 = .done .nullPointer)⟩ c'
              (if j = i then (callStep sch valid (.setup key p) (s.pc i) s.disk s.proc).1 else s.pc j) := by
          intro hcore j c' hj hc'
          have hji : j ≠ i := by
            rintro rfl
            rw [hc] at hj
            cases hj
            rcases hc' with h | h <;> cases h
          rw [if_neg hji]
          exact served_other (h2 j c' hj hc') hcore hcr
        rcases h1 with h1 | ⟨w, key', p', n, h1⟩
        · obtain ⟨hd, hp, hs⟩ := h1
          refine ⟨?_, hserved (by rw [hp]; intro h; cases h)⟩
          rcases hs i key p hc with (e | e | e) | ⟨hm, e⟩
          · refine Or.inl ⟨?_, ?_, ?_⟩
            · simp [e, callStep, hp, hd]
            · simp [e, callStep, hp]
            · intro j key' p' hj
              by_cases hji : j = i
              · simp [hji, e, callStep, hp, Pc.Early]
              · simp only [if_neg hji]; exact hs j key' p' hj
          · refine Or.inl ⟨?_, ?_, ?_⟩
            · simp [e, callStep, hd]
            · simp [e, callStep, hp, hd]
            · intro j key' p' hj
              by_cases hji : j = i
              · simp [hji, e, callStep, hd, Pc.Early]
              · simp only [if_neg hji]; exact hs j key' p' hj
          · cases hm : p.mkdirFails with
            | true =>
              refine Or.inl ⟨?_, ?_, ?_⟩
              · simp [e, callStep, hm, hd]
              · simp [e, callStep, hm, hp]
              · intro j key' p' hj
                by_cases hji : j = i
                · subst hji
                  rw [hc] at hj
                  cases hj
                  simp [e, callStep, hm]
                · simp only [if_neg hji]; exact hs j key' p' hj
            | false =>
              refine Or.inr ⟨i, key, p, 0, hc, hm, ?_, ?_⟩
              · simp [e, callStep, hm, hd, hp, alone]
              · intro j hji key' p' hj
                simp only [if_neg hji]
                rcases hs j key' p' hj with h | ⟨-, h⟩
                · exact Or.inl h
                · exact Or.inr ⟨.permissionDenied, by decide, h⟩
          · refine Or.inl ⟨?_, ?_, ?_⟩
            · simp [e, callStep, hd]
            · simp [e, callStep, hp]
            · intro j key' p' hj
              by_cases hji : j = i
              · subst hji
                rw [hc] at hj
                cases hj
                simp [e, callStep, hm]
              · simp only [if_neg hji]; exact hs j key' p' hj
        · have howned := alone_owned (sch := sch) (valid := valid) key' p' h1.plan n
          rw [← h1.state] at howned
          by_cases hw : i = w
          · subst hw
            have e := h1.call
            rw [hc] at e
            cases e
            refine ⟨Or.inr ⟨i, key, p, n + 1, hc, h1.plan, ?_, ?_⟩, hserved ?_⟩
            · rw [show n + 1 + 3 = (n + 3) + 1 by omega, alone, ← h1.state]
              simp
            · intro j hji key' p' hj
              simp only [if_neg hji]
              exact h1.setups j hji key' p' hj
            · intro hcore
              have := howned.core hcore
              rcases howned.ends with ⟨st, e⟩ | e | e | e | e | e <;> dsimp only at e this
              · simp [e, callStep, hcore]
              · exact absurd e this
              · simp [e, callStep]
              · rw [e]; simp only [callStep]; split <;> exact hcore
              · rw [e]; cases sch <;> simp only [callStep] <;> first | exact hcore | (split <;> exact hcore)
              · simp [e, callStep, hcore]
          · have hd := howned.disk
            dsimp only at hd
            have hstep : (callStep sch valid (.setup key p) (s.pc i) s.disk s.proc).2 = (s.disk, s.proc) ∧
                ((callStep sch valid (.setup key p) (s.pc i) s.disk s.proc).1.Early ∨
                  ∃ st, st ≠ .ok ∧ (callStep sch valid (.setup key p) (s.pc i) s.disk s.proc).1 = .done (.status st)) := by
              rcases h1.setups i hw key p hc with (e | e | e) | ⟨st, hst, e⟩
              · cases hcore : s.proc.core <;> simp [e, callStep, hcore, Pc.Early]
              · simp [e, callStep, hd]
              · simp [e, callStep, hd]
              · simpa [e, callStep] using Or.inr hst
            refine ⟨Or.inr ⟨w, key', p', n, h1.call, h1.plan, ?_, ?_⟩, hserved (by rw [hstep.1]; exact id)⟩
            · simp only [if_neg (Ne.symm hw)]
              rw [hstep.1]
              exact h1.state
            · intro j hjw key'' p'' hj
              by_cases hji : j = i
              · simp only [if_pos hji]; exact hstep.2
              · simp only [if_neg hji]; exact h1.setups j hjw key'' p'' hj
      · have hc' : c = .insert ∨ c = .search := by
          cases c with
          | setup key p => exact absurd ⟨key, p, rfl⟩ hk
          | insert => exact Or.inl rfl
          | search => exact Or.inr rfl
        have hsame : (callStep sch valid c (s.pc i) s.disk s.proc).2 = (s.disk, s.proc) := by
          rcases hc' with rfl | rfl <;> cases s.pc i <;> simp only [callStep] <;> first | rfl | (split <;> rfl)
        have hkey : s.proc.core = true → sch = .sophos → s.proc.key ≠ none := by
          intro hcore hs
          rcases h1 with h1 | ⟨w, key', p', n, h1⟩
          · rw [h1.proc] at hcore; cases hcore
          · have := (alone_owned (sch := sch) (valid := valid) key' p' h1.plan n).sophos hs
            rw [← h1.state] at this
            rw [this hcore]
            simp
        have hpc : ∀ j, (∃ key p, calls[j]? = some (.setup key p)) → j ≠ i := by
          rintro j ⟨key, p, hj⟩ rfl
          rw [hc] at hj
          cases hj
          exact hk ⟨key, p, rfl⟩
        refine ⟨?_, ?_⟩
        · rcases h1 with h1 | ⟨w, key', p', n, h1⟩
          · refine Or.inl ⟨by rw [hsame]; exact h1.disk, by rw [hsame]; exact h1.proc, ?_⟩
            intro j key p hj
            simp only [if_neg (hpc j ⟨key, p, hj⟩)]
            exact h1.setups j key p hj
          · refine Or.inr ⟨w, key', p', n, h1.call, h1.plan, ?_, ?_⟩
            · simp only [if_neg (hpc w ⟨_, _, h1.call⟩)]
              rw [hsame]
              exact h1.state
            · intro j hjw key p hj
              simp only [if_neg (hpc j ⟨key, p, hj⟩)]
              exact h1.setups j hjw key p hj
        · intro j c'' hj hc''
          by_cases hji : j = i
          · subst hji
            rw [hc] at hj
            cases hj
            simp only [if_pos]
            rcases h2 j c hc hc' with e | ⟨e, hcore⟩ | e | ⟨e, hcore⟩ | ⟨-, -, -, e⟩
            · cases hcore : s.proc.core <;> rcases hc' with rfl | rfl <;> simp [e, callStep, hcore, Served]
            · rcases hc' with rfl | rfl
              · simp [e, callStep, hcore, Served, insert]
              · cases hkk : s.proc.key with
                | some k => simp [e, callStep, hcore, Served, search, hkk]
                | none =>
                  have hd : sch = .diana := by
                    cases sch with
                    | diana => rfl
                    | sophos => exact absurd hkk (hkey hcore rfl)
                  simp [e, callStep, hcore, Served, search, hkk, hd]
            · rcases hc' with rfl | rfl <;> simp [e, callStep, Served]
            · rcases hc' with rfl | rfl <;> simp [e, callStep, Served, hcore]
            · rw [hcr] at e; cases e
          · simp only [if_neg hji]
            exact served_other (h2 j c'' hj hc'') (by rw [hsame]; exact id) hcr

theorem inv_run (order : List Nat) {s : Calls} (h : Inv sch valid calls s) : Inv sch valid calls (s.run sch valid calls order) := by
  induction order generalizing s with
  | nil => exact h
  | cons i l ih => exact ih (inv_step h i)

end Verif.Runner
