import Verif.Runner.Setup

/-!
# C43: failed or interrupted set-up

An interrupted or failed set-up can be retried only if nothing has been created yet; in all other cases but
that of a complete set-up the service can never be used again. A service whose key file could not be written,
or which received a key of the wrong size (Diana), crashes on a search.
-/

namespace Verif.Runner

variable {sch : Scheme} {valid : Bytes → Bool} {cvalid : Bytes → Bytes → Bytes → Bool}

/-- The service is set up and running. -/
def Service.Works (s : Service) : Prop := ∃ k, s.proc = some ⟨true, some k⟩

/-- It can be brought to work again, by restarts and set-up messages. -/
def Recoverable (sch : Scheme) (valid : Bytes → Bool) (s : Service) : Prop :=
  ∃ acts, (execAll sch valid s acts).1.Works

/-! ## Lemmas -/

theorem execAll_append (s : Service) (l₁ l₂ : List Action) :
    (execAll sch valid s (l₁ ++ l₂)).1 = (execAll sch valid (execAll sch valid s l₁).1 l₂).1 := by
  induction l₁ generalizing s with
  | nil => rfl
  | cons a l ih => exact ih _

theorem execAll_inv {P : Service → Prop} (hstep : ∀ s a, P s → P (exec sch valid s a).1) {s : Service} (h : P s)
    (acts : List Action) : P (execAll sch valid s acts).1 := by
  induction acts generalizing s with
  | nil => exact h
  | cons a l ih => exact ih (hstep s a h)

theorem execAll_replies {P : Service → Prop} {Q : Reply → Prop} {A : Action → Prop}
    (hstep : ∀ s a, A a → P s → P (exec sch valid s a).1 ∧ Q (exec sch valid s a).2) {s : Service} (h : P s)
    (acts : List Action) (hacts : ∀ a ∈ acts, A a) : ∀ r ∈ (execAll sch valid s acts).2, Q r := by
  induction acts generalizing s with
  | nil => intro r hr; cases hr
  | cons a l ih =>
    intro r hr
    have h1 := hstep s a (hacts a (List.mem_cons_self ..)) h
    rcases List.mem_cons.mp hr with rfl | hr
    · exact h1.2
    · exact ih h1.1 (fun a ha => hacts a (List.mem_cons_of_mem _ ha)) r hr

/-- A directory from which the constructor throws -/
def BadDisk (valid : Bytes → Bool) (d : Disk) : Prop :=
  d ≠ .absent ∧ ∀ k, d = .dir true (some k) → valid k = false

theorem construct_bad {d : Disk} (h : BadDisk valid d) (o : Bool) : construct valid o d = none := by
  obtain ⟨h1, h2⟩ := h
  cases d with
  | absent => exact absurd rfl h1
  | other => rfl
  | dir pairs key =>
    cases key with
    | none => rfl
    | some k =>
      cases pairs with
      | false => simp [construct]
      | true => simp [construct, h2 k rfl]

theorem setup_exists {d : Disk} (hd : d ≠ .absent) (p : Plan) (key : Bytes) (pr : Proc) :
    (setup sch valid p key d pr).1 = [] := by
  cases sch <;> cases d <;> first | exact absurd rfl hd | skip
  all_goals simp only [setup, sophosSetup, dianaSetup]; split <;> rfl

/-- The service is not set up, and its directory is unusable. -/
def Dead (valid : Bytes → Bool) (d : Disk) (s : Service) : Prop :=
  s.disk = d ∧ BadDisk valid d ∧ (s.proc = none ∨ ∃ k, s.proc = some ⟨false, k⟩)

theorem dead_exec {d : Disk} (s : Service) (a : Action) (h : Dead valid d s) :
    Dead valid d (exec sch valid s a).1 ∧ (exec sch valid s a).2 ≠ .status .ok ∧
      (exec sch valid s a).2 ≠ .nullPointer := by
  obtain ⟨disk, proc⟩ := s
  obtain ⟨hd, hbad, hp⟩ := h
  dsimp only at hd hp
  subst hd
  rcases hp with rfl | ⟨k, rfl⟩
  · cases a <;> simp only [exec] <;> refine ⟨⟨rfl, hbad, ?_⟩, by simp, by simp⟩
    · rw [construct_bad hbad]; exact Or.inl rfl
    all_goals exact Or.inl rfl
  · cases a with
    | start o => exact ⟨⟨rfl, hbad, Or.inr ⟨k, rfl⟩⟩, by simp [exec], by simp [exec]⟩
    | kill => exact ⟨⟨rfl, hbad, Or.inl rfl⟩, by simp [exec], by simp [exec]⟩
    | setup key p cut =>
      cases cut with
      | none =>
        simp only [exec]
        rw [setup_exists hbad.1]
        refine ⟨⟨rfl, hbad, Or.inr ⟨k, rfl⟩⟩, ?_, by simp⟩
        cases sch <;> cases disk <;> first | exact absurd rfl hbad.1 | simp [setup, sophosSetup, dianaSetup]
      | some n =>
        simp only [exec]
        rw [setup_exists hbad.1]
        exact ⟨⟨by simp [lastState], hbad, Or.inl rfl⟩, by simp, by simp⟩
    | search => exact ⟨⟨rfl, hbad, Or.inr ⟨k, rfl⟩⟩, by simp [exec, search], by simp [exec, search]⟩
    | insert => exact ⟨⟨rfl, hbad, Or.inr ⟨k, rfl⟩⟩, by simp [exec, insert], by simp [exec, insert]⟩

theorem dead_not_recoverable {d : Disk} {s : Service} (h : Dead valid d s) : ¬ Recoverable sch valid s := by
  rintro ⟨acts, hw⟩
  have := execAll_inv (P := Dead valid d) (fun s a hs => (dead_exec (sch := sch) s a hs).1) h acts
  obtain ⟨k, hk⟩ := hw
  rcases this.2.2 with h0 | ⟨k', h0⟩ <;> rw [h0] at hk <;> cases hk

theorem setup_good (hv : valid key = true) (hk : key.length ≤ n) :
    lastState (.absent, ⟨false, none⟩) (setup sch valid (Plan.good n) key .absent ⟨false, none⟩).1 =
        (.dir true (some key), ⟨true, some key⟩) ∧
      (setup sch valid (Plan.good n) key .absent ⟨false, none⟩).2 = .ok := by
  cases sch <;> simp [setup, sophosSetup, dianaSetup, Plan.good, hv, lastState, List.take_of_length_le hk]

/-- A stopped service can be used again if and only if there is nothing on disk, or the directory is
complete. -/
theorem recoverable_iff {k₀ : Bytes} (hk₀ : valid k₀ = true) (d : Disk) :
    Recoverable sch valid ⟨d, none⟩ ↔ ¬ BadDisk valid d := by
  constructor
  · intro h hbad
    exact dead_not_recoverable (d := d) ⟨rfl, hbad, Or.inl rfl⟩ h
  · intro h
    by_cases ha : d = .absent
    · subst ha
      refine ⟨[.start false, .setup k₀ (Plan.good k₀.length) none], k₀, ?_⟩
      simp only [execAll, exec, construct]
      rw [(setup_good hk₀ (Nat.le_refl _)).1]
    · have : ∃ k, d = .dir true (some k) ∧ valid k = true := by
        refine Classical.byContradiction fun hno => h ⟨ha, fun k hk => ?_⟩
        cases hv : valid k with
        | false => rfl
        | true => exact absurd ⟨k, hk, hv⟩ hno
      obtain ⟨k, rfl, hv⟩ := this
      refine ⟨[.start false], k, ?_⟩
      simp [execAll, exec, construct, hv]

/-! ## C43, services -/

/-- **C43, exact**: a set-up of a new service, with any failing operations, interrupted or not, leaves a
service that can be set up or used after a restart if and only if nothing was created, or everything was
written. -/
theorem C43_recoverable_iff (hempty : valid [] = false) {k₀ : Bytes} (hk₀ : valid k₀ = true) (key : Bytes)
    (p : Plan) (cut : Option Nat) :
    Recoverable sch valid
        ⟨(exec sch valid ⟨.absent, some ⟨false, none⟩⟩ (.setup key p cut)).1.disk, none⟩ ↔
      p.mkdirFails = true ∨ cut = some 0 ∨
        (p.openFails = none ∧ p.keyOpenFails = false ∧ valid key = true ∧ valid (key.take p.written) = true ∧
          ∀ k, cut = some k → 5 ≤ k) := by
  rw [recoverable_iff hk₀]
  have hb : ∀ d, ¬ BadDisk valid d ↔ d = .absent ∨ ∃ k, d = .dir true (some k) ∧ valid k = true := by
    intro d
    unfold BadDisk
    constructor
    · intro h
      by_cases ha : d = .absent
      · exact Or.inl ha
      · right
        refine Classical.byContradiction fun hno => h ⟨ha, fun k hk => ?_⟩
        cases hv : valid k with
        | false => rfl
        | true => exact absurd ⟨k, hk, hv⟩ hno
    · rintro (rfl | ⟨k, rfl, hv⟩)
      · exact fun h => h.1 rfl
      · intro h
        have := h.2 k rfl
        rw [hv] at this
        cases this
  rw [hb]
  obtain ⟨mk, op, ko, wr⟩ := p
  cases mk with
  | true =>
    cases sch <;> cases cut <;> simp [exec, setup, sophosSetup, dianaSetup, lastState]
  | false =>
    have cutcases : cut = none ∨ cut = some 0 ∨ cut = some 1 ∨ cut = some 2 ∨ cut = some 3 ∨ cut = some 4 ∨
        cut = some 5 ∨ ∃ n, cut = some (n + 6) := by
      rcases cut with _ | (_ | _ | _ | _ | _ | _ | n) <;> simp
    cases op with
    | some left =>
      rcases cutcases with h | h | h | h | h | h | h | ⟨n, h⟩ <;> subst h <;> cases sch <;> cases left <;>
        simp [exec, setup, sophosSetup, dianaSetup, lastState]
    | none =>
      cases ko <;> cases hv : valid key <;>
        rcases cutcases with h | h | h | h | h | h | h | ⟨n, h⟩ <;> subst h <;> cases sch <;>
        simp [exec, setup, sophosSetup, dianaSetup, lastState, hv, hempty]

/-- **C43 is violated by crashes**: a service killed after any of the operations between the creation of the
directory and the end of the write of the key can never be used again: from then on, whatever happens, it is
never running. -/
theorem C43_killed_in_setup_violated (hempty : valid [] = false) {key : Bytes} (hk : valid key = true) (n : Nat)
    (h1 : 1 ≤ n) (h2 : n ≤ 4) (acts : List Action) :
    (execAll sch valid Service.fresh
      (.start false :: .setup key (Plan.good key.length) (some n) :: acts)).1.proc = none := by
  have hbad : ∃ d, BadDisk valid d ∧ (execAll sch valid Service.fresh
      [.start false, .setup key (Plan.good key.length) (some n)]).1 = ⟨d, none⟩ := by
    have hn : n = 1 ∨ n = 2 ∨ n = 3 ∨ n = 4 := by omega
    rcases hn with rfl | rfl | rfl | rfl <;> cases sch <;>
      simp [execAll, exec, Service.fresh, construct, setup, sophosSetup, dianaSetup, Plan.good, hk, lastState,
        BadDisk, hempty]
  obtain ⟨d, hd, heq⟩ := hbad
  have e : (Action.start false :: Action.setup key (Plan.good key.length) (some n) :: acts) =
      [.start false, .setup key (Plan.good key.length) (some n)] ++ acts := rfl
  rw [e, execAll_append, heq]
  have := execAll_inv (sch := sch) (valid := valid) (P := fun s => s.disk = d ∧ s.proc = none) ?_
    (s := ⟨d, none⟩) ⟨rfl, rfl⟩ acts
  · exact this.2
  · rintro ⟨disk, proc⟩ a ⟨rfl, rfl⟩
    cases a with
    | start o => exact ⟨rfl, construct_bad hd o⟩
    | kill => exact ⟨rfl, rfl⟩
    | setup key p cut => exact ⟨rfl, rfl⟩
    | search => exact ⟨rfl, rfl⟩
    | insert => exact ⟨rfl, rfl⟩

/-- **C43 is violated by an invalid public key** (Sophos): the set-up is refused, and no later action makes the
service work. -/
theorem C43_sophos_invalid_key_violated {key : Bytes} (hk : valid key = false) (n : Nat) :
    let r := exec .sophos valid ⟨.absent, some ⟨false, none⟩⟩ (.setup key (Plan.good n) none)
    r.2 = .status .failedPrecondition ∧ ¬ Recoverable .sophos valid r.1 := by
  refine ⟨by simp [exec, setup, sophosSetup, Plan.good, hk], ?_⟩
  refine dead_not_recoverable (d := .dir true none) ⟨?_, ⟨by simp, by simp⟩, Or.inr ⟨none, ?_⟩⟩ <;>
    simp [exec, setup, sophosSetup, Plan.good, hk, lastState]

/-- **C43 is violated by a key of the wrong size** (Diana): the set-up is refused, but insertions are
accepted; a search then dereferences a null pointer, and the service never starts again. -/
theorem C43_diana_invalid_key_violated (hempty : valid [] = false) {key : Bytes} (hk : valid key = false) (n : Nat)
    (acts : List Action) :
    let r := execAll .diana valid Service.fresh
      (.start false :: .setup key (Plan.good n) none :: .insert :: .setup key (Plan.good n) none :: .search :: acts)
    r.2.take 5 = [.unavailable, .status .invalidArgument, .status .ok, .status .failedPrecondition, .nullPointer] ∧
      ¬ r.1.Works := by
  have hd : Dead valid (.dir true (some [])) ⟨.dir true (some []), none⟩ :=
    ⟨rfl, ⟨by simp, by rintro k ⟨⟩; exact hempty⟩, Or.inl rfl⟩
  have heq : (execAll .diana valid Service.fresh
      [.start false, .setup key (Plan.good n) none, .insert, .setup key (Plan.good n) none, .search]) =
      (⟨.dir true (some []), none⟩,
        [.unavailable, .status .invalidArgument, .status .ok, .status .failedPrecondition, .nullPointer]) := by
    simp [execAll, exec, Service.fresh, construct, setup, dianaSetup, Plan.good, hk, lastState, search, insert]
  have e : (Action.start false :: Action.setup key (Plan.good n) none :: Action.insert ::
      Action.setup key (Plan.good n) none :: Action.search :: acts) =
      [.start false, .setup key (Plan.good n) none, .insert, .setup key (Plan.good n) none, .search] ++ acts := rfl
  intro r
  constructor
  · have := congrArg Prod.snd heq
    simp only [execAll] at this
    show (execAll .diana valid Service.fresh _).2.take 5 = _
    simp only [execAll, List.take_succ_cons, List.take_zero]
    exact this
  · intro hw
    refine dead_not_recoverable (sch := .diana) hd ⟨acts, ?_⟩
    have : r.1 = (execAll .diana valid ⟨.dir true (some []), none⟩ acts).1 := by
      show (execAll .diana valid Service.fresh _).1 = _
      rw [e, execAll_append, heq]
    rwa [this] at hw

/-- **C43 is violated by a key file that cannot be opened**: both services report a failure and go on
accepting insertions, which are lost at the next restart; in Diana a search dereferences a null pointer. -/
theorem C43_key_file_violated {key : Bytes} (hk : valid key = true) :
    let r := exec sch valid ⟨.absent, some ⟨false, none⟩⟩ (.setup key ⟨false, none, true, 0⟩ none)
    r.2 = .status .permissionDenied ∧ (exec sch valid r.1 .insert).2 = .status .ok ∧
      (sch = .diana → (exec sch valid r.1 .search).2 = .nullPointer) ∧
      ¬ Recoverable sch valid ⟨r.1.disk, none⟩ := by
  refine ⟨?_, ?_, ?_, ?_⟩
  · cases sch <;> simp [exec, setup, sophosSetup, dianaSetup, hk]
  · cases sch <;> simp [exec, setup, sophosSetup, dianaSetup, hk, lastState, insert]
  · rintro rfl
    simp [exec, setup, dianaSetup, lastState, search]
  · refine dead_not_recoverable (d := .dir true none) ⟨?_, ⟨by simp, by simp⟩, Or.inl rfl⟩
    cases sch <;> simp [exec, setup, sophosSetup, dianaSetup, hk, lastState]

/-- **C43, set-up in progress** (Diana): `setup` takes no lock; a search that arrives between two of its
operations dereferences a null pointer, even if the set-up would succeed. -/
theorem C43_diana_search_during_setup {key : Bytes} (hk : valid key = true) :
    (setup .diana valid (Plan.good key.length) key .absent ⟨false, none⟩).2 = .ok ∧
      ∃ st ∈ (setup .diana valid (Plan.good key.length) key .absent ⟨false, none⟩).1, search st.2 = .nullPointer := by
  simp [setup, dianaSetup, Plan.good, hk, search]

/-- **C43 (part that holds)**: with a valid key and without failure, the set-up of a new service succeeds, and
the service works before and after restarts with the same key. Missing: failures and interruptions, for which
the claim is false, see `C43_recoverable_iff`. -/
theorem C43_setup_partial {key : Bytes} (hk : valid key = true) :
    let r := execAll sch valid Service.fresh [.start false, .setup key (Plan.good key.length) none]
    r.2 = [.unavailable, .status .ok] ∧ r.1 = ⟨.dir true (some key), some ⟨true, some key⟩⟩ ∧
      (execAll sch valid r.1 [.kill, .start false]).1 = r.1 := by
  have h := setup_good (sch := sch) hk (Nat.le_refl key.length)
  simp only [execAll, exec, Service.fresh, construct, h.1, h.2]
  simp [hk]

/-- **C43 (part that holds)**, Sophos: no sequence of actions, with any failures and interruptions, makes a
handler dereference a null pointer. -/
theorem C43_sophos_never_null (acts : List Action) :
    Reply.nullPointer ∉ (execAll .sophos valid Service.fresh acts).2 := by
  intro hmem
  refine execAll_replies (sch := .sophos) (valid := valid) (A := fun _ => True) (Q := fun r => r ≠ .nullPointer)
    (P := fun s => ∀ pr, s.proc = some pr → pr.core = true → ∃ k, pr.key = some k) ?_ ?_ acts (fun _ _ => trivial)
    _ hmem rfl
  · rintro ⟨d, proc⟩ a - h
    cases proc with
    | none =>
      cases a <;> simp only [exec] <;> refine ⟨?_, by simp⟩
      case start o =>
        intro pr hpr hc
        cases d with
        | absent => cases hpr; cases hc
        | other => cases hpr
        | dir pairs key =>
          cases key with
          | none => cases hpr
          | some k =>
            simp only [construct] at hpr
            split at hpr
            · cases hpr; exact ⟨k, rfl⟩
            · cases hpr
      all_goals intro pr hpr; cases hpr
    | some pr =>
      have h' := h pr rfl
      cases a with
      | start o => exact ⟨h, by simp [exec]⟩
      | kill => exact ⟨by simp [exec], by simp [exec]⟩
      | setup key p cut =>
        cases cut with
        | some n => exact ⟨by simp [exec], by simp [exec]⟩
        | none =>
          refine ⟨?_, by simp [exec]⟩
          simp only [exec, setup, sophosSetup]
          obtain ⟨core, k⟩ := pr
          obtain ⟨mk, op, ko, wr⟩ := p
          cases core with
          | true => simpa [lastState] using h'
          | false =>
            cases d <;> cases mk <;> cases op <;> cases ko <;> cases valid key <;> simp [lastState]
      | search =>
        obtain ⟨core, k⟩ := pr
        cases core with
        | false => exact ⟨by simp [exec, search], by simp [exec, search]⟩
        | true =>
          obtain ⟨k, rfl⟩ := h' rfl
          exact ⟨by simp [exec, search], by simp [exec, search]⟩
      | insert =>
        refine ⟨h, ?_⟩
        simp only [exec, insert]
        split <;> simp
  · intro pr hpr; cases hpr

/-- **C43 (part that holds)**, Diana: the same if all the set-up messages have a valid key and the key file can
be opened. Missing: see `C43_diana_invalid_key_violated` and `C43_key_file_violated`. -/
theorem C43_diana_never_null_partial (acts : List Action)
    (hacts : ∀ key p cut, Action.setup key p cut ∈ acts → valid key = true ∧ p.keyOpenFails = false) :
    Reply.nullPointer ∉ (execAll .diana valid Service.fresh acts).2 := by
  intro hmem
  refine execAll_replies (sch := .diana) (valid := valid)
    (A := fun a => ∀ key p cut, a = Action.setup key p cut → valid key = true ∧ p.keyOpenFails = false)
    (Q := fun r => r ≠ .nullPointer)
    (P := fun s => ∀ pr, s.proc = some pr → pr.core = true → ∃ k, pr.key = some k) ?_ ?_ acts
    (fun a ha key p cut h => hacts key p cut (h ▸ ha)) _ hmem rfl
  · rintro ⟨d, proc⟩ a ha h
    cases proc with
    | none =>
      cases a <;> simp only [exec] <;> refine ⟨?_, by simp⟩
      case start o =>
        intro pr hpr hc
        cases d with
        | absent => cases hpr; cases hc
        | other => cases hpr
        | dir pairs key =>
          cases key with
          | none => cases hpr
          | some k =>
            simp only [construct] at hpr
            split at hpr
            · cases hpr; exact ⟨k, rfl⟩
            · cases hpr
      all_goals intro pr hpr; cases hpr
    | some pr =>
      have h' := h pr rfl
      cases a with
      | start o => exact ⟨h, by simp [exec]⟩
      | kill => exact ⟨by simp [exec], by simp [exec]⟩
      | setup key p cut =>
        cases cut with
        | some n => exact ⟨by simp [exec], by simp [exec]⟩
        | none =>
          refine ⟨?_, by simp [exec]⟩
          obtain ⟨hv, hko⟩ := ha key p none rfl
          simp only [exec, setup, dianaSetup]
          obtain ⟨core, k⟩ := pr
          obtain ⟨mk, op, ko, wr⟩ := p
          dsimp only at hko
          subst hko
          cases core with
          | true => simpa [lastState] using h'
          | false =>
            cases d <;> cases mk <;> cases op <;> simp [lastState, hv]
      | search =>
        obtain ⟨core, k⟩ := pr
        cases core with
        | false => exact ⟨by simp [exec, search], by simp [exec, search]⟩
        | true =>
          obtain ⟨k, rfl⟩ := h' rfl
          exact ⟨by simp [exec, search], by simp [exec, search]⟩
      | insert =>
        refine ⟨h, ?_⟩
        simp only [exec, insert]
        split <;> simp
  · intro pr hpr; cases hpr

/-! ## C43, clients -/

theorem pairAll_replies {P : Pair → Prop} {Q : Reply → Prop}
    (hstep : ∀ s a, P s → P (pairExec sch valid cvalid s a).1 ∧ Q (pairExec sch valid cvalid s a).2) {s : Pair}
    (h : P s) (acts : List PairAction) :
    P (pairAll sch valid cvalid s acts).1 ∧ ∀ r ∈ (pairAll sch valid cvalid s acts).2, Q r := by
  induction acts generalizing s with
  | nil => exact ⟨h, fun r hr => by cases hr⟩
  | cons a l ih =>
    have h1 := hstep s a h
    refine ⟨(ih h1.1).1, fun r hr => ?_⟩
    rcases List.mem_cons.mp hr with rfl | hr
    · exact h1.2
    · exact (ih h1.1).2 r hr

/-- **C43, interrupted creation of a client, exact**: the client killed after `n` operations can be created
again (`n = 0`), or cannot be constructed any more (`1 ≤ n ≤ 7`), or has all its files but has not sent the
set-up message (`8 ≤ n`). -/
theorem C43_client_cut (k : ClientKeys) (s : Pair) (hs : s.cdisk = .absent) (hup : s.up = false) (n : Nat) :
    let d := (pairExec sch valid cvalid s (.startClient k (.cut n))).1.cdisk
    (n = 0 → d = .absent) ∧ (1 ≤ n → n ≤ 7 → d ≠ .absent ∧ clientConstruct cvalid d = false) ∧
      (8 ≤ n → clientConstruct cvalid d = cvalid k.k0 k.k1 k.k2) := by
  have e : (pairExec sch valid cvalid s (.startClient k (.cut n))).1.cdisk =
      ((clientInit k).take n).getLast?.getD .absent := by
    simp [pairExec, hs, hup]
  intro d
  have hd : d = ((clientInit k).take n).getLast?.getD .absent := e
  rw [hd]
  refine ⟨?_, ?_, ?_⟩
  · rintro rfl; rfl
  · intro h1 h7
    have : n = 1 ∨ n = 2 ∨ n = 3 ∨ n = 4 ∨ n = 5 ∨ n = 6 ∨ n = 7 := by omega
    rcases this with rfl | rfl | rfl | rfl | rfl | rfl | rfl <;> simp [clientInit, clientConstruct]
  · intro h8
    rw [List.take_of_length_le (by simpa [clientInit] using h8)]
    simp [clientInit, clientConstruct]

/-- **C43**: a client created for the first time runs exactly if it receives the answer that the set-up succeeded. -/
theorem C43_client_up (k : ClientKeys) (s : Pair) (hs : s.cdisk = .absent) (hup : s.up = false) (e : Ending) :
    (pairExec sch valid cvalid s (.startClient k e)).1.up = true ↔
      (pairExec sch valid cvalid s (.startClient k e)).2 = .status .ok := by
  cases e <;> simp [pairExec, hs, hup]

/-- **C43 is violated by the clients**: when the creation of a client has been interrupted, or its set-up
message lost, after the creation of its directory, no set-up message is ever sent again: the service is never
set up, and no insertion or search ever succeeds. -/
theorem C43_client_never_retries_violated (s : Pair) (hc : s.cdisk ≠ .absent) (hd : s.service.disk = .absent)
    (hp : ∀ pr, s.service.proc = some pr → pr.core = false) (acts : List PairAction) :
    (pairAll sch valid cvalid s acts).1.service.disk = .absent ∧
      Reply.status .ok ∉ (pairAll sch valid cvalid s acts).2 := by
  have hall := pairAll_replies (sch := sch) (valid := valid) (cvalid := cvalid) (Q := fun r => r ≠ .status .ok)
    (P := fun s => s.cdisk ≠ .absent ∧ s.service.disk = .absent ∧ ∀ pr, s.service.proc = some pr → pr.core = false)
    ?_ (s := s) ⟨hc, hd, hp⟩ acts
  · exact ⟨hall.1.2.1, fun h => hall.2 _ h rfl⟩
  · rintro ⟨cd, up, ⟨disk, proc⟩⟩ a ⟨h1, h2, h3⟩
    dsimp only at h1 h2 h3
    subst h2
    cases a with
    | startClient k e =>
      cases up with
      | true => exact ⟨⟨h1, rfl, h3⟩, by simp [pairExec]⟩
      | false =>
        cases cd with
        | absent => exact absurd rfl h1
        | other => exact ⟨⟨by simp [pairExec], rfl, h3⟩, by simp [pairExec]⟩
        | dir a b c d => exact ⟨⟨by simp [pairExec], rfl, h3⟩, by simp [pairExec]⟩
    | killClient => exact ⟨⟨h1, rfl, h3⟩, by simp [pairExec]⟩
    | startService o =>
      cases proc with
      | none =>
        refine ⟨⟨h1, rfl, ?_⟩, by simp [pairExec]⟩
        intro pr hpr
        simp only [pairExec, exec, construct] at hpr
        cases hpr
        rfl
      | some pr => exact ⟨⟨h1, rfl, h3⟩, by simp [pairExec]⟩
    | killService => exact ⟨⟨h1, rfl, by simp [pairExec, exec]⟩, by simp [pairExec]⟩
    | clientInsert =>
      cases up with
      | false => exact ⟨⟨h1, rfl, h3⟩, by simp [pairExec]⟩
      | true =>
        cases proc with
        | none => exact ⟨⟨h1, rfl, by simp [pairExec, exec]⟩, by simp [pairExec, exec]⟩
        | some pr =>
          have := h3 pr rfl
          refine ⟨⟨h1, rfl, h3⟩, by simp [pairExec, exec, insert, this]⟩
    | clientSearch =>
      cases up with
      | false => exact ⟨⟨h1, rfl, h3⟩, by simp [pairExec]⟩
      | true =>
        cases proc with
        | none => exact ⟨⟨h1, rfl, by simp [pairExec, exec]⟩, by simp [pairExec, exec]⟩
        | some pr =>
          have := h3 pr rfl
          refine ⟨⟨h1, ?_, ?_⟩, by simp [pairExec, exec, search, this]⟩
          · simp [pairExec, exec, search, this]
          · intro pr' hpr'
            simp only [pairExec, exec, search, this] at hpr'
            exact h3 pr' hpr'

/-- **C43 is violated by the clients**: from the first start of a client whose set-up message does not reach the service, or that is interrupted
after the creation of its directory, nothing ever succeeds. -/
theorem C43_lost_message_violated (s : Pair) (hc : s.cdisk = .absent) (hu : s.up = false) (hd : s.service.disk = .absent)
    (hp : ∀ pr, s.service.proc = some pr → pr.core = false) (k : ClientKeys) (e : Ending) (he : e = .lost ∨ ∃ n, 0 < n ∧ e = .cut n)
    (acts : List PairAction) :
    (pairAll sch valid cvalid s (.startClient k e :: acts)).1.service.disk = .absent ∧
      Reply.status .ok ∉ (pairAll sch valid cvalid s (.startClient k e :: acts)).2 := by
  have h1 : (pairExec sch valid cvalid s (.startClient k e)).1.cdisk ≠ .absent ∧
      (pairExec sch valid cvalid s (.startClient k e)).1.service = s.service ∧
      (pairExec sch valid cvalid s (.startClient k e)).2 = .unavailable := by
    rcases he with rfl | ⟨n, hn, rfl⟩
    · simp [pairExec, hc, hu]
    · refine ⟨?_, by simp [pairExec, hc, hu], by simp [pairExec, hc, hu]⟩
      have e : (pairExec sch valid cvalid s (.startClient k (.cut n))).1.cdisk = ((clientInit k).take n).getLast?.getD .absent := by
        simp [pairExec, hc, hu]
      rw [e]
      rcases Nat.lt_or_ge n 8 with h8 | h8
      · have : n = 1 ∨ n = 2 ∨ n = 3 ∨ n = 4 ∨ n = 5 ∨ n = 6 ∨ n = 7 := by omega
        rcases this with rfl | rfl | rfl | rfl | rfl | rfl | rfl <;> simp [clientInit]
      · rw [List.take_of_length_le (by simpa [clientInit] using h8)]
        simp [clientInit]
  have h := C43_client_never_retries_violated (sch := sch) (valid := valid) (cvalid := cvalid) _ h1.1 (by rw [h1.2.1]; exact hd)
    (by rw [h1.2.1]; exact hp) acts
  unfold pairAll
  refine ⟨h.1, ?_⟩
  simp only [List.mem_cons, not_or]
  exact ⟨by rw [h1.2.2]; simp, h.2⟩

/-- **C43 (part that holds)**, client and service: after an undisturbed creation, whatever restarts follow,
each insertion and search of a running client to a running service succeeds, and both can be restarted. -/
theorem C43_pair_partial {k : ClientKeys} (hk : valid k.sent = true) (hck : cvalid k.k0 k.k1 k.k2 = true)
    (acts : List PairAction) :
    let r := pairAll sch valid cvalid ⟨.absent, false, Service.fresh⟩
      (.startService false :: .startClient k (.received (Plan.good k.sent.length) none) :: acts)
    r.2.take 2 = [.unavailable, .status .ok] ∧ (∀ x ∈ r.2, x = .status .ok ∨ x = .unavailable) ∧
      clientConstruct cvalid r.1.cdisk = true ∧ construct valid false r.1.service.disk = some ⟨true, some k.sent⟩ := by
  have hg := setup_good (sch := sch) hk (Nat.le_refl k.sent.length)
  have hall := pairAll_replies (sch := sch) (valid := valid) (cvalid := cvalid)
    (Q := fun x => x = .status .ok ∨ x = .unavailable)
    (P := fun s => s.cdisk = .dir (some k.k0) (some k.k1) (some k.k2) true ∧
      s.service.disk = .dir true (some k.sent) ∧
      ∀ pr, s.service.proc = some pr → pr = ⟨true, some k.sent⟩)
    ?_ (s := ⟨.dir (some k.k0) (some k.k1) (some k.k2) true, true, ⟨.dir true (some k.sent), some ⟨true, some k.sent⟩⟩⟩)
    ⟨rfl, rfl, by simp⟩ acts
  · have heq : pairAll sch valid cvalid ⟨.absent, false, Service.fresh⟩
        (.startService false :: .startClient k (.received (Plan.good k.sent.length) none) :: acts) =
        ((pairAll sch valid cvalid ⟨.dir (some k.k0) (some k.k1) (some k.k2) true, true,
            ⟨.dir true (some k.sent), some ⟨true, some k.sent⟩⟩⟩ acts).1,
          .unavailable :: .status .ok :: (pairAll sch valid cvalid ⟨.dir (some k.k0) (some k.k1) (some k.k2) true, true,
            ⟨.dir true (some k.sent), some ⟨true, some k.sent⟩⟩⟩ acts).2) := by
      simp only [pairAll, pairExec, exec, Service.fresh, construct, hg.1, hg.2]
      simp
    rw [heq]
    refine ⟨by simp, ?_, by rw [hall.1.1]; exact hck, by rw [hall.1.2.1]; simp [construct, hk]⟩
    intro x hx
    rcases List.mem_cons.mp hx with rfl | hx
    · exact Or.inr rfl
    · rcases List.mem_cons.mp hx with rfl | hx
      · exact Or.inl rfl
      · exact hall.2 x hx
  · rintro ⟨cd, up, ⟨disk, proc⟩⟩ a ⟨h1, h2, h3⟩
    dsimp only at h1 h2 h3
    subst h1 h2
    cases a with
    | startClient k' e =>
      cases up with
      | true => exact ⟨⟨rfl, rfl, h3⟩, Or.inr rfl⟩
      | false => exact ⟨⟨rfl, rfl, h3⟩, Or.inr rfl⟩
    | killClient => exact ⟨⟨rfl, rfl, h3⟩, Or.inr rfl⟩
    | startService o =>
      cases proc with
      | none =>
        refine ⟨⟨rfl, rfl, ?_⟩, Or.inr rfl⟩
        intro pr hpr
        simp only [pairExec, exec, construct] at hpr
        split at hpr
        · cases hpr; rfl
        · cases hpr
      | some pr => exact ⟨⟨rfl, rfl, h3⟩, Or.inr rfl⟩
    | killService => exact ⟨⟨rfl, rfl, by simp [pairExec, exec]⟩, Or.inr rfl⟩
    | clientInsert =>
      cases up with
      | false => exact ⟨⟨rfl, rfl, h3⟩, Or.inr rfl⟩
      | true =>
        cases proc with
        | none => exact ⟨⟨rfl, rfl, by simp [pairExec, exec]⟩, Or.inr rfl⟩
        | some pr =>
          cases h3 pr rfl
          exact ⟨⟨rfl, rfl, by simp [pairExec, exec]⟩, Or.inl rfl⟩
    | clientSearch =>
      cases up with
      | false => exact ⟨⟨rfl, rfl, h3⟩, Or.inr rfl⟩
      | true =>
        cases proc with
        | none => exact ⟨⟨rfl, rfl, by simp [pairExec, exec]⟩, Or.inr rfl⟩
        | some pr =>
          cases h3 pr rfl
          exact ⟨⟨rfl, rfl, by simp [pairExec, exec, search]⟩, Or.inl rfl⟩

/-! ## Examples -/

/-- The keys accepted by Diana -/
def validDiana (k : Bytes) : Bool := k.length = 32

example : validDiana [] = false ∧ validDiana (List.replicate 32 1) = true := by decide

/-- Diana: a set-up message with a short key, and a search -/
example : (execAll .diana validDiana Service.fresh
    [.start false, .setup [1, 2, 3] (Plan.good 3) none, .search, .start false, .search]).2 =
    [.unavailable, .status .invalidArgument, .nullPointer, .unavailable, .unavailable] := by decide

/-- A killed set-up, with restarts and a second set-up message -/
example : (execAll .sophos validDiana Service.fresh
    [.start false, .setup (List.replicate 32 1) (Plan.good 32) (some 3), .start false,
      .setup (List.replicate 32 1) (Plan.good 32) none, .insert]).2 =
    [.unavailable, .unavailable, .unavailable, .unavailable, .unavailable] := by decide

/-- A history with restarts without failure -/
example : (pairAll .diana validDiana (fun a b c => validDiana a && validDiana b && validDiana c)
    ⟨.absent, false, Service.fresh⟩
    [.startService false, .startClient ⟨List.replicate 32 1, List.replicate 32 2, List.replicate 32 3, List.replicate 32 3⟩
        (.received (Plan.good 32) none), .clientInsert, .killService, .clientInsert, .startService false,
      .killClient, .startClient ⟨[], [], [], []⟩ .lost, .clientSearch]).2 =
    [.unavailable, .status .ok, .status .ok, .unavailable, .unavailable, .unavailable, .unavailable, .unavailable,
      .status .ok] := by decide

/-- The set-up of a new client fails as there is something else in the place of its directory on the server: the client does not start. -/
example : (pairExec .diana validDiana (fun a b c => validDiana a && validDiana b && validDiana c)
    ⟨.absent, false, ⟨.other, some ⟨false, none⟩⟩⟩
    (.startClient ⟨List.replicate 32 1, List.replicate 32 2, List.replicate 32 3, List.replicate 32 3⟩ (.received (Plan.good 32) none))).1.up =
      false := by decide

/-- The message of a new client is lost. -/
example : (pairAll .diana validDiana (fun a b c => validDiana a && validDiana b && validDiana c)
    ⟨.absent, false, Service.fresh⟩
    [.startService false, .startClient ⟨List.replicate 32 1, List.replicate 32 2, List.replicate 32 3, List.replicate 32 3⟩
        .lost, .startClient ⟨[], [], [], []⟩ .lost, .clientInsert]).2 =
    [.unavailable, .unavailable, .unavailable, .status .failedPrecondition] := by decide

/-- The hypotheses of `C43_lost_message_violated` are those of a new client and of a service that has just been started. -/
example : (⟨.absent, false, (exec .diana validDiana Service.fresh (.start false)).1⟩ : Pair).service.disk = .absent ∧
    ∃ pr, (exec .diana validDiana Service.fresh (.start false)).1.proc = some pr ∧ pr.core = false := by
  exact ⟨rfl, _, rfl, rfl⟩

end Verif.Runner
