import Verif.Runner.SetupConcLemmas
import Mathlib.Tactic.ByContra
import Mathlib.Data.List.Induction

/-!
# C84: set-up messages and other calls at the same time

`order` is the order in which the calls make their steps; all theorems are for all calls and all orders.
-/

namespace Verif.Runner

variable {sch : Scheme} {valid : Bytes → Bool} {calls : List Call}

/-- **C84**: at most one of the set-up messages is answered with success. -/
theorem C84_one (order : List Nat) (i j : Nat) (ki kj : Bytes) (pi pj : Plan) (hi : calls[i]? = some (.setup ki pi))
    (hj : calls[j]? = some (.setup kj pj)) (h1 : (Calls.fresh.run sch valid calls order).pc i = .done (.status .ok))
    (h2 : (Calls.fresh.run sch valid calls order).pc j = .done (.status .ok)) : i = j := by
  have key : ∀ k kk pk, calls[k]? = some (.setup kk pk) → (Calls.fresh.run sch valid calls order).pc k = .done (.status .ok) →
      ∀ w key p n, OwnedBy sch valid calls (Calls.fresh.run sch valid calls order) w key p n → k = w := by
    intro k kk pk hk e w key p n h
    by_contra hkw
    rcases h.setups k hkw kk pk hk with (e' | e' | e') | ⟨st, hst, e'⟩
    all_goals rw [e] at e'
    · cases e'
    · cases e'
    · cases e'
    · cases e'; exact hst rfl
  rcases (inv_run order (inv_fresh (sch := sch) (valid := valid) (calls := calls))).1 with h | ⟨w, kw, pw, n, h⟩
  · rcases h.setups i ki pi hi with (e | e | e) | ⟨-, e⟩ <;> rw [h1] at e <;> cases e
  · rw [key i ki pi hi h1 w kw pw n h, key j kj pj hj h2 w kw pw n h]

/-- **C84**: when a set-up message is answered with success, the service uses its key from then on, and this key is in the key file (as far as
it could be written). -/
theorem C84_key (order : List Nat) (i : Nat) (key : Bytes) (p : Plan) (hi : calls[i]? = some (.setup key p))
    (h1 : (Calls.fresh.run sch valid calls order).pc i = .done (.status .ok)) :
    (Calls.fresh.run sch valid calls order).proc = ⟨true, some key⟩ ∧
      (Calls.fresh.run sch valid calls order).disk = .dir true (some (key.take p.written)) := by
  rcases (inv_run order (inv_fresh (sch := sch) (valid := valid) (calls := calls))).1 with h | ⟨w, kw, pw, n, h⟩
  · rcases h.setups i key p hi with (e | e | e) | ⟨-, e⟩ <;> rw [h1] at e <;> cases e
  · by_cases hiw : i = w
    · subst hiw
      have e := h.call
      rw [hi] at e
      cases e
      have ho := (alone_owned (sch := sch) (valid := valid) key p h.plan n).ok
      rw [← h.state] at ho
      have := ho h1
      simp only [Prod.mk.injEq] at this
      exact ⟨this.2, this.1⟩
    · rcases h.setups i hiw key p hi with (e | e | e) | ⟨st, hst, e⟩ <;> rw [h1] at e <;> cases e
      exact absurd rfl hst

/-- **C84**: when all set-up messages are answered, the directory, the members of the service and the answers are as if one of the messages had
been alone (`setup`, C43) and the others had been refused; or nothing happened, as `create_directory` failed for all of them. -/
theorem C84_as_one (order : List Nat)
    (hdone : ∀ (i : Nat) key p, calls[i]? = some (.setup key p) → ∃ r, (Calls.fresh.run sch valid calls order).pc i = .done r) :
    let s := Calls.fresh.run sch valid calls order
    (s.disk = .absent ∧ s.proc = ⟨false, none⟩ ∧
      ∀ (i : Nat) key p, calls[i]? = some (.setup key p) → p.mkdirFails = true ∧ s.pc i = .done (.status .permissionDenied)) ∨
    ∃ (w : Nat) (key : Bytes) (p : Plan), calls[w]? = some (.setup key p) ∧ p.mkdirFails = false ∧
      s.pc w = .done (.status (setup sch valid p key .absent ⟨false, none⟩).2) ∧
      (s.disk, s.proc) = lastState (.absent, ⟨false, none⟩) (setup sch valid p key .absent ⟨false, none⟩).1 ∧
      ∀ (i : Nat), i ≠ w → ∀ key' p', calls[i]? = some (.setup key' p') → ∃ st, st ≠ .ok ∧ s.pc i = .done (.status st) := by
  intro s
  rcases (inv_run order (inv_fresh (sch := sch) (valid := valid) (calls := calls))).1 with h | ⟨w, kw, pw, n, h⟩
  · refine Or.inl ⟨h.disk, h.proc, fun i key p hi => ?_⟩
    obtain ⟨r, hr⟩ := hdone i key p hi
    rcases h.setups i key p hi with (e | e | e) | e
    · rw [hr] at e; cases e
    · rw [hr] at e; cases e
    · rw [hr] at e; cases e
    · exact e
  · obtain ⟨r, hr⟩ := hdone w kw pw h.call
    have hst : (s.pc w, s.disk, s.proc) = alone sch valid (.setup kw pw) (n + 3) := h.state
    have hfix : ∀ k, alone sch valid (.setup kw pw) (n + 3 + k) = alone sch valid (.setup kw pw) (n + 3) := by
      intro k
      induction k with
      | zero => rfl
      | succ k ih =>
        rw [show n + 3 + (k + 1) = (n + 3 + k) + 1 by omega, alone, ih, ← hst, show s.pc w = .done r from hr]
        simp [callStep]
    have h8 := alone_setup (sch := sch) (valid := valid) kw pw h.plan (n + 3)
    rw [hfix 8, ← hst] at h8
    simp only [Prod.mk.injEq] at h8
    refine Or.inr ⟨w, kw, pw, h.call, h.plan, h8.1, h8.2, fun i hiw key' p' hi => ?_⟩
    obtain ⟨r', hr'⟩ := hdone i key' p' hi
    rcases h.setups i hiw key' p' hi with (e | e | e) | e
    · rw [hr'] at e; cases e
    · rw [hr'] at e; cases e
    · rw [hr'] at e; cases e
    · exact e

/-- **C84**: if nothing fails, exactly one of the set-up messages is answered with success, when all are answered. -/
theorem C84_exactly_one (order : List Nat)
    (hgood : ∀ (i : Nat) key p, calls[i]? = some (.setup key p) → p = Plan.good key.length ∧ valid key = true)
    (hsome : ∃ (i : Nat) (key : Bytes) (p : Plan), calls[i]? = some (.setup key p))
    (hdone : ∀ (i : Nat) key p, calls[i]? = some (.setup key p) → ∃ r, (Calls.fresh.run sch valid calls order).pc i = .done r) :
    ∃ (w : Nat) (key : Bytes) (p : Plan), calls[w]? = some (.setup key p) ∧ (Calls.fresh.run sch valid calls order).pc w = .done (.status .ok) ∧
      (Calls.fresh.run sch valid calls order).disk = .dir true (some key) ∧
      (Calls.fresh.run sch valid calls order).proc = ⟨true, some key⟩ ∧
      ∀ (i : Nat), i ≠ w → ∀ key' p', calls[i]? = some (.setup key' p') →
        ∃ st, st ≠ .ok ∧ (Calls.fresh.run sch valid calls order).pc i = .done (.status st) := by
  rcases C84_as_one order hdone with ⟨-, -, h⟩ | ⟨w, key, p, hw, hm, hpc, -, hothers⟩
  · obtain ⟨i, key, p, hi⟩ := hsome
    have := (h i key p hi).1
    rw [(hgood i key p hi).1] at this
    cases this
  · obtain ⟨rfl, hv⟩ := hgood w key p hw
    have hok : (Calls.fresh.run sch valid calls order).pc w = .done (.status .ok) := by
      rw [hpc]
      cases sch <;> simp [setup, sophosSetup, dianaSetup, Plan.good, hv]
    have hk := C84_key order w key _ hw hok
    refine ⟨w, key, _, hw, hok, ?_, hk.1, hothers⟩
    rw [hk.2]
    simp [Plan.good]

/-- **C84**: insertions and searches that are answered are refused, or the server exists (from then on). -/
theorem C84_served (order : List Nat) (i : Nat) (c : Call) (hi : calls[i]? = some c) (hc : c = .insert ∨ c = .search) (r : Reply)
    (h : (Calls.fresh.run sch valid calls order).pc i = .done r) :
    r = .status .failedPrecondition ∨ (r = .status .ok ∧ (Calls.fresh.run sch valid calls order).proc.core = true) ∨
      (r = .nullPointer ∧ c = .search ∧ sch = .diana) := by
  rcases (inv_run order (inv_fresh (sch := sch) (valid := valid) (calls := calls))).2 i c hi hc with e | ⟨e, -⟩ | e | ⟨e, e'⟩ | ⟨e, e1, e2, -⟩
  all_goals rw [h] at e; cases e
  · exact Or.inl rfl
  · exact Or.inr (Or.inl ⟨rfl, e'⟩)
  · exact Or.inr (Or.inr ⟨rfl, e1, e2⟩)

theorem crashed_run (order : List Nat) (h : (Calls.fresh.run sch valid calls order).crashed = true) :
    ∃ i c, calls[i]? = some c ∧ (Calls.fresh.run sch valid calls order).pc i = .done .nullPointer := by
  have key : ∀ s : Calls, (s.crashed = true → ∃ i c, calls[i]? = some c ∧ s.pc i = .done .nullPointer) →
      (s.run sch valid calls order).crashed = true → ∃ i c, calls[i]? = some c ∧ (s.run sch valid calls order).pc i = .done .nullPointer := by
    clear h
    induction order with
    | nil => exact fun s h => h
    | cons k l ih =>
      intro s hs
      refine ih (s.step sch valid calls k) ?_
      unfold Calls.step
      cases hcr : s.crashed with
      | true => intro _; simpa using hs hcr
      | false =>
        simp only [Bool.false_eq_true, if_false]
        cases hk : calls[k]? with
        | none => simp [hcr]
        | some c =>
          intro h
          exact ⟨k, c, hk, by simpa using h⟩
  exact key Calls.fresh (fun h => by cases h) h

/-- **C84** for Sophos: no null pointer is dereferenced. -/
theorem C84_sophos_no_crash (order : List Nat) : (Calls.fresh.run .sophos valid calls order).crashed = false := by
  cases h : (Calls.fresh.run .sophos valid calls order).crashed with
  | false => rfl
  | true =>
    obtain ⟨i, c, hi, hpc⟩ := crashed_run order h
    have hinv := inv_run order (inv_fresh (sch := .sophos) (valid := valid) (calls := calls))
    cases c with
    | setup key p =>
      rcases hinv.1 with h1 | ⟨w, kw, pw, n, h1⟩
      · rcases h1.setups i key p hi with (e | e | e) | ⟨-, e⟩ <;> rw [hpc] at e <;> cases e
      · by_cases hiw : i = w
        · subst hiw
          have ho := (alone_owned (sch := .sophos) (valid := valid) kw pw h1.plan n).ends
          rw [← h1.state] at ho
          dsimp only at ho
          rw [hpc] at ho
          rcases ho with ⟨st, e⟩ | e | e | e | e | e <;> cases e
        · rcases h1.setups i hiw key p hi with (e | e | e) | ⟨st, -, e⟩ <;> rw [hpc] at e <;> cases e
    | insert =>
      rcases C84_served order i .insert hi (Or.inl rfl) _ hpc with e | ⟨e, -⟩ | ⟨-, e, -⟩ <;> cases e
    | search =>
      rcases C84_served order i .search hi (Or.inr rfl) _ hpc with e | ⟨e, -⟩ | ⟨-, -, e⟩ <;> cases e

/-- **C84 is violated by Diana**: a search that arrives while the service is being set up, without any failure, dereferences the null pointer
`token_wrapper_`, for all keys. -/
theorem C84_diana_search_violated (key : Bytes) :
    (Calls.fresh.run .diana valid [.setup key (Plan.good key.length), .search] [0, 0, 0, 0, 0, 1, 1]).crashed = true := by
  simp [Calls.run, Calls.step, Calls.fresh, callStep, Plan.good, search]

/-- After the answer to a successful set-up message, no null pointer is dereferenced and the answer stays. -/
theorem served_run (order : List Nat) (i : Nat) (key : Bytes) (p : Plan) (hi : calls[i]? = some (.setup key p))
    (h1 : (Calls.fresh.run sch valid calls order).pc i = .done (.status .ok)) (hcr : (Calls.fresh.run sch valid calls order).crashed = false)
    (l : List Nat) : (Calls.fresh.run sch valid calls (order ++ l)).crashed = false ∧
      (Calls.fresh.run sch valid calls (order ++ l)).pc i = .done (.status .ok) := by
  induction l using List.reverseRecOn with
  | nil => simpa using ⟨hcr, h1⟩
  | append_singleton l k ih =>
    obtain ⟨ih1, ih2⟩ := ih
    have hk := (C84_key (order ++ l) i key p hi ih2).1
    have hinv := inv_run (order ++ l) (inv_fresh (sch := sch) (valid := valid) (calls := calls))
    have e : Calls.fresh.run sch valid calls (order ++ (l ++ [k])) = (Calls.fresh.run sch valid calls (order ++ l)).step sch valid calls k := by
      simp [Calls.run, List.foldl_append]
    have hinv' := inv_step hinv k
    rw [e]
    generalize Calls.fresh.run sch valid calls (order ++ l) = s at *
    unfold Calls.step at hinv' ⊢
    simp only [ih1, Bool.false_eq_true, if_false] at hinv' ⊢
    cases hc : calls[k]? with
    | none => exact ⟨ih1, ih2⟩
    | some c =>
      simp only [hc] at hinv'
      dsimp only at hinv' ⊢
      have hnn : (callStep sch valid c (s.pc k) s.disk s.proc).1 ≠ .done .nullPointer := by
        intro hbad
        cases c with
        | setup kk pk =>
          rcases hinv'.1 with h1 | ⟨w, kw, pw, n, h1⟩
          · rcases h1.setups k kk pk hc with (e | e | e) | ⟨-, e⟩ <;> simp [hbad] at e
          · by_cases hkw : k = w
            · subst hkw
              have ho := (alone_owned (sch := sch) (valid := valid) kw pw h1.plan n).ends
              rw [← h1.state] at ho
              simp [hbad] at ho
            · rcases h1.setups k hkw kk pk hc with (e | e | e) | ⟨st, -, e⟩ <;> simp [hbad] at e
        | insert =>
          rcases hinv.2 k _ hc (Or.inl rfl) with e | ⟨e, -⟩ | e | ⟨e, -⟩ | ⟨-, e, -⟩
          · simp [e, callStep, hk] at hbad
          · simp [e, callStep, hk, insert] at hbad
          · simp [e, callStep] at hbad
          · simp [e, callStep] at hbad
          · cases e
        | search =>
          rcases hinv.2 k _ hc (Or.inr rfl) with e | ⟨e, -⟩ | e | ⟨e, -⟩ | ⟨-, -, -, e⟩
          · simp [e, callStep, hk] at hbad
          · simp [e, callStep, hk, search] at hbad
          · simp [e, callStep] at hbad
          · simp [e, callStep] at hbad
          · rw [ih1] at e; cases e
      refine ⟨by simpa using hnn, ?_⟩
      by_cases hik : i = k
      · subst hik
        rw [hi] at hc
        cases hc
        simp [ih2, callStep]
      · rw [if_neg hik]; exact ih2

/-- **C84 (part that holds)** for Diana: a search of which the steps are made after the answer to a successful set-up message does not
dereference a null pointer. -/
theorem C84_diana_partial (order : List Nat) (i : Nat) (key : Bytes) (p : Plan) (hi : calls[i]? = some (.setup key p))
    (h1 : (Calls.fresh.run sch valid calls order).pc i = .done (.status .ok)) (hcr : (Calls.fresh.run sch valid calls order).crashed = false)
    (rest : List Nat) : (Calls.fresh.run sch valid calls (order ++ rest)).crashed = false := by
  exact (served_run order i key p hi h1 hcr rest).1

/-- **C84**: a set-up message that arrives after the answer to a successful one is refused, as the service has a server (sophos L83-93,
diana L109-119), whatever its key and the failures, and nothing changes. -/
theorem C84_late (order : List Nat) (i j : Nat) (key key' : Bytes) (p p' : Plan) (hi : calls[i]? = some (.setup key p))
    (hj : calls[j]? = some (.setup key' p'))
    (h1 : (Calls.fresh.run sch valid calls order).pc i = .done (.status .ok)) (hcr : (Calls.fresh.run sch valid calls order).crashed = false)
    (h2 : j ∉ order) (rest : List Nat) (h3 : j ∈ rest) :
    (Calls.fresh.run sch valid calls (order ++ rest)).pc j = .done (.status .failedPrecondition) ∧
      (Calls.fresh.run sch valid calls (order ++ rest)).disk = (Calls.fresh.run sch valid calls order).disk ∧
      (Calls.fresh.run sch valid calls (order ++ rest)).proc = (Calls.fresh.run sch valid calls order).proc := by
  have hstart : ∀ l : List Nat, j ∉ l → (Calls.fresh.run sch valid calls l).pc j = .start := by
    intro l
    induction l using List.reverseRecOn with
    | nil => intro _; rfl
    | append_singleton l k ih =>
      intro hl
      have e : Calls.fresh.run sch valid calls (l ++ [k]) = (Calls.fresh.run sch valid calls l).step sch valid calls k := by
        simp [Calls.run, List.foldl_append]
      have hjk : j ≠ k := fun e => hl (by simp [e])
      rw [e]
      unfold Calls.step
      split
      · exact ih (fun h => hl (by simp [h]))
      · split
        · exact ih (fun h => hl (by simp [h]))
        · dsimp only
          rw [if_neg hjk]
          exact ih (fun h => hl (by simp [h]))
  have hmain : ∀ l : List Nat, (Calls.fresh.run sch valid calls (order ++ l)).pc j =
      if j ∈ l then .done (.status .failedPrecondition) else .start := by
    intro l
    induction l using List.reverseRecOn with
    | nil => simpa using hstart order h2
    | append_singleton l k ih =>
      obtain ⟨h4, h5⟩ := served_run order i key p hi h1 hcr l
      have hk := (C84_key (order ++ l) i key p hi h5).1
      have e : Calls.fresh.run sch valid calls (order ++ (l ++ [k])) = (Calls.fresh.run sch valid calls (order ++ l)).step sch valid calls k := by
        simp [Calls.run, List.foldl_append]
      rw [e]
      unfold Calls.step
      rw [if_neg (by rw [h4]; decide)]
      by_cases hjk : j = k
      · subst hjk
        rw [hj]
        dsimp only
        rw [if_pos rfl, ih, hk]
        by_cases hjl : j ∈ l
        · simp [hjl, callStep]
        · simp [hjl, callStep]
      · have hmem : (j ∈ l ++ [k]) ↔ j ∈ l := by simp [hjk]
        simp only [hmem]
        split
        · exact ih
        · dsimp only
          rw [if_neg hjk]
          exact ih
  have h6 := C84_key order i key p hi h1
  have h7 := C84_key (order ++ rest) i key p hi (served_run order i key p hi h1 hcr rest).2
  exact ⟨by rw [hmain, if_pos h3], by rw [h7.2, h6.2], by rw [h7.1, h6.1]⟩

/-- The hypotheses of `C84_late`: the second message arrives after the answer to the first. -/
example : (Calls.fresh.run .diana (fun k => k.length == 2) [.setup [1, 2] (Plan.good 2), .setup [3, 4] (Plan.good 2)]
      [0, 0, 0, 0, 0, 0, 0, 0]).pc 0 = .done (.status .ok) ∧
    (Calls.fresh.run .diana (fun k => k.length == 2) [.setup [1, 2] (Plan.good 2), .setup [3, 4] (Plan.good 2)]
      [0, 0, 0, 0, 0, 0, 0, 0]).crashed = false := by decide +kernel

/-- Number of steps that a call makes at most -/
def Pc.rank : Pc → Nat
  | .start => 8
  | .exist => 7
  | .mkdir => 6
  | .construct => 5
  | .assign => 4
  | .keyOpen => 3
  | .keyWrite => 2
  | .wrapper => 1
  | .use => 1
  | .done _ => 0

/-- Where a call can be -/
def Pc.For : Call → Pc → Prop
  | .setup _ _, pc => pc ≠ .use
  | _, pc => pc = .start ∨ pc = .use ∨ ∃ r, pc = .done r

theorem callStep_rank (c : Call) (pc : Pc) (d : Disk) (pr : Proc) (h : Pc.For c pc) :
    (callStep sch valid c pc d pr).1.rank ≤ pc.rank - 1 ∧ Pc.For c (callStep sch valid c pc d pr).1 := by
  cases c <;> cases pc <;> simp only [callStep] <;> repeat' split
  all_goals first | exact absurd rfl h | (simp [Pc.For] at h; done) | simp [Pc.rank, Pc.For]

/-- **C84**: every call is answered after at most eight of its own steps, whatever the other calls do, unless the service crashes. -/
theorem C84_ends (order : List Nat) (i : Nat) (hi : i < calls.length) (h8 : 8 ≤ order.count i) :
    (Calls.fresh.run sch valid calls order).crashed = true ∨ ∃ r, (Calls.fresh.run sch valid calls order).pc i = .done r := by
  have hc : calls[i]? = some calls[i] := List.getElem?_eq_getElem hi
  have key : ∀ (order : List Nat) (s : Calls), Pc.For calls[i] (s.pc i) →
      (s.run sch valid calls order).crashed = true ∨ ((s.run sch valid calls order).pc i).rank ≤ (s.pc i).rank - order.count i := by
    intro order
    induction order with
    | nil => intro s _; exact Or.inr (by simp [Calls.run])
    | cons k l ih =>
      intro s hs
      cases hcr : s.crashed with
      | true =>
        refine Or.inl ?_
        have : ∀ l : List Nat, s.run sch valid calls l = s := by
          intro l
          induction l with
          | nil => rfl
          | cons a l ih => simpa [Calls.run, Calls.step, hcr] using ih
        rw [this]
        exact hcr
      | false =>
        by_cases hk : k = i
        · subst hk
          have hr := callStep_rank (sch := sch) (valid := valid) calls[k] (s.pc k) s.disk s.proc hs
          have e : (s.step sch valid calls k).pc k = (callStep sch valid calls[k] (s.pc k) s.disk s.proc).1 := by
            simp [Calls.step, hcr, hc]
          rcases ih (s.step sch valid calls k) (by rw [e]; exact hr.2) with h | h
          · exact Or.inl h
          · refine Or.inr (Nat.le_trans h ?_)
            rw [e, List.count_cons_self]
            omega
        · have e : (s.step sch valid calls k).pc i = s.pc i := by
            unfold Calls.step
            simp only [hcr, Bool.false_eq_true, if_false]
            cases calls[k]? with
            | none => rfl
            | some c => simp [Ne.symm hk]
          rcases ih (s.step sch valid calls k) (by rw [e]; exact hs) with h | h
          · exact Or.inl h
          · refine Or.inr ?_
            rw [List.count_cons_of_ne hk, ← e]
            exact h
  have hfor : Pc.For calls[i] .start := by cases calls[i] <;> simp [Pc.For]
  rcases key order Calls.fresh hfor with h | h
  · exact Or.inl h
  · refine Or.inr ?_
    have h0 : ((Calls.fresh.run sch valid calls order).pc i).rank = 0 := by
      have : (Calls.fresh.pc i).rank = 8 := rfl
      omega
    cases e : (Calls.fresh.run sch valid calls order).pc i with
    | done r => exact ⟨r, rfl⟩
    | _ => rw [e] at h0; cases h0

/-- **C84 is violated to the letter**: the member `server_` is written by a set-up message while another call is about to read it; there is no
lock between the two (a data race, undefined behaviour of C++). -/
theorem C84_race_violated (key : Bytes) (hv : valid key = true) (c : Call) :
    ∃ order, writesServer (.setup key (Plan.good key.length)) ((Calls.fresh.run sch valid [.setup key (Plan.good key.length), c] order).pc 0) ∧
      readsServer c ((Calls.fresh.run sch valid [.setup key (Plan.good key.length), c] order).pc 1) := by
  refine ⟨[0, 0, 0, 0], ?_⟩
  simp [Calls.run, Calls.step, Calls.fresh, callStep, Plan.good, hv, writesServer, readsServer]

/-! ## Examples -/

/-- Two set-up messages at the same time, both before the directory exists: the second one creates it. -/
example : let s := (Calls.fresh.run .sophos (fun k => k.length == 2) [.setup [1, 2] (Plan.good 2), .setup [3, 4] (Plan.good 2), .insert, .search]
      [0, 0, 1, 1, 1, 0, 2, 1, 1, 3, 3, 1, 1])
    s.pc 0 = .done (.status .permissionDenied) ∧ s.pc 1 = .done (.status .ok) ∧ s.pc 2 = .done (.status .failedPrecondition) ∧
      s.pc 3 = .done (.status .ok) ∧ s.disk = .dir true (some [3, 4]) ∧ s.proc = ⟨true, some [3, 4]⟩ := by decide +kernel

/-- Diana, with a key that is too short -/
example : let s := (Calls.fresh.run .diana (fun k => k.length == 2) [.setup [1] (Plan.good 1), .setup [3, 4] (Plan.good 2), .insert]
      [0, 1, 0, 0, 1, 0, 0, 2, 2, 0, 0])
    s.pc 0 = .done (.status .invalidArgument) ∧ s.pc 1 = .done (.status .alreadyExists) ∧ s.pc 2 = .done (.status .ok) := by decide +kernel

/-- Both are answered after eight steps each. -/
example (r : List Nat) (hr : 8 ≤ r.count 0) (hr' : 8 ≤ r.count 1) :
    ∃ w key p, ([.setup [1, 2] (Plan.good 2), .setup [3, 4] (Plan.good 2)] : List Call)[w]? = some (.setup key p) ∧
      (Calls.fresh.run .sophos (fun k => k.length == 2) [.setup [1, 2] (Plan.good 2), .setup [3, 4] (Plan.good 2)] r).pc w = .done (.status .ok) := by
  obtain ⟨w, key, p, h1, h2, -⟩ := C84_exactly_one (sch := .sophos) (valid := fun k => k.length == 2)
    (calls := [.setup [1, 2] (Plan.good 2), .setup [3, 4] (Plan.good 2)]) r (by
      intro i key p h
      match i with
      | 0 => cases h; exact ⟨rfl, rfl⟩
      | 1 => cases h; exact ⟨rfl, rfl⟩
      | i + 2 => cases h) ⟨0, _, _, rfl⟩ (by
      intro i key p h
      have hi : i < 2 := by
        match i with
        | 0 => decide
        | 1 => decide
        | i + 2 => cases h
      rcases C84_ends (sch := .sophos) (valid := fun k => k.length == 2) (calls := [.setup [1, 2] (Plan.good 2), .setup [3, 4] (Plan.good 2)]) r i hi
        (by match i with
            | 0 => exact hr
            | 1 => exact hr'
            | i + 2 => omega) with h | h
      · rw [C84_sophos_no_crash] at h; cases h
      · exact h)
  exact ⟨w, key, p, h1, h2⟩

end Verif.Runner
