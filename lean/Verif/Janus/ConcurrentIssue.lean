import Verif.Janus.ConcurrentInv

/-! # Requests keep the invariant of a Janus server with concurrent calls -/

set_option linter.unusedSectionVars false

namespace Verif.Janus.Conc

open Verif Mixed

variable {PK KS CT Rand V : Type}

/-! ## The sequential execution -/

theorem plain_sequentially (op : Janus.Op Rand) : (sequentially op).plain = op := by
  cases op <;> rfl

theorem ok_sequentially (op : Janus.Op Rand) : (sequentially op).ok = true := by
  cases op <;> rfl

/-- One after the other, no operation fails. -/
theorem seq_step (c : Crypto PK KS CT Rand) {K D n t} (hn : n + 1 < 2 ^ 32)
    (hnc : NoCollision c K D n) {q : Sys KS CT} (hr : Mixed.Rel c K n t q q) (ht : t + 1 ≤ n)
    {op : Janus.Op Rand} (hK : Janus.Spec.Op.kw op ∈ K) :
    ∃ q1 out, Janus.step c q op = .ok (q1, out) ∧ Mixed.Rel c K n (t + 1) q1 q1 := by
  have hK' : Janus.Spec.Op.kw (sequentially op).plain ∈ K := by rw [plain_sequentially]; exact hK
  obtain ⟨s', o, hs⟩ := step_exists c hn hnc hr (by omega) (ok_sequentially op) hK'
  obtain ⟨q1, out, h1, -, -⟩ := step_sim c hn hnc hr ht (ok_sequentially op) hK' hs
  rw [plain_sequentially] at h1
  obtain ⟨q2, out2, h2, h3, -⟩ := step_sim c hn hnc hr ht (ok_sequentially op) hK'
    (step_sequentially c h1)
  rw [plain_sequentially, h1] at h2
  obtain ⟨rfl, rfl⟩ := Prod.mk.inj (Except.ok.inj h2)
  exact ⟨q1, out, h1, h3⟩

/-- An operation is its request and the call alone. -/
theorem step_form (c : Crypto PK KS CT Rand) {q q1 : Sys KS CT} {op : Janus.Op Rand}
    {out : Option (List Index)} (h : Janus.step c q op = .ok (q1, out)) :
    q1.client = (request c q.client op).1 ∧
    ∃ m, workN c m (q.server, (request c q.client op).2.pc) = (q1.server, .done out) := by
  cases op with
  | insert w i r =>
    obtain ⟨rfl, rfl⟩ := Prod.mk.inj (Except.ok.inj h)
    exact ⟨rfl, 1, rfl⟩
  | remove w i =>
    obtain ⟨rfl, rfl⟩ := Prod.mk.inj (Except.ok.inj h)
    exact ⟨rfl, 1, rfl⟩
  | search w =>
    simp only [Janus.step] at h
    cases hs : Janus.search c q.server (searchRequest c q.client w).1 with
    | error e => rw [hs] at h; exact absurd h (by simp)
    | ok p =>
      rw [hs] at h
      obtain ⟨rfl, rfl⟩ := Prod.mk.inj (Except.ok.inj h)
      exact ⟨rfl, search_alone c q.server p.2 _ p.1 hs⟩

theorem run_snoc (c : Crypto PK KS CT Rand) (ops : List (Janus.Op Rand)) (op : Janus.Op Rand) :
    ∀ {s q q1 : Sys KS CT} {outs : List (List Index)} {out : Option (List Index)},
    Janus.run c s ops = .ok (q, outs) → Janus.step c q op = .ok (q1, out) →
    Janus.run c s (ops ++ [op]) = .ok (q1, outs ++ out.toList) := by
  induction ops with
  | nil =>
    intro s q q1 outs out h1 h2
    obtain ⟨rfl, rfl⟩ := Prod.mk.inj (Except.ok.inj h1)
    simp only [List.nil_append, Janus.run, h2, List.append_nil]
  | cons o ops ih =>
    intro s q q1 outs out h1 h2
    simp only [Janus.run] at h1
    cases hs : Janus.step c s o with
    | error e => rw [hs] at h1; exact absurd h1 (by simp)
    | ok p =>
      obtain ⟨s1, out1⟩ := p
      cases hr : Janus.run c s1 ops with
      | error e => simp [hs, hr] at h1
      | ok x =>
        obtain ⟨s2, outs2⟩ := x
        simp only [hs, hr, Except.ok.injEq, Prod.mk.injEq] at h1
        obtain ⟨rfl, rfl⟩ := h1
        simp only [List.cons_append, Janus.run, hs, ih hr h2, List.append_assoc]

/-! ## Requests -/

theorem startSearch_over (c : Crypto PK KS CT Rand) (req : SearchReq c) (res : Option (List Index)) :
    startSearch c req ≠ .done res := by
  unfold startSearch
  split <;> simp

theorem startSearch_notUpdate (c : Crypto PK KS CT Rand) (req : SearchReq c) :
    (startSearch c req).isUpdate = false := by
  unfold startSearch
  split <;> rfl

theorem idle_spec {c : Crypto PK KS CT Rand} {s : CSys c} {w : Str} (h : idle s w = true) {j : Nat}
    {pc : Pc c} (hj : s.calls[j]? = some ⟨w, pc⟩) : pc.over = true := by
  have := List.all_eq_true.mp h _ (List.mem_of_getElem? hj)
  simpa using this

theorem unsearched_spec {c : Crypto PK KS CT Rand} {s : CSys c} {w : Str} (h : unsearched s w = true)
    {j : Nat} {pc : Pc c} (hj : s.calls[j]? = some ⟨w, pc⟩) :
    pc.over = true ∨ pc.isUpdate = true := by
  have := List.all_eq_true.mp h _ (List.mem_of_getElem? hj)
  simpa using this

/-- Nothing under way: the entries are those of the sequential execution. -/
theorem quiet_agree (c : Crypto PK KS CT Rand) {n : Nat} {w : Str} {cl : Client}
    {srv qsrv : Server KS CT} {calls : List (Call c)} (h : Quiet c n w cl srv qsrv calls)
    (hidle : ∀ (j : Nat) (pc : Pc c), calls[j]? = some ⟨w, pc⟩ → pc.over = true) :
    Agree (slots c n w) srv qsrv := by
  refine ⟨?_, ?_, h.cache⟩
  · intro k hk
    rcases h.ins k hk with h1 | ⟨j, req, h1, -⟩
    · exact h1
    · exact absurd (hidle j _ h1) (by simp [Pc.over])
  · intro k hk
    rcases h.del k hk with h1 | ⟨j, req, h1, -⟩
    · exact h1
    · exact absurd (hidle j _ h1) (by simp [Pc.over])

theorem countOf_next (m : Map Str UInt32) (k : Str) (h : countOf m k < 2 ^ 32) :
    countOf (Counter.getAndIncrement m k).2 k = countOf m k + 1 := by
  have h1 := next_toNat m k h
  simp only [Counter.getAndIncrement] at h1
  simp only [Counter.getAndIncrement]
  conv => lhs; unfold countOf
  simp only [Map.put_self, h1]

theorem quiet_search (c : Crypto PK KS CT Rand) {n : Nat} {w : Str} {cl : Client}
    {q q1 : Sys KS CT} {srv : Server KS CT} {calls : List (Call c)} {exp : List (Option (List Index))}
    {out : Option (List Index)} {m : Nat} (h : KwInv c n w cl srv q.server calls exp)
    (hidle : ∀ (j : Nat) (pc : Pc c), calls[j]? = some ⟨w, pc⟩ → pc.over = true)
    {req : SearchReq c} (hwithin : Within c (slots c n w) (startSearch c req))
    (hm : workN c m (q.server, startSearch c req) = (q1.server, .done out))
    (hlen : exp.length = calls.length) (cl1 : Client) :
    KwInv c n w cl1 srv q1.server (calls ++ [⟨w, startSearch c req⟩]) (exp ++ [out]) := by
  rcases h with h | ⟨j, pc, m', srv', res, h⟩
  · right
    obtain ⟨a1, a2⟩ := workN_local c m hwithin (quiet_agree c h hidle)
    rw [hm] at a1 a2
    refine ⟨calls.length, _, m, _, out, get_append_last _ _, ?_, startSearch_notUpdate c req, ?_, ?_,
      Prod.ext rfl a1, a2⟩
    · cases ho : (startSearch c req).over with
      | false => rfl
      | true =>
        rw [workN_over c m q.server ho] at hm
        exact absurd (Prod.mk.inj hm).2 (startSearch_over c req out)
    · intro i pc' hi ho
      rcases get_append_cases hi with ⟨h1, -⟩ | hi
      · exact h1
      · rw [hidle i pc' hi] at ho; exact absurd ho (by simp)
    · rw [← hlen]; exact get_append_last _ _
  · have := hidle j pc h.call
    rw [h.notOver] at this
    exact absurd this (by simp)

theorem quiet_insert (c : Crypto PK KS CT Rand) {K D n t} (hn : n < 2 ^ 32) (hnc : NoCollision c K D n)
    {w : Str} (hw : w ∈ K) {cl : Client} (hcl : ClientOk t cl) (ht : t < n) {srv qsrv : Server KS CT}
    {calls : List (Call c)} {exp exp1 : List (Option (List Index))}
    (h : KwInv c n w cl srv qsrv calls exp)
    (huns : ∀ (j : Nat) (pc : Pc c), calls[j]? = some ⟨w, pc⟩ → pc.over = true ∨ pc.isUpdate = true)
    (i : Index) (r : Rand) :
    KwInv c n w (insertionRequest c cl w i r).2 srv
      (Janus.insert qsrv (insertionRequest c cl w i r).1)
      (calls ++ [⟨w, .insert (insertionRequest c cl w i r).1⟩]) exp1 := by
  rcases h with h | ⟨j, pc, m', srv', res, h⟩
  · left
    have hcnt := hcl.ins (metaKeyword w (searchCounter cl w))
    have hepoch := hcl.epoch w
    have htok := insert_token c cl w i r (by omega)
    have hsc : searchCounter (insertionRequest c cl w i r).2 w = searchCounter cl w := rfl
    have hdc : (insertionRequest c cl w i r).2.delCtr = cl.delCtr := rfl
    have hic : countOf (insertionRequest c cl w i r).2.insCtr (metaKeyword w (searchCounter cl w)) =
        countOf cl.insCtr (metaKeyword w (searchCounter cl w)) + 1 := countOf_next _ _ (by omega)
    refine ⟨?_, ?_, ?_, h.cache⟩
    · intro j pc hj ho
      rw [hsc, hic, hdc]
      rcases get_append_cases hj with ⟨-, h1⟩ | hj
      · obtain ⟨-, rfl⟩ := Call.mk.inj h1
        exact .inl ⟨_, _, rfl, Nat.lt_succ_self _, htok, Map.put_self _ _ _⟩
      · rcases h.upd j pc hj ho with ⟨req, a, rfl, h1, h2, h3⟩ | ⟨req, a, rfl, h1, h2, h3⟩
        · refine .inl ⟨req, a, rfl, by omega, h2, ?_⟩
          have hne : req.token ≠ (insertionRequest c cl w i r).1.token := by
            rw [h2, htok]
            intro he
            have := (Crash.token_ne c.ins hnc.ins hw hw (e := (searchCounter cl w).toNat)
              (f := (searchCounter cl w).toNat) (by omega) (by omega) hn (by omega) (by omega) he).2.2
            omega
          exact (Map.put_of_ne _ _ hne).trans h3
        · exact .inr ⟨req, a, rfl, h1, h2, h3⟩
    · intro k hk
      by_cases hkt : k = (insertionRequest c cl w i r).1.token
      · exact .inr ⟨_, _, get_append_last _ _, hkt.symm⟩
      · rcases h.ins k hk with h1 | ⟨j, req, h1, h2⟩
        · exact .inl (h1.trans (Map.put_of_ne _ _ hkt).symm)
        · exact .inr ⟨j, req, get_append_left h1, h2⟩
    · intro k hk
      rcases h.del k hk with h1 | ⟨j, req, h1, h2⟩
      · exact .inl h1
      · exact .inr ⟨j, req, get_append_left h1, h2⟩
  · rcases huns j pc h.call with h1 | h1
    · rw [h.notOver] at h1; exact absurd h1 (by simp)
    · rw [h.notUpdate] at h1; exact absurd h1 (by simp)

theorem quiet_remove (c : Crypto PK KS CT Rand) {K D n t} (hn : n < 2 ^ 32) (hnc : NoCollision c K D n)
    {w : Str} (hw : w ∈ K) {cl : Client} (hcl : ClientOk t cl) (ht : t < n) {srv qsrv : Server KS CT}
    {calls : List (Call c)} {exp exp1 : List (Option (List Index))}
    (h : KwInv c n w cl srv qsrv calls exp)
    (huns : ∀ (j : Nat) (pc : Pc c), calls[j]? = some ⟨w, pc⟩ → pc.over = true ∨ pc.isUpdate = true)
    (i : Index) :
    KwInv c n w (removalRequest c cl w i).2 srv
      (Janus.remove qsrv (removalRequest c cl w i).1)
      (calls ++ [⟨w, .remove (removalRequest c cl w i).1⟩]) exp1 := by
  rcases h with h | ⟨j, pc, m', srv', res, h⟩
  · left
    have hcnt := hcl.del (metaKeyword w (searchCounter cl w))
    have hepoch := hcl.epoch w
    have htok := remove_token c cl w i (by omega)
    have hsc : searchCounter (removalRequest c cl w i).2 w = searchCounter cl w := rfl
    have hdc : (removalRequest c cl w i).2.insCtr = cl.insCtr := rfl
    have hic : countOf (removalRequest c cl w i).2.delCtr (metaKeyword w (searchCounter cl w)) =
        countOf cl.delCtr (metaKeyword w (searchCounter cl w)) + 1 := countOf_next _ _ (by omega)
    refine ⟨?_, ?_, ?_, h.cache⟩
    · intro j pc hj ho
      rw [hsc, hic, hdc]
      rcases get_append_cases hj with ⟨-, h1⟩ | hj
      · obtain ⟨-, rfl⟩ := Call.mk.inj h1
        exact .inr ⟨_, _, rfl, Nat.lt_succ_self _, htok, Map.put_self _ _ _⟩
      · rcases h.upd j pc hj ho with ⟨req, a, rfl, h1, h2, h3⟩ | ⟨req, a, rfl, h1, h2, h3⟩
        · exact .inl ⟨req, a, rfl, h1, h2, h3⟩
        · refine .inr ⟨req, a, rfl, by omega, h2, ?_⟩
          have hne : req.token ≠ (removalRequest c cl w i).1.token := by
            rw [h2, htok]
            intro he
            have := (Crash.token_ne c.del hnc.del hw hw (e := (searchCounter cl w).toNat)
              (f := (searchCounter cl w).toNat) (by omega) (by omega) hn (by omega) (by omega) he).2.2
            omega
          exact (Map.put_of_ne _ _ hne).trans h3
    · intro k hk
      rcases h.ins k hk with h1 | ⟨j, req, h1, h2⟩
      · exact .inl h1
      · exact .inr ⟨j, req, get_append_left h1, h2⟩
    · intro k hk
      by_cases hkt : k = (removalRequest c cl w i).1.token
      · exact .inr ⟨_, _, get_append_last _ _, hkt.symm⟩
      · rcases h.del k hk with h1 | ⟨j, req, h1, h2⟩
        · exact .inl (h1.trans (Map.put_of_ne _ _ hkt).symm)
        · exact .inr ⟨j, req, get_append_left h1, h2⟩
  · rcases huns j pc h.call with h1 | h1
    · rw [h.notOver] at h1; exact absurd h1 (by simp)
    · rw [h.notUpdate] at h1; exact absurd h1 (by simp)

theorem request_kw (c : Crypto PK KS CT Rand) (cl : Client) (op : Op Rand) :
    (request c cl op).2.kw = Janus.Spec.Op.kw op := by
  cases op <;> rfl

/-- A request of a careful caller. -/
theorem inv_issue (c : Crypto PK KS CT Rand) {K D n} (hn : n + 1 < 2 ^ 32) (hnc : NoCollision c K D n)
    {ops : List (Op Rand)} {s : CSys c} {q : Sys KS CT} {exp : List (Option (List Index))}
    (h : Inv c K n ops s q exp) (op : Op Rand) (ht : ops.length + 1 ≤ n)
    (hK : Janus.Spec.Op.kw op ∈ K) (hcare : careful s (.issue op) = true) :
    ∃ q1 exp1, Inv c K n (ops ++ [op]) (s.exec (.issue op)) q1 exp1 := by
  obtain ⟨q1, out, hstep, hrel⟩ := seq_step c hn hnc h.rel ht hK
  obtain ⟨hcl, m, hm⟩ := step_form c hstep
  have hok : ClientOk ops.length s.client := by rw [h.client]; exact h.rel.ok
  rw [← h.client] at hcl hm
  have hwithin := within_request c (n := n) (by omega) hok (by omega) op
  have hnotOver : (request c s.client op).2.pc.over = false := by
    cases ho : (request c s.client op).2.pc.over with
    | false => rfl
    | true =>
      rw [workN_over c m q.server ho] at hm
      have hd := (Prod.mk.inj hm).2
      cases op with
      | insert w i r => exact absurd hd (by simp [request])
      | remove w i => exact absurd hd (by simp [request])
      | search w => exact absurd hd (startSearch_over c _ out)
  have hlen : exp.length = s.calls.length := by rw [h.expLen, h.callsLen]
  obtain ⟨outs, hrun⟩ := h.run
  refine ⟨q1, exp ++ [out], hcl.symm, ?_, ⟨_, run_snoc c ops op hrun hstep⟩, ?_, ?_, ?_, ?_, ?_, ?_, ?_⟩
  · rw [List.length_append, List.length_singleton]; exact hrel
  · simp [CSys.exec, h.callsLen]
  · simp [h.expLen]
  · intro j o hj
    rw [List.getElem?_append] at hj
    split at hj
    · rename_i hlt
      obtain ⟨q0, outs0, q2, out2, a1, a2, a3⟩ := h.outs j o hj
      exact ⟨q0, outs0, q2, out2, by rw [List.take_append_of_le_length (by omega)]; exact a1, a2,
        get_append_left a3⟩
    · rename_i hlt
      have hj0 : j = ops.length := by
        have := (List.getElem?_eq_some_iff.mp hj).1
        simp only [List.length_singleton] at this
        omega
      subst hj0
      rw [Nat.sub_self] at hj
      obtain rfl := Option.some.inj hj
      exact ⟨q, outs, q1, out, by rw [List.take_left']; exact hrun; rfl, hstep,
        by rw [← h.expLen]; exact get_append_last _ _⟩
  · intro j call hj
    rcases get_append_cases hj with ⟨-, rfl⟩ | hj
    · exact ⟨by rw [request_kw]; exact hK, hwithin⟩
    · exact h.kws j call hj
  · intro j call hj ho
    rcases get_append_cases hj with ⟨-, rfl⟩ | hj
    · rw [hnotOver] at ho; exact absurd ho (by simp)
    · obtain ⟨res, h1, h2⟩ := h.over j call hj ho
      exact ⟨res, h1, get_append_left h2⟩
  · intro j call hj hu
    rcases get_append_cases hj with ⟨h1, rfl⟩ | hj
    · rw [h1, ← hlen, get_append_last]
      cases op with
      | insert w i r => rw [show out = none from (Prod.mk.inj (Except.ok.inj hstep)).2.symm]
      | remove w i => rw [show out = none from (Prod.mk.inj (Except.ok.inj hstep)).2.symm]
      | search w =>
        have := startSearch_notUpdate c (searchRequest c s.client w).1
        exact absurd hu (by simp [request, this])
    · exact get_append_left (h.upd j call hj hu)
  · intro v hv
    by_cases hvw : v = Janus.Spec.Op.kw op
    · subst hvw
      cases op with
      | insert w i r =>
        rw [show q1.server = Janus.insert q.server (insertionRequest c s.client w i r).1 by
          rw [h.client]; exact (congrArg Sys.server (Prod.mk.inj (Except.ok.inj hstep)).1).symm]
        exact quiet_insert c (by omega) hnc hK hok (by omega) (h.kw _ hv)
          (fun j pc hj => unsearched_spec hcare hj) i r
      | remove w i =>
        rw [show q1.server = Janus.remove q.server (removalRequest c s.client w i).1 by
          rw [h.client]; exact (congrArg Sys.server (Prod.mk.inj (Except.ok.inj hstep)).1).symm]
        exact quiet_remove c (by omega) hnc hK hok (by omega) (h.kw _ hv)
          (fun j pc hj => unsearched_spec hcare hj) i
      | search w =>
        exact quiet_search c (h.kw _ hv) (fun j pc hj => idle_spec hcare hj) hwithin hm hlen _
    · obtain ⟨e1, e2, e3⟩ := client_other c s.client op hvw
      have hsep := slots_separate c (by omega) hnc hK hv (fun e => hvw e.symm)
      have hfr := workN_frame c (T := slots c n v) hsep m q.server
        (by rw [← request_kw c s.client op]; exact hwithin)
      rw [hm] at hfr
      exact kwInv_frame c (h.kw v hv) (fun i pc hi => (h.kws i _ hi).2) (Agree.refl _ _) hfr
        (get_append_other (by rw [request_kw]; exact fun e => hvw e.symm)) e1 e2 e3
        (fun _ _ h => get_append_left h)

/-! ## Histories -/

theorem issued_append (es es' : List (Ev Rand)) : issued (es ++ es') = issued es ++ issued es' := by
  induction es with
  | nil => rfl
  | cons e es ih => cases e <;> simp [issued, ih]

theorem run_append {c : Crypto PK KS CT Rand} (s : CSys c) (es es' : List (Ev Rand)) :
    s.run (es ++ es') = (s.run es).run es' := by
  induction es generalizing s with
  | nil => rfl
  | cons e es ih => exact ih _

theorem allCareful_append {c : Crypto PK KS CT Rand} (s : CSys c) (es es' : List (Ev Rand)) :
    allCareful s (es ++ es') = (allCareful s es && allCareful (s.run es) es') := by
  induction es generalizing s with
  | nil => rfl
  | cons e es ih => simp only [List.cons_append, allCareful, ih, Bool.and_assoc, CSys.run]

theorem inv_run (c : Crypto PK KS CT Rand) {K D n} (hn : n + 1 < 2 ^ 32) (hnc : NoCollision c K D n)
    (es : List (Ev Rand)) : ∀ {ops : List (Op Rand)} {s : CSys c} {q : Sys KS CT}
    {exp : List (Option (List Index))}, Inv c K n ops s q exp →
    (ops ++ issued es).length ≤ n → (∀ op ∈ issued es, Janus.Spec.Op.kw op ∈ K) →
    allCareful s es = true → ∃ q1 exp1, Inv c K n (ops ++ issued es) (s.run es) q1 exp1 := by
  induction es with
  | nil =>
    intro ops s q exp h _ _ _
    exact ⟨q, exp, by simpa [issued, CSys.run] using h⟩
  | cons e es ih =>
    intro ops s q exp h hlen hK hcare
    simp only [allCareful, Bool.and_eq_true] at hcare
    cases e with
    | issue op =>
      simp only [issued] at hlen hK ⊢
      obtain ⟨q1, exp1, h1⟩ := inv_issue c hn hnc h op (by simp at hlen; omega) (hK op (by simp)) hcare.1
      obtain ⟨q2, exp2, h2⟩ := ih h1 (by simpa using hlen) (fun o ho => hK o (by simp [ho])) hcare.2
      exact ⟨q2, exp2, by simpa [CSys.run] using h2⟩
    | work j =>
      exact ih (inv_work c hn hnc h j) hlen hK hcare.2

end Verif.Janus.Conc
