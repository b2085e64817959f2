import Verif.Janus.ConcurrentLemmas

/-! # The invariant of a Janus server with concurrent calls -/

set_option linter.unusedSectionVars false

namespace Verif.Janus.Conc

open Verif Mixed

variable {PK KS CT Rand V : Type}

/-! ## The keys of a keyword -/

/-- The keys that calls on `w` may touch. -/
def slots (c : Crypto PK KS CT Rand) (n : Nat) (w : Str) : Keys where
  ins k := ∃ e a, e ≤ n ∧ a < n ∧ k = Diana.updateToken c.ins (metaNat w e) a
  del k := ∃ e a, e ≤ n ∧ a < n ∧ k = Diana.updateToken c.del (metaNat w e) a
  cache k := k = c.kwToken w

theorem slots_separate (c : Crypto PK KS CT Rand) {K D n} (hn : n < 2 ^ 32)
    (hnc : NoCollision c K D n) {v w : Str} (hv : v ∈ K) (hw : w ∈ K) (hne : v ≠ w) :
    Separate (slots c n v) (slots c n w) := by
  refine ⟨?_, ?_, ?_⟩
  · rintro k ⟨e, a, he, ha, rfl⟩ ⟨f, b, hf, hb, h⟩
    exact hne (Crash.token_ne c.ins hnc.ins hv hw he hf hn ha hb h).1
  · rintro k ⟨e, a, he, ha, rfl⟩ ⟨f, b, hf, hb, h⟩
    exact hne (Crash.token_ne c.del hnc.del hv hw he hf hn ha hb h).1
  · intro k h1 h2
    exact hne (hnc.kw v hv w hw (h1.symm.trans h2))

/-- The number of a new entry. -/
theorem next_toNat (m : Map Str UInt32) (k : Str) (h : countOf m k < 2 ^ 32) :
    (Counter.getAndIncrement m k).1.toNat = countOf m k := by
  unfold countOf at h
  simp only [countOf, Counter.getAndIncrement, Counter.nextValue, Counter.get]
  cases hm : m k with
  | none => rfl
  | some v =>
    simp only [hm] at h ⊢
    rw [UInt32.toNat_add]
    show (v.toNat + 1) % 2 ^ 32 = _
    omega

theorem insert_token (c : Crypto PK KS CT Rand) (cl : Client) (w : Str) (i : Index) (r : Rand)
    (h : countOf cl.insCtr (metaKeyword w (searchCounter cl w)) < 2 ^ 32) :
    (insertionRequest c cl w i r).1.token =
      Diana.updateToken c.ins (metaKeyword w (searchCounter cl w))
        (countOf cl.insCtr (metaKeyword w (searchCounter cl w))) := by
  simp only [insertionRequest, Diana.insertionRequest, Diana.requestFor, Diana.updateToken,
    next_toNat _ _ h]

theorem remove_token (c : Crypto PK KS CT Rand) (cl : Client) (w : Str) (i : Index)
    (h : countOf cl.delCtr (metaKeyword w (searchCounter cl w)) < 2 ^ 32) :
    (removalRequest c cl w i).1.token =
      Diana.updateToken c.del (metaKeyword w (searchCounter cl w))
        (countOf cl.delCtr (metaKeyword w (searchCounter cl w))) := by
  simp only [removalRequest, Diana.insertionRequest, Diana.requestFor, Diana.updateToken,
    next_toNat _ _ h]

theorem leaves_of_request (c : Diana.Crypto Str V) (m : Map Str UInt32) (mk : Str) :
    ∃ k, k ≤ countOf m mk ∧
      searchLeaves c (Diana.searchRequest c m mk) = some (Diana.leavesOf c mk k) := by
  rcases Diana.searchRequest_cases c m mk with h0 | ⟨k, hk, hk2, ha, hr⟩
  · refine ⟨0, Nat.zero_le _, ?_⟩
    rw [searchLeaves, if_pos h0]; rfl
  · refine ⟨k, ?_, ?_⟩
    · have := addCount_le c m mk
      omega
    · have h0 : (Diana.searchRequest c m mk).addCount ≠ 0 := by
        intro h; rw [h] at ha; simp at ha; omega
      rw [searchLeaves, if_neg h0, hr, c.maxLeaf_constrain _ _ (by omega),
        Diana.evalRange_eq c _ (k - 1) 0 (k - 1) (by omega) (by omega) (by omega)]
      have : k - 1 + 1 - 0 = k := by omega
      rw [this, ← List.range_eq_range']
      rfl

theorem mem_leavesOf (c : Diana.Crypto Str V) {mk : Str} {k : Nat} {l : Nat × Diana.Leaf}
    (h : l ∈ Diana.leavesOf c mk k) : ∃ a, a < k ∧ c.token l.2 = Diana.updateToken c mk a := by
  simp only [Diana.leavesOf, List.mem_map, List.mem_range] at h
  obtain ⟨a, ha, rfl⟩ := h
  exact ⟨a, ha, rfl⟩

/-- A new call touches only the keys of its keyword. -/
theorem within_request (c : Crypto PK KS CT Rand) {n t : Nat} (hn : n < 2 ^ 32) {cl : Client}
    (h : ClientOk t cl) (ht : t < n) (op : Op Rand) :
    Within c (slots c n (request c cl op).2.kw) (request c cl op).2.pc := by
  cases op with
  | insert w i r =>
    have hi := h.ins (metaKeyword w (searchCounter cl w))
    have he := h.epoch w
    exact ⟨_, _, by omega, by omega, insert_token c cl w i r (by omega)⟩
  | remove w i =>
    have hi := h.del (metaKeyword w (searchCounter cl w))
    have he := h.epoch w
    exact ⟨_, _, by omega, by omega, remove_token c cl w i (by omega)⟩
  | search w =>
    have hi := h.ins (metaKeyword w (searchCounter cl w))
    have hd := h.del (metaKeyword w (searchCounter cl w))
    have he := h.epoch w
    obtain ⟨k, hk, h1⟩ := leaves_of_request c.ins cl.insCtr (metaKeyword w (searchCounter cl w))
    obtain ⟨k', hk', h2⟩ := leaves_of_request c.del cl.delCtr (metaKeyword w (searchCounter cl w))
    have e1 : searchLeaves c.ins (searchRequest c cl w).1.ins =
      some (Diana.leavesOf c.ins (metaKeyword w (searchCounter cl w)) k) := h1
    have e2 : searchLeaves c.del (searchRequest c cl w).1.del =
      some (Diana.leavesOf c.del (metaKeyword w (searchCounter cl w)) k') := h2
    simp only [request, startSearch, e1]
    refine ⟨?_, ?_, rfl⟩
    · intro l hl
      obtain ⟨a, ha, h⟩ := mem_leavesOf c.ins hl
      exact ⟨_, a, by omega, by omega, h⟩
    · intro ld hld l hl
      rw [e2] at hld
      obtain rfl := Option.some.inj hld
      obtain ⟨a, ha, h⟩ := mem_leavesOf c.del hl
      exact ⟨_, a, by omega, by omega, h⟩

/-! ## The client and the other keywords -/

theorem countOf_put_ne (m : Map Str UInt32) {k k' : Str} (h : k ≠ k') (v : UInt32) :
    countOf (m.put k' v) k = countOf m k := by
  simp only [countOf, Map.put_of_ne _ _ h]

theorem countOf_erase_ne (m : Map Str UInt32) {k k' : Str} (h : k ≠ k') :
    countOf (m.erase k') k = countOf m k := by
  simp only [countOf, Map.erase_of_ne _ h]

theorem metaKeyword_ne {v w : Str} (h : v ≠ w) (x y : UInt32) : metaKeyword v x ≠ metaKeyword w y :=
  fun e => h (metaNat_inj x.toNat_lt y.toNat_lt e).1

/-- A request on `w` leaves the counters of `v` as they are. -/
theorem client_other (c : Crypto PK KS CT Rand) (cl : Client) (op : Op Rand) {v : Str}
    (h : v ≠ Janus.Spec.Op.kw op) :
    searchCounter (request c cl op).1 v = searchCounter cl v ∧
    countOf (request c cl op).1.insCtr (metaKeyword v (searchCounter cl v)) =
      countOf cl.insCtr (metaKeyword v (searchCounter cl v)) ∧
    countOf (request c cl op).1.delCtr (metaKeyword v (searchCounter cl v)) =
      countOf cl.delCtr (metaKeyword v (searchCounter cl v)) := by
  cases op with
  | insert w i r =>
    refine ⟨rfl, ?_, rfl⟩
    exact countOf_put_ne _ (metaKeyword_ne h _ _) _
  | remove w i =>
    refine ⟨rfl, rfl, ?_⟩
    exact countOf_put_ne _ (metaKeyword_ne h _ _) _
  | search w =>
    refine ⟨?_, ?_, ?_⟩
    · have hif : (searchRequest c cl w).2.searchCtr v = cl.searchCtr v := by
        simp only [searchRequest]
        split
        · exact Map.put_of_ne _ _ h
        · rfl
      show searchCounter (searchRequest c cl w).2 v = _
      simp only [searchCounter, Counter.get, hif]
    · simp only [request, searchRequest]
      split
      · exact countOf_erase_ne _ (metaKeyword_ne h _ _)
      · rfl
    · simp only [request, searchRequest]
      split
      · exact countOf_erase_ne _ (metaKeyword_ne h _ _)
      · rfl

/-! ## The invariant of a keyword -/

/-- No search of `w` is under way: the server has what it would have after all requests so far, one
after the other, except for the entries of insertions and removals under way. -/
structure Quiet (c : Crypto PK KS CT Rand) (n : Nat) (w : Str) (cl : Client) (srv qsrv : Server KS CT)
    (calls : List (Call c)) : Prop where
  upd : ∀ (j : Nat) (pc : Pc c), calls[j]? = some ⟨w, pc⟩ → pc.over = false →
    (∃ req a, pc = .insert req ∧ a < countOf cl.insCtr (metaKeyword w (searchCounter cl w)) ∧
      req.token = Diana.updateToken c.ins (metaKeyword w (searchCounter cl w)) a ∧
      qsrv.insEdb req.token = some req.index) ∨
    (∃ req a, pc = .remove req ∧ a < countOf cl.delCtr (metaKeyword w (searchCounter cl w)) ∧
      req.token = Diana.updateToken c.del (metaKeyword w (searchCounter cl w)) a ∧
      qsrv.delEdb req.token = some req.index)
  ins : ∀ k, (slots c n w).ins k → srv.insEdb k = qsrv.insEdb k ∨
    ∃ (j : Nat) (req : Diana.UpdateReq CT), calls[j]? = some ⟨w, .insert req⟩ ∧ req.token = k
  del : ∀ k, (slots c n w).del k → srv.delEdb k = qsrv.delEdb k ∨
    ∃ (j : Nat) (req : Diana.UpdateReq KS), calls[j]? = some ⟨w, .remove req⟩ ∧ req.token = k
  cache : ∀ k, (slots c n w).cache k → srv.cache k = qsrv.cache k

/-- Call `j`, a search of `w`, is under way, and no other call on `w`: it will return what it must. -/
structure Busy (c : Crypto PK KS CT Rand) (n : Nat) (w : Str) (srv qsrv : Server KS CT)
    (calls : List (Call c)) (exp : List (Option (List Index))) (j : Nat) (pc : Pc c) (m : Nat)
    (srv' : Server KS CT) (res : Option (List Index)) : Prop where
  call : calls[j]? = some ⟨w, pc⟩
  notOver : pc.over = false
  notUpdate : pc.isUpdate = false
  only : ∀ (i : Nat) (pc' : Pc c), calls[i]? = some ⟨w, pc'⟩ → pc'.over = false → i = j
  out : exp[j]? = some res
  leads : workN c m (srv, pc) = (srv', .done res)
  agree : Agree (slots c n w) srv' qsrv

/-- One of the two. -/
def KwInv (c : Crypto PK KS CT Rand) (n : Nat) (w : Str) (cl : Client) (srv qsrv : Server KS CT)
    (calls : List (Call c)) (exp : List (Option (List Index))) : Prop :=
  Quiet c n w cl srv qsrv calls ∨
    ∃ j pc m srv' res, Busy c n w srv qsrv calls exp j pc m srv' res

/-- Events on other keywords. -/
theorem kwInv_frame (c : Crypto PK KS CT Rand) {n : Nat} {v : Str} {cl cl1 : Client}
    {srv srv1 qsrv qsrv1 : Server KS CT} {calls calls1 : List (Call c)}
    {exp exp1 : List (Option (List Index))} (h : KwInv c n v cl srv qsrv calls exp)
    (hwithin : ∀ (i : Nat) (pc : Pc c), calls[i]? = some ⟨v, pc⟩ → Within c (slots c n v) pc)
    (hs : Agree (slots c n v) srv srv1) (hq : Agree (slots c n v) qsrv qsrv1)
    (hcalls : ∀ (i : Nat) (pc : Pc c), calls1[i]? = some ⟨v, pc⟩ ↔ calls[i]? = some ⟨v, pc⟩)
    (hsc : searchCounter cl1 v = searchCounter cl v)
    (hic : countOf cl1.insCtr (metaKeyword v (searchCounter cl v)) =
      countOf cl.insCtr (metaKeyword v (searchCounter cl v)))
    (hdc : countOf cl1.delCtr (metaKeyword v (searchCounter cl v)) =
      countOf cl.delCtr (metaKeyword v (searchCounter cl v)))
    (hexp : ∀ (i : Nat) r, exp[i]? = some r → exp1[i]? = some r) :
    KwInv c n v cl1 srv1 qsrv1 calls1 exp1 := by
  rcases h with h | ⟨j, pc, m, srv', res, h⟩
  · left
    refine ⟨?_, ?_, ?_, ?_⟩
    · intro j pc hj ho
      rw [hcalls] at hj
      have hw := hwithin j pc hj
      rw [hsc, hic, hdc]
      rcases h.upd j pc hj ho with ⟨req, a, rfl, h1, h2, h3⟩ | ⟨req, a, rfl, h1, h2, h3⟩
      · exact .inl ⟨req, a, rfl, h1, h2, (hq.ins _ hw).symm.trans h3⟩
      · exact .inr ⟨req, a, rfl, h1, h2, (hq.del _ hw).symm.trans h3⟩
    · intro k hk
      rcases h.ins k hk with h1 | ⟨j, req, h1, h2⟩
      · exact .inl ((hs.ins k hk).symm.trans (h1.trans (hq.ins k hk)))
      · exact .inr ⟨j, req, (hcalls _ _).mpr h1, h2⟩
    · intro k hk
      rcases h.del k hk with h1 | ⟨j, req, h1, h2⟩
      · exact .inl ((hs.del k hk).symm.trans (h1.trans (hq.del k hk)))
      · exact .inr ⟨j, req, (hcalls _ _).mpr h1, h2⟩
    · intro k hk
      exact (hs.cache k hk).symm.trans ((h.cache k hk).trans (hq.cache k hk))
  · right
    obtain ⟨h1, h2⟩ := workN_local c m (hwithin j pc h.call) hs
    rw [h.leads] at h1 h2
    refine ⟨j, pc, m, (workN c m (srv1, pc)).1, res, (hcalls _ _).mpr h.call, h.notOver, h.notUpdate, ?_,
      hexp _ _ h.out, Prod.ext rfl h1.symm, ?_⟩
    · intro i pc' hi ho
      exact h.only i pc' ((hcalls _ _).mp hi) ho
    · exact h2.symm.trans (h.agree.trans hq)

/-! ## The whole invariant -/

/-- After the requests `ops`, of which the sequential execution leads to `q` with the results `exp`. -/
structure Inv (c : Crypto PK KS CT Rand) (K : List Str) (n : Nat) (ops : List (Op Rand)) (s : CSys c)
    (q : Sys KS CT) (exp : List (Option (List Index))) : Prop where
  client : s.client = q.client
  rel : Mixed.Rel c K n ops.length q q
  run : ∃ outs, Janus.run c Sys.init ops = .ok (q, outs)
  callsLen : s.calls.length = ops.length
  expLen : exp.length = ops.length
  outs : ∀ (j : Nat) op, ops[j]? = some op → ∃ q0 outs0 q1 out,
    Janus.run c Sys.init (ops.take j) = .ok (q0, outs0) ∧ Janus.step c q0 op = .ok (q1, out) ∧
    exp[j]? = some out
  kws : ∀ (j : Nat) call, s.calls[j]? = some call →
    call.kw ∈ K ∧ Within c (slots c n call.kw) call.pc
  over : ∀ (j : Nat) call, s.calls[j]? = some call → call.pc.over = true →
    ∃ res, call.pc = .done res ∧ exp[j]? = some res
  upd : ∀ (j : Nat) call, s.calls[j]? = some call → call.pc.isUpdate = true → exp[j]? = some none
  kw : ∀ w ∈ K, KwInv c n w s.client s.server q.server s.calls exp

theorem inv_init (c : Crypto PK KS CT Rand) (K : List Str) (n : Nat) :
    Inv c K n [] (CSys.init c) Sys.init [] := by
  refine ⟨rfl, Mixed.rel_init c K n, ⟨[], rfl⟩, rfl, rfl, ?_, ?_, ?_, ?_, ?_⟩
  · intro j op h; simp at h
  · intro j call h; simp [CSys.init] at h
  · intro j call h; simp [CSys.init] at h
  · intro j call h; simp [CSys.init] at h
  · intro w _
    left
    refine ⟨?_, fun _ _ => .inl rfl, fun _ _ => .inl rfl, fun _ _ => rfl⟩
    intro j call h; simp [CSys.init] at h

/-- The call of a keyword at an index after a change elsewhere. -/
theorem get_set_other {c : Crypto PK KS CT Rand} {calls : List (Call c)} {j : Nat} {x y : Call c}
    (h : calls[j]? = some x) {v : Str} (hx : x.kw ≠ v) (hy : y.kw ≠ v) (i : Nat) (pc : Pc c) :
    (calls.set j y)[i]? = some ⟨v, pc⟩ ↔ calls[i]? = some ⟨v, pc⟩ := by
  rw [List.getElem?_set]
  split
  · rename_i hij
    subst hij
    constructor
    · intro h'
      split at h'
      · obtain rfl := Option.some.inj h'
        exact absurd rfl hy
      · exact absurd h' (by simp)
    · intro h'
      rw [h] at h'
      obtain rfl := Option.some.inj h'
      exact absurd rfl hx
  · exact Iff.rfl

theorem get_set_cases {c : Crypto PK KS CT Rand} {calls : List (Call c)} {j i : Nat} {y z : Call c}
    (h : (calls.set j y)[i]? = some z) : (i = j ∧ z = y) ∨ (i ≠ j ∧ calls[i]? = some z) := by
  rw [List.getElem?_set] at h
  split at h
  · rename_i hij
    split at h
    · exact .inl ⟨hij.symm, (Option.some.inj h).symm⟩
    · exact absurd h (by simp)
  · rename_i hij
    exact .inr ⟨fun e => hij e.symm, h⟩

theorem get_set_ne {c : Crypto PK KS CT Rand} {calls : List (Call c)} {j i : Nat} {y : Call c}
    (h : i ≠ j) : (calls.set j y)[i]? = calls[i]? := by
  rw [List.getElem?_set, if_neg (fun e => h e.symm)]

theorem get_set_self {c : Crypto PK KS CT Rand} {calls : List (Call c)} {j : Nat} {x y : Call c}
    (h : calls[j]? = some x) : (calls.set j y)[j]? = some y := by
  rw [List.getElem?_set, if_pos rfl, if_pos]
  exact (List.getElem?_eq_some_iff.mp h).1

theorem get_append_cases {c : Crypto PK KS CT Rand} {calls : List (Call c)} {i : Nat} {y z : Call c}
    (h : (calls ++ [y])[i]? = some z) : (i = calls.length ∧ z = y) ∨ calls[i]? = some z := by
  rw [List.getElem?_append] at h
  split at h
  · exact .inr h
  · rename_i hi
    have : i - calls.length = 0 := by
      by_contra hne
      rw [List.getElem?_eq_none (by simp only [List.length_singleton]; omega)] at h
      exact absurd h (by simp)
    rw [this] at h
    exact .inl ⟨by omega, (Option.some.inj h).symm⟩

theorem get_append_left {α : Type} {l l' : List α} {i : Nat} {x : α} (h : l[i]? = some x) :
    (l ++ l')[i]? = some x := by
  rw [List.getElem?_append_left (List.getElem?_eq_some_iff.mp h).1]; exact h

theorem get_append_last {α : Type} (l : List α) (x : α) : (l ++ [x])[l.length]? = some x := by
  simp

theorem get_append_other {c : Crypto PK KS CT Rand} {calls : List (Call c)} {y : Call c} {v : Str}
    (hy : y.kw ≠ v) (i : Nat) (pc : Pc c) :
    (calls ++ [y])[i]? = some ⟨v, pc⟩ ↔ calls[i]? = some ⟨v, pc⟩ := by
  constructor
  · intro h
    rcases get_append_cases h with ⟨-, rfl⟩ | h
    · exact absurd rfl hy
    · exact h
  · exact get_append_left

/-! ## Accesses -/

theorem isUpdate_notOver {c : Crypto PK KS CT Rand} {pc : Pc c} (h : pc.isUpdate = true) :
    pc.over = false := by
  cases pc <;> first | rfl | cases h

theorem work_notUpdate (c : Crypto PK KS CT Rand) (srv : Server KS CT) (pc : Pc c) :
    (work c srv pc).2.isUpdate = false := by
  cases pc with
  | insGet req ls acc =>
    cases ls with
    | nil => simp only [work, startDel]; split <;> rfl
    | cons l ls => simp only [work]; split <;> rfl
  | delGet req is ls acc =>
    cases ls with
    | nil => rfl
    | cons l ls => simp only [work]; split <;> rfl
  | cacheGet req is shares => simp only [work]; split <;> rfl
  | _ => rfl

/-- The keyword of the call that works. -/
theorem work_kw (c : Crypto PK KS CT Rand) {n : Nat} {w : Str} {cl : Client} {srv qsrv : Server KS CT}
    {calls : List (Call c)} {exp : List (Option (List Index))} {j : Nat} {pc : Pc c}
    (h : KwInv c n w cl srv qsrv calls exp) (hj : calls[j]? = some ⟨w, pc⟩)
    (hno : pc.over = false) (hupd : pc.isUpdate = true → exp[j]? = some none) :
    KwInv c n w cl (work c srv pc).1 qsrv (calls.set j ⟨w, (work c srv pc).2⟩) exp ∧
    ((work c srv pc).2.over = true → ∃ res, (work c srv pc).2 = .done res ∧ exp[j]? = some res) := by
  rcases h with h | ⟨j', pc', m, srv', res, h⟩
  · rcases h.upd j pc hj hno with ⟨req, a, rfl, h1, h2, h3⟩ | ⟨req, a, rfl, h1, h2, h3⟩
    · refine ⟨.inl ⟨?_, ?_, ?_, h.cache⟩, fun _ => ⟨none, rfl, hupd rfl⟩⟩
      · intro i pc hi ho
        rcases get_set_cases hi with ⟨-, hz⟩ | ⟨-, hi⟩
        · obtain ⟨-, rfl⟩ := Call.mk.inj hz
          exact absurd ho (by simp [work, Pc.over])
        · exact h.upd i pc hi ho
      · intro k hk
        by_cases hkt : k = req.token
        · left
          rw [hkt]
          exact (Map.put_self _ _ _).trans h3.symm
        · rcases h.ins k hk with h4 | ⟨i, req', h4, h5⟩
          · exact .inl ((Map.put_of_ne _ _ hkt).trans h4)
          · right
            refine ⟨i, req', ?_, h5⟩
            rw [get_set_ne]
            · exact h4
            · rintro rfl
              rw [hj] at h4
              obtain ⟨-, h6⟩ := Call.mk.inj (Option.some.inj h4)
              obtain rfl := Pc.insert.inj h6
              exact hkt h5.symm
      · intro k hk
        rcases h.del k hk with h4 | ⟨i, req', h4, h5⟩
        · exact .inl h4
        · right
          refine ⟨i, req', ?_, h5⟩
          rw [get_set_ne]
          · exact h4
          · rintro rfl
            rw [hj] at h4
            obtain ⟨-, h6⟩ := Call.mk.inj (Option.some.inj h4)
            exact absurd h6 (by simp)
    · refine ⟨.inl ⟨?_, ?_, ?_, h.cache⟩, fun _ => ⟨none, rfl, hupd rfl⟩⟩
      · intro i pc hi ho
        rcases get_set_cases hi with ⟨-, hz⟩ | ⟨-, hi⟩
        · obtain ⟨-, rfl⟩ := Call.mk.inj hz
          exact absurd ho (by simp [work, Pc.over])
        · exact h.upd i pc hi ho
      · intro k hk
        rcases h.ins k hk with h4 | ⟨i, req', h4, h5⟩
        · exact .inl h4
        · right
          refine ⟨i, req', ?_, h5⟩
          rw [get_set_ne]
          · exact h4
          · rintro rfl
            rw [hj] at h4
            obtain ⟨-, h6⟩ := Call.mk.inj (Option.some.inj h4)
            exact absurd h6 (by simp)
      · intro k hk
        by_cases hkt : k = req.token
        · left
          rw [hkt]
          exact (Map.put_self _ _ _).trans h3.symm
        · rcases h.del k hk with h4 | ⟨i, req', h4, h5⟩
          · exact .inl ((Map.put_of_ne _ _ hkt).trans h4)
          · right
            refine ⟨i, req', ?_, h5⟩
            rw [get_set_ne]
            · exact h4
            · rintro rfl
              rw [hj] at h4
              obtain ⟨-, h6⟩ := Call.mk.inj (Option.some.inj h4)
              obtain rfl := Pc.remove.inj h6
              exact hkt h5.symm
  · have hjj := h.only j pc hj hno
    subst hjj
    have hpc : pc' = pc := by
      have := h.call
      rw [hj] at this
      exact (Call.mk.inj (Option.some.inj this)).2.symm
    subst hpc
    have hleads : workN c m (work c srv pc') = (srv', .done res) := workN_done c h.leads
    cases ho : (work c srv pc').2.over with
    | true =>
      have hend := workN_over c m (work c srv pc').1 ho
      rw [show ((work c srv pc').1, (work c srv pc').2) = work c srv pc' from rfl, hleads] at hend
      have e1 : srv' = (work c srv pc').1 := congrArg Prod.fst hend
      have e2 : .done res = (work c srv pc').2 := congrArg Prod.snd hend
      refine ⟨.inl ⟨?_, ?_, ?_, ?_⟩, fun _ => ⟨res, e2.symm, h.out⟩⟩
      · intro i pc hi ho'
        rcases get_set_cases hi with ⟨-, hz⟩ | ⟨hne, hi⟩
        · obtain ⟨-, rfl⟩ := Call.mk.inj hz
          exact absurd ho' (by simp [ho])
        · exact absurd (h.only i pc hi ho') hne
      · intro k hk; rw [← e1]; exact .inl (h.agree.ins k hk)
      · intro k hk; rw [← e1]; exact .inl (h.agree.del k hk)
      · intro k hk; rw [← e1]; exact h.agree.cache k hk
    | false =>
      refine ⟨.inr ⟨j, _, m, srv', res, get_set_self hj, ho, work_notUpdate c srv pc', ?_, h.out,
        hleads, h.agree⟩, fun h => absurd h (by simp)⟩
      intro i pc hi ho'
      rcases get_set_cases hi with ⟨h1, -⟩ | ⟨-, hi⟩
      · exact h1
      · exact h.only i pc hi ho'

theorem inv_work (c : Crypto PK KS CT Rand) {K D n} (hn : n + 1 < 2 ^ 32) (hnc : NoCollision c K D n)
    {ops : List (Op Rand)} {s : CSys c} {q : Sys KS CT} {exp : List (Option (List Index))}
    (h : Inv c K n ops s q exp) (j : Nat) : Inv c K n ops (s.exec (.work j)) q exp := by
  simp only [CSys.exec]
  cases hj : s.calls[j]? with
  | none => exact h
  | some call =>
    obtain ⟨w, pc⟩ := call
    obtain ⟨hwK, hwithin⟩ := h.kws j _ hj
    simp only at hwK hwithin ⊢
    cases hno : pc.over with
    | true =>
      rw [work_over c s.server hno]
      have hset : s.calls.set j ⟨w, pc⟩ = s.calls := by
        apply List.ext_getElem?
        intro i
        by_cases hi : i = j
        · subst hi; rw [get_set_self hj, hj]
        · exact get_set_ne hi
      rw [hset]
      exact h
    | false =>
      obtain ⟨h1, h2⟩ := work_kw c (h.kw w hwK) hj hno (fun hu => h.upd j _ hj hu)
      refine ⟨h.client, h.rel, h.run, ?_, h.expLen, h.outs, ?_, ?_, ?_, ?_⟩
      · simp only [List.length_set]; exact h.callsLen
      · intro i call hi
        rcases get_set_cases hi with ⟨-, rfl⟩ | ⟨-, hi⟩
        · exact ⟨hwK, work_within c _ s.server pc hwithin⟩
        · exact h.kws i call hi
      · intro i call hi ho
        rcases get_set_cases hi with ⟨rfl, rfl⟩ | ⟨-, hi⟩
        · exact h2 ho
        · exact h.over i call hi ho
      · intro i call hi hu
        rcases get_set_cases hi with ⟨rfl, rfl⟩ | ⟨-, hi⟩
        · rw [work_notUpdate] at hu; exact absurd hu (by simp)
        · exact h.upd i call hi hu
      · intro v hv
        by_cases hvw : v = w
        · subst hvw; exact h1
        · refine kwInv_frame c (h.kw v hv) (fun i pc hi => (h.kws i _ hi).2)
            (work_frame c (slots_separate c (by omega) hnc hwK hv (fun e => hvw e.symm)) s.server hwithin)
            (Agree.refl _ _) (get_set_other hj (fun e => hvw e.symm) (fun e => hvw e.symm)) rfl rfl rfl
            (fun _ _ h => h)

end Verif.Janus.Conc
