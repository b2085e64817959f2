import Verif.Janus.FaultsMixed
import Verif.Janus.FaultsHonest
import Verif.Janus.MixedLemmas
import Verif.Diana.KindsLemmas

/-! # Lemmas on Janus with searches of all kinds when calls of RocksDB fail -/

set_option linter.unusedSectionVars false

namespace Verif.Janus.Faults.Mixed

open Verif
open Verif.Janus.Mixed (Mode countOf ClientOk clientOk_init addCount_le countOf_remove
  filterCache_perm cache_write)

variable {PK KS CT Rand V : Type}

/-! ## Searches of a Diana instance -/

theorem loop_delete (c : Diana.Crypto Str V) (bad keep : Nat → Bool) (L : List (Nat × Diana.Leaf))
    (edb : Diana.Edb V) :
    Diana.Kinds.searchLoop c (fun p => ⟨bad p, keep p⟩) true edb L = deleteLoop c bad keep edb L := by
  induction L generalizing edb with
  | nil => rfl
  | cons e L ih =>
    obtain ⟨p, leaf⟩ := e
    simp only [Diana.Kinds.searchLoop, Diana.Kinds.getUnmask, deleteLoop, Verif.Faults.get]
    cases hb : bad p
    · cases he : edb (c.token leaf) with
      | none => simp [ih]
      | some v =>
        by_cases hk : keep p = true <;> simp [ih, hk]
    · simp [ih]

theorem loop_keep (c : Diana.Crypto Str V) (bad keep : Nat → Bool) (L : List (Nat × Diana.Leaf))
    (edb : Diana.Edb V) :
    Diana.Kinds.searchLoop c (fun p => ⟨bad p, keep p⟩) false edb L =
      deleteLoop c bad (fun _ => true) edb L := by
  induction L generalizing edb with
  | nil => rfl
  | cons e L ih =>
    obtain ⟨p, leaf⟩ := e
    simp only [Diana.Kinds.searchLoop, Diana.Kinds.getUnmask, deleteLoop, Verif.Faults.get]
    cases hb : bad p
    · cases he : edb (c.token leaf) with
      | none => simp [ih]
      | some v => simp [ih]
    · simp [ih]

theorem search_delete (c : Diana.Crypto Str V) (bad keep : Nat → Bool) (edb : Diana.Edb V)
    (req : Diana.SearchReq c) :
    Diana.Kinds.search c (fun p => ⟨bad p, keep p⟩) edb req true = dianaSearch c edb req bad keep := by
  simp only [Diana.Kinds.search, dianaSearch, loop_delete]

theorem search_keep (c : Diana.Crypto Str V) (bad keep : Nat → Bool) (edb : Diana.Edb V)
    (req : Diana.SearchReq c) :
    Diana.Kinds.search c (fun p => ⟨bad p, keep p⟩) edb req false =
      dianaSearch c edb req bad (fun _ => true) := by
  simp only [Diana.Kinds.search, dianaSearch, loop_keep]

/-- A parallel search gives the same list and leaves the same database as the sequential one. -/
theorem parallel_list (c : Diana.Crypto Str V) (F : Diana.Kinds.Fates) (edb : Diana.Edb V)
    (m : Map Str UInt32) (mk : Str) (threads : UInt8) (ht : threads ≠ 0) (del : Bool)
    (hnc : Diana.RequestNoCollision c mk (Diana.searchRequest c m mk).addCount.toNat)
    {trace : List (Nat × V × Nat)} {edb' : Diana.Edb V}
    (h : Diana.Kinds.Parallel c F edb (Diana.searchRequest c m mk) threads del trace edb') :
    Diana.Kinds.search c F edb (Diana.searchRequest c m mk) del =
      some (Diana.listResult threads trace, edb') := by
  obtain ⟨Ls, s, hj, hrun, hdone, rfl, rfl⟩ := h
  have main : ∃ n, Ls.flatten = Diana.leavesOf c mk n ∧ Ls.length ≤ threads.toNat ∧
      n = (Diana.searchRequest c m mk).addCount.toNat ∧
      Diana.Kinds.search c F edb (Diana.searchRequest c m mk) del =
        some (Diana.Kinds.searchLoop c F del edb (Diana.leavesOf c mk n)) := by
    rcases Diana.searchRequest_cases c m mk with h0 | ⟨n, hn, hn2, ha, hr⟩
    · rw [Diana.jobs, if_pos h0] at hj
      obtain rfl := Option.some.inj hj
      refine ⟨0, by simp [Diana.leavesOf], by simp, by simp [h0], ?_⟩
      rw [Diana.Kinds.search, if_pos h0]
      simp [Diana.leavesOf, Diana.Kinds.searchLoop]
    · obtain ⟨Ls', hj', hf, hl⟩ := Diana.jobs_eq c _ mk n hn hn2 ha hr threads ht
      rw [hj'] at hj
      obtain rfl := Option.some.inj hj
      refine ⟨n, hf, hl, ha.symm, ?_⟩
      have h0 : (Diana.searchRequest c m mk).addCount ≠ 0 := by
        intro h; rw [h] at ha; simp at ha; omega
      rw [Diana.Kinds.search, if_neg h0, hr, c.maxLeaf_constrain _ _ (by omega),
        Diana.evalRange_eq c _ (n - 1) 0 (n - 1) (by omega) (by omega) (by omega)]
      have : n - 1 + 1 - 0 = n := by omega
      rw [this, ← List.range_eq_range']
      rfl
  obtain ⟨n, hf, hl, hn, hs⟩ := main
  have hnd := Diana.allKeys_nodup c mk n (hn ▸ hnc) Ls hf
  obtain ⟨d1, -, d3, d4⟩ := Diana.Kinds.scan_done c F del edb Ls hnd s hrun hdone
  have hlist := Diana.Kinds.splice_eq Ls c F edb s.trace threads hl d1 d4
  have hnd' : ((Diana.leavesOf c mk n).map (fun e => c.token e.2)).Nodup := by
    have := hnd
    rwa [Diana.allKeys, hf] at this
  obtain ⟨e1, e2⟩ := Diana.Kinds.searchLoop_eq c F del (Diana.leavesOf c mk n) edb hnd'
  rw [hs, hlist, hf]
  rw [hf] at d3
  exact congrArg some (Prod.ext e1 (Diana.Kinds.edbAfter_unique c F del edb _ _ _ e2 d3))

/-! ## The client -/

theorem countOf_seen (ok : Bool) (m : Map Str UInt32) (k : Str) :
    countOf (Verif.Faults.seen ok m) k ≤ countOf m k := by
  cases ok <;> simp [countOf, Verif.Faults.seen, Verif.Faults.get]

theorem countOf_increment (ok : Bool) (r : Verif.Faults.PutRes) (m : Map Str UInt32) {t : Nat}
    (ht : t + 1 < 2 ^ 32) (h : ∀ k, countOf m k ≤ t) (mk : Str) :
    ∀ k, countOf (Verif.Faults.getAndIncrement ok r m mk).2.2 k ≤ t + 1 := by
  intro k
  have hk := h k
  have hput : countOf (m.put mk (Counter.nextValue (Verif.Faults.get ok m mk))) k ≤ t + 1 := by
    by_cases he : k = mk
    · subst he
      simp only [countOf, Map.put_self, Counter.nextValue] at hk ⊢
      cases ok with
      | false => simp [Verif.Faults.get]
      | true =>
        cases hm : m k with
        | none => simp [Verif.Faults.get, hm]
        | some v =>
          simp only [hm] at hk
          simp only [Verif.Faults.get, hm, if_true]
          have : (v + 1).toNat = v.toNat + 1 := by
            rw [UInt32.toNat_add]
            show (v.toNat + 1) % 2 ^ 32 = _
            omega
          omega
    · simp only [countOf, Map.put_of_ne _ _ he] at hk ⊢
      exact Nat.le_succ_of_le hk
  cases r
  · exact hput
  · exact Nat.le_succ_of_le hk
  · exact hput

theorem searchCounter_le {t : Nat} {cl : Client} (h : ClientOk t cl) (ok : Bool) (w : Str) :
    (searchCounter ok cl w).toNat ≤ t := by
  cases ok
  · simp [searchCounter]
  · simpa [searchCounter] using h.epoch w

theorem clientOk_insert (c : Crypto PK KS CT Rand) {t : Nat} {cl : Client} (h : ClientOk t cl)
    (ht : t + 1 < 2 ^ 32) (w : Str) (i : Index) (r : Rand) (f : InsertF) :
    ClientOk (t + 1) (insertionRequest c cl w i r f).2 :=
  ⟨fun v => Nat.le_succ_of_le (h.epoch v), countOf_increment _ _ _ ht h.ins _,
    fun k => Nat.le_succ_of_le (h.del k)⟩

theorem clientOk_remove (c : Crypto PK KS CT Rand) {t : Nat} {cl : Client} (h : ClientOk t cl)
    (ht : t + 1 < 2 ^ 32) (w : Str) (i : Index) (f : RemoveF) :
    ClientOk (t + 1) (removalRequest c cl w i f).2 :=
  ⟨fun v => Nat.le_succ_of_le (h.epoch v), fun k => Nat.le_succ_of_le (h.ins k),
    countOf_increment _ _ _ ht h.del _⟩

theorem clientOk_search (c : Crypto PK KS CT Rand) {t : Nat} {cl : Client} (h : ClientOk t cl)
    (ht : t + 1 < 2 ^ 32) (w : Str) (f : SearchF) : ClientOk (t + 1) (searchRequest c cl w f).2 := by
  refine ⟨?_, ?_, ?_⟩
  · intro v
    have hv := h.epoch v
    have hw := searchCounter_le h f.scGet w
    have hb : ∃ b : Bool, (searchRequest c cl w f).2.searchCtr =
        if b then Counter.set cl.searchCtr w (searchCounter f.scGet cl w + 1) else cl.searchCtr :=
      ⟨_, rfl⟩
    obtain ⟨b, hb⟩ := hb
    cases b with
    | false =>
      simp only [Janus.searchCounter, Bool.false_eq_true, if_false] at hb hv ⊢
      rw [hb]
      exact Nat.le_succ_of_le hv
    | true =>
      simp only [if_true] at hb
      by_cases he : v = w
      · subst he
        simp only [Janus.searchCounter, hb, Counter.get, Counter.set, Map.put_self, UInt32.toNat_add]
        show (_ + 1) % 2 ^ 32 ≤ _
        omega
      · simp only [Janus.searchCounter, hb, Counter.get, Counter.set, Map.put_of_ne _ _ he] at hv ⊢
        exact Nat.le_succ_of_le hv
  · intro k
    simp only [searchRequest]
    split
    · exact Nat.le_succ_of_le (countOf_remove _ h.ins _ k)
    · exact Nat.le_succ_of_le (h.ins k)
  · intro k
    simp only [searchRequest]
    split
    · exact Nat.le_succ_of_le (countOf_remove _ h.del _ k)
    · exact Nat.le_succ_of_le (h.del k)

/-- The key shares asked for by a search do not collide. -/
theorem request_noCollision (c : Crypto PK KS CT Rand) {K D n t} (hn : n < 2 ^ 32)
    (hnc : NoCollision c K D n) {cl : Client} (h : ClientOk t cl) (ht : t ≤ n) {w : Str} (hw : w ∈ K)
    (f : SearchF) :
    Diana.RequestNoCollision c.del (metaKeyword w (searchCounter f.scGet cl w))
      (searchRequest c cl w f).1.del.addCount.toNat := by
  have he := searchCounter_le h f.scGet w
  have hd := Nat.le_trans (addCount_le c.del (Verif.Faults.seen f.delGet cl.delCtr)
    (metaKeyword w (searchCounter f.scGet cl w))) (Nat.le_trans (countOf_seen _ _ _) (h.del _))
  intro a b ha hb hab
  simp only [searchRequest] at ha hb
  exact (Crash.token_ne c.del hnc.del hw hw (e := (searchCounter f.scGet cl w).toNat)
    (f := (searchCounter f.scGet cl w).toNat) (by omega) (by omega) hn (by omega) (by omega) hab).2.2

/-! ## The simulation -/

/-- A system with searches of all kinds and one with sequential searches only: the same up to the order
of the cached results. -/
structure Rel (t : Nat) (s q : Sys KS CT) : Prop where
  client : s.client = q.client
  ok : ClientOk t s.client
  ins : s.server.insEdb = q.server.insEdb
  del : s.server.delEdb = q.server.delEdb
  cache : ∀ k, ∃ l l', readCache s.server.cache k = .ok l ∧ readCache q.server.cache k = .ok l' ∧
    l.Perm l'

theorem rel_init : Rel 0 (Sys.init : Sys KS CT) Sys.init :=
  ⟨rfl, clientOk_init, rfl, rfl, fun _ => ⟨[], [], rfl, rfl, .refl _⟩⟩

/-- A search is carried out, from its parts. -/
theorem sequential_parts (c : Crypto PK KS CT Rand) (srv : Server KS CT) (req : SearchReq c)
    (f : SearchF) {l : List (Index × Tag)}
    (hc : (if f.cacheGet then readCache srv.cache req.kwToken else .ok []) = .ok l)
    {shares : List KS} {delEdb : Diana.Edb KS} {insertions : List CT} {insEdb : Diana.Edb CT}
    (h1 : dianaSearch c.del srv.delEdb req.del f.badDel f.keepDel = some (shares, delEdb))
    (h2 : dianaSearch c.ins srv.insEdb req.ins f.badIns f.keepIns = some (insertions, insEdb)) :
    Faults.search c srv req f = .ok
      ((filterCache (shares.map c.ksTag) l).map (·.1) ++
        (decryptAll c (req.firstKeyShare :: shares) insertions).map (·.1),
        ⟨insEdb, delEdb, if f.cachePut then writeCache srv.cache req.kwToken
          (filterCache (shares.map c.ksTag) l ++ decryptAll c (req.firstKeyShare :: shares) insertions)
          else srv.cache⟩) := by
  cases hcg : f.cacheGet with
  | false =>
    simp only [hcg, Bool.false_eq_true, if_false, Except.ok.injEq] at hc
    subst hc
    simp only [Faults.search, h1, h2, hcg, ofOption, bind, Except.bind, pure, Except.pure,
      Bool.false_eq_true, if_false]
  | true =>
    simp only [hcg, if_true] at hc
    simp only [Faults.search, h1, h2, hc, hcg, ofOption, bind, Except.bind, pure, Except.pure, if_true]

theorem after_parts (c : Crypto PK KS CT Rand) (srv : Server KS CT) (req : SearchReq c) (f : SearchF)
    (shares : List KS) {l : List (Index × Tag)}
    (hc : (if f.cacheGet then readCache srv.cache req.kwToken else .ok []) = .ok l)
    {insertions : List CT} {insEdb : Diana.Edb CT}
    (h2 : dianaSearch c.ins srv.insEdb req.ins f.badIns (fun _ => true) = some (insertions, insEdb)) :
    afterShares c srv req f shares = .ok
      ((filterCache (shares.map c.ksTag) l).map (·.1),
        (decryptAll c (req.firstKeyShare :: shares) insertions).map (·.1),
        ⟨insEdb, srv.delEdb, if f.cachePut then writeCache srv.cache req.kwToken
          (decryptAll c (req.firstKeyShare :: shares) insertions ++ filterCache (shares.map c.ksTag) l)
          else srv.cache⟩) := by
  cases hcg : f.cacheGet with
  | false =>
    simp only [hcg, Bool.false_eq_true, if_false, Except.ok.injEq] at hc
    subst hc
    simp only [afterShares, search_keep, h2, hcg, ofOption, bind, Except.bind, pure, Except.pure,
      Bool.false_eq_true, if_false]
  | true =>
    simp only [hcg, if_true] at hc
    simp only [afterShares, search_keep, h2, hc, hcg, ofOption, bind, Except.bind, pure, Except.pure,
      if_true]

theorem step_of_search (c : Crypto PK KS CT Rand) (s : Sys KS CT) (w : Str) (f : SearchF)
    {r : List Index} {srv : Server KS CT}
    (h : Faults.search c s.server (searchRequest c s.client w f).1 f = .ok (r, srv)) :
    Faults.step c s (.search w f : Faults.Op Rand) =
      .ok (⟨(searchRequest c s.client w f).2, srv⟩, .results r) := by
  simp only [Faults.step, h]

/-- The parts of a search that is made for a request of the client always succeed. -/
theorem parts_ok (c : Crypto PK KS CT Rand) (cl : Client) (srv : Server KS CT) (w : Str) (f : SearchF)
    (keep : Nat → Bool) (h : ∀ k, ∃ l, readCache srv.cache k = .ok l) :
    (∃ r, dianaSearch c.ins srv.insEdb (searchRequest c cl w f).1.ins f.badIns keep = some r) ∧
    (∃ r, dianaSearch c.del srv.delEdb (searchRequest c cl w f).1.del f.badDel f.keepDel = some r) ∧
    ∃ l, (if f.cacheGet then readCache srv.cache (searchRequest c cl w f).1.kwToken else .ok []) =
      .ok l := by
  refine ⟨?_, ?_, ?_⟩
  · exact dianaSearch_some c.ins srv.insEdb (Verif.Faults.seen f.insGet cl.insCtr)
      (metaKeyword w (searchCounter f.scGet cl w)) f.badIns keep
  · exact dianaSearch_some c.del srv.delEdb (Verif.Faults.seen f.delGet cl.delCtr)
      (metaKeyword w (searchCounter f.scGet cl w)) f.badDel f.keepDel
  · cases f.cacheGet
    · exact ⟨[], rfl⟩
    · exact h _

/-- A parallel search and the sequential search that keeps the insertions. -/
theorem parallel_sim (c : Crypto PK KS CT Rand) {t : Nat} {cl : Client} {srv srvq srv' : Server KS CT}
    (hr : Rel t ⟨cl, srv⟩ ⟨cl, srvq⟩) (ht : t + 1 < 2 ^ 32) (w : Str) (f : SearchF)
    (hd : Diana.RequestNoCollision c.del (metaKeyword w (searchCounter f.scGet cl w))
      (searchRequest c cl w f).1.del.addCount.toNat)
    (threads : UInt8) (hth : threads ≠ 0) {reported listed : List Index}
    (h : SearchParallelRun c srv (searchRequest c cl w f).1 f threads reported listed srv') :
    ∃ q' resq, Faults.step c ⟨cl, srvq⟩ (.search w { f with keepIns := fun _ => true } : Faults.Op Rand) =
        .ok (q', .results resq) ∧
      Rel (t + 1) ⟨(searchRequest c cl w f).2, srv'⟩ q' ∧ reported.Perm resq ∧ listed.Perm resq := by
  obtain ⟨trace, delEdb, cached, fresh, hpar, hafter, rfl, rfl⟩ := h
  have e1 : (searchRequest c cl w f).1.del = Diana.searchRequest c.del
      (Verif.Faults.seen f.delGet cl.delCtr) (metaKeyword w (searchCounter f.scGet cl w)) := rfl
  have hdel := parallel_list c.del (fun p => ⟨f.badDel p, f.keepDel p⟩) srv.delEdb
    (Verif.Faults.seen f.delGet cl.delCtr) (metaKeyword w (searchCounter f.scGet cl w)) threads hth true
    hd hpar
  rw [← e1, search_delete] at hdel
  have hread : ∀ k, ∃ l, readCache srv.cache k = .ok l := fun k => by
    obtain ⟨l, -, h, -⟩ := hr.cache k
    exact ⟨l, h⟩
  have hreadq : ∀ k, ∃ l, readCache srvq.cache k = .ok l := fun k => by
    obtain ⟨-, l, -, h, -⟩ := hr.cache k
    exact ⟨l, h⟩
  obtain ⟨⟨⟨insertions, insEdb⟩, hins⟩, -, -⟩ := parts_ok c cl srv w f (fun _ => true) hread
  have hcache : ∃ l l', (if f.cacheGet then readCache srv.cache (searchRequest c cl w f).1.kwToken
        else .ok []) = .ok l ∧
      (if f.cacheGet then readCache srvq.cache (searchRequest c cl w f).1.kwToken
        else .ok []) = .ok l' ∧ l.Perm l' := by
    cases f.cacheGet
    · exact ⟨[], [], rfl, rfl, .refl _⟩
    · exact hr.cache _
  obtain ⟨l, l', hl, hl', hp⟩ := hcache
  rw [after_parts c { srv with delEdb := delEdb } _ f _ hl hins] at hafter
  obtain ⟨rfl, h2⟩ := Prod.mk.inj (Except.ok.inj hafter)
  obtain ⟨rfl, rfl⟩ := Prod.mk.inj h2
  have hi := hr.ins
  have hdl := hr.del
  simp only at hi hdl
  rw [hi] at hins
  rw [hdl] at hdel
  have hseq := sequential_parts c srvq (searchRequest c cl w f).1 { f with keepIns := fun _ => true }
    hl' hdel hins
  have hq := filterCache_perm (List.map c.ksTag (Diana.listResult threads trace)) hp
  refine ⟨_, _, step_of_search c ⟨cl, srvq⟩ w { f with keepIns := fun _ => true } hseq,
    ⟨rfl, clientOk_search c hr.ok ht w f, rfl, rfl, ?_⟩, ?_, ?_⟩
  · cases f.cachePut
    · exact hr.cache
    · exact cache_write (List.perm_append_comm.trans (hq.append (.refl _))) hr.cache
  · exact (hq.map _).append (.refl _)
  · exact List.perm_append_comm.trans ((hq.map _).append (.refl _))

theorem step_sim (c : Crypto PK KS CT Rand) {K D n t} (hn : n + 1 < 2 ^ 32)
    (hnc : NoCollision c K D n) {s q : Sys KS CT} (hr : Rel t s q) (ht : t + 1 ≤ n)
    {op : Op Rand} (hok : op.ok = true) (hK : Faults.Spec.Op.kw op.plain ∈ K) {s' : Sys KS CT}
    {out : Out} (hs : Step c s op s' out) :
    ∃ q' outq, Faults.step c q op.plain = .ok (q', outq) ∧ Rel (t + 1) s' q' ∧ Same out outq := by
  obtain ⟨cl, srv⟩ := s
  obtain ⟨clq, srvq⟩ := q
  obtain rfl : cl = clq := hr.client
  cases hs with
  | insert w i r f s' out hst =>
    have hcl := clientOk_insert c hr.ok (by omega) w i r f
    simp only [Faults.step, Op.plain] at hst ⊢
    revert hst hcl
    generalize insertionRequest c cl w i r f = x
    obtain ⟨x1, x2⟩ := x
    intro hcl hst
    cases x1 with
    | none =>
      obtain ⟨rfl, rfl⟩ := Prod.mk.inj (Except.ok.inj hst)
      exact ⟨_, _, rfl, ⟨rfl, hcl, hr.ins, hr.del, hr.cache⟩, trivial⟩
    | some req =>
      obtain ⟨rfl, rfl⟩ := Prod.mk.inj (Except.ok.inj hst)
      refine ⟨_, _, rfl, ⟨rfl, hcl, ?_, ?_, ?_⟩, trivial⟩
      · cases f.srvPut
        · exact hr.ins
        · exact congrArg (fun d => Diana.serverInsert d req) hr.ins
      · cases f.srvPut <;> exact hr.del
      · cases f.srvPut <;> exact hr.cache
  | remove w i f s' out hst =>
    have hcl := clientOk_remove c hr.ok (by omega) w i f
    simp only [Faults.step, Op.plain] at hst ⊢
    revert hst hcl
    generalize removalRequest c cl w i f = x
    obtain ⟨x1, x2⟩ := x
    intro hcl hst
    cases x1 with
    | none =>
      obtain ⟨rfl, rfl⟩ := Prod.mk.inj (Except.ok.inj hst)
      exact ⟨_, _, rfl, ⟨rfl, hcl, hr.ins, hr.del, hr.cache⟩, trivial⟩
    | some req =>
      obtain ⟨rfl, rfl⟩ := Prod.mk.inj (Except.ok.inj hst)
      refine ⟨_, _, rfl, ⟨rfl, hcl, ?_, ?_, ?_⟩, trivial⟩
      · cases f.srvPut <;> exact hr.ins
      · cases f.srvPut
        · exact hr.del
        · exact congrArg (fun d => Diana.serverInsert d req) hr.del
      · cases f.srvPut <;> exact hr.cache
  | search w mode f res srv' hsrv =>
    have hw : w ∈ K := by
      cases mode <;> exact hK
    have hd := request_noCollision c (by omega) hnc hr.ok (by omega) hw f
    cases mode with
    | sequential =>
      have hread : ∀ k, ∃ l, readCache srv.cache k = .ok l := fun k => by
        obtain ⟨l, -, h, -⟩ := hr.cache k
        exact ⟨l, h⟩
      obtain ⟨⟨⟨insertions, insEdb⟩, hins⟩, ⟨⟨shares, delEdb⟩, hdel⟩, -⟩ :=
        parts_ok c cl srv w f f.keepIns hread
      have hcache : ∃ l l', (if f.cacheGet then readCache srv.cache (searchRequest c cl w f).1.kwToken
            else .ok []) = .ok l ∧
          (if f.cacheGet then readCache srvq.cache (searchRequest c cl w f).1.kwToken
            else .ok []) = .ok l' ∧ l.Perm l' := by
        cases f.cacheGet
        · exact ⟨[], [], rfl, rfl, .refl _⟩
        · exact hr.cache _
      obtain ⟨l, l', hl, hl', hp⟩ := hcache
      have h1 := sequential_parts c srv _ f hl hdel hins
      have hi := hr.ins
      have hdl := hr.del
      simp only at hi hdl
      rw [hi] at hins
      rw [hdl] at hdel
      have h2 := sequential_parts c srvq _ f hl' hdel hins
      have hsrv : Faults.search c srv (searchRequest c cl w f).1 f = .ok (res, srv') := hsrv
      rw [hsrv] at h1
      obtain ⟨rfl, rfl⟩ := Prod.mk.inj (Except.ok.inj h1)
      have hq := filterCache_perm (List.map c.ksTag shares) hp
      refine ⟨_, _, step_of_search c ⟨cl, srvq⟩ w f h2,
        ⟨rfl, clientOk_search c hr.ok (by omega) w f, rfl, rfl, ?_⟩, ?_⟩
      · cases f.cachePut
        · exact hr.cache
        · exact cache_write (hq.append (.refl _)) hr.cache
      · exact (hq.map _).append (.refl _)
    | parallelList t' =>
      obtain ⟨reported, hrun⟩ := hsrv
      obtain ⟨q', resq, a1, a2, -, a4⟩ := parallel_sim c hr (by omega) w f hd t'
        (by simpa [Op.ok, Mode.ok] using hok) hrun
      exact ⟨q', _, a1, a2, a4⟩
    | parallelCallback t' =>
      obtain ⟨listed, hrun⟩ := hsrv
      obtain ⟨q', resq, a1, a2, a3, -⟩ := parallel_sim c hr (by omega) w f hd t'
        (by simpa [Op.ok, Mode.ok] using hok) hrun
      exact ⟨q', _, a1, a2, a3⟩

theorem run_sim (c : Crypto PK KS CT Rand) {K D n} (hn : n + 1 < 2 ^ 32)
    (hnc : NoCollision c K D n) {ops : List (Op Rand)} {s s' : Sys KS CT} {outs : List Out}
    (hrun : Run c s ops s' outs) :
    ∀ {t : Nat} {q : Sys KS CT}, Rel t s q → t + ops.length ≤ n →
    (∀ op ∈ ops, op.ok = true) → (∀ op ∈ ops, Faults.Spec.Op.kw op.plain ∈ K) →
    ∃ q' outs', Faults.run c q (ops.map Op.plain) = .ok (q', outs') ∧ List.Forall₂ Same outs outs' := by
  induction hrun with
  | nil s =>
    intro t q _ _ _ _
    exact ⟨q, [], rfl, .nil⟩
  | @cons s s1 s2 op ops out outs hstep hrest ih =>
    intro t q hr hlen hok hK
    simp only [List.length_cons] at hlen
    obtain ⟨q1, outq, a1, a2, a3⟩ := step_sim c hn hnc hr (by omega) (hok op (by simp))
      (hK op (by simp)) hstep
    obtain ⟨q2, outs', b2, b3⟩ := ih a2 (by omega) (fun o ho => hok o (by simp [ho]))
      (fun o ho => hK o (by simp [ho]))
    exact ⟨q2, outq :: outs', by simp only [List.map_cons, Faults.run, a1, b2], .cons a3 b3⟩

/-! ## Every operation can be carried out -/

theorem readable_write {m : Map (Vector UInt8 16) (List UInt8)} (h : ∀ k, ∃ l, readCache m k = .ok l)
    (b : Bool) (k : Vector UInt8 16) (a : List (Index × Tag)) :
    ∀ k', ∃ l, readCache (if b then writeCache m k a else m) k' = .ok l := by
  intro k'
  cases b
  · exact h k'
  · by_cases hk : k' = k
    · subst hk; exact ⟨a, readCache_writeCache _ _ _⟩
    · simp only [if_true]
      rw [readCache_writeCache_ne _ _ hk]; exact h k'

theorem step_exists (c : Crypto PK KS CT Rand) (s : Sys KS CT)
    (h : ∀ k, ∃ l, readCache s.server.cache k = .ok l) (op : Op Rand) (hok : op.ok = true) :
    ∃ s' out, Step c s op s' out ∧ ∀ k, ∃ l, readCache s'.server.cache k = .ok l := by
  cases op with
  | insert w i r f =>
    obtain ⟨s', out, h1, h2⟩ := step_ok c s h (.insert w i r f)
    exact ⟨s', out, .insert w i r f s' out h1, h2⟩
  | remove w i f =>
    obtain ⟨s', out, h1, h2⟩ := step_ok c s h (.remove w i f)
    exact ⟨s', out, .remove w i f s' out h1, h2⟩
  | search w mode f =>
    have hpar : ∀ threads : UInt8, threads ≠ 0 → ∃ reported listed srv',
        SearchParallelRun c s.server (searchRequest c s.client w f).1 f threads reported listed srv' ∧
        ∀ k, ∃ l, readCache srv'.cache k = .ok l := by
      intro threads hth
      obtain ⟨⟨⟨insertions, insEdb⟩, hins⟩, -, ⟨l, hl⟩⟩ :=
        parts_ok c s.client s.server w f (fun _ => true) h
      obtain ⟨trace, delEdb, hp⟩ := Diana.Kinds.parallel_ends c.del
        (fun p => ⟨f.badDel p, f.keepDel p⟩) s.server.delEdb
        (Verif.Faults.seen f.delGet s.client.delCtr) (metaKeyword w (searchCounter f.scGet s.client w))
        threads hth true
      refine ⟨_, _, _, ⟨trace, delEdb, _, _, hp,
        after_parts c { s.server with delEdb := delEdb } _ f _ hl hins, rfl, rfl⟩, ?_⟩
      exact readable_write h f.cachePut _ _
    cases mode with
    | sequential =>
      obtain ⟨⟨⟨insertions, insEdb⟩, hins⟩, ⟨⟨shares, delEdb⟩, hdel⟩, ⟨l, hl⟩⟩ :=
        parts_ok c s.client s.server w f f.keepIns h
      exact ⟨_, _, .search w .sequential f _ _ (sequential_parts c _ _ f hl hdel hins),
        readable_write h f.cachePut _ _⟩
    | parallelList t =>
      obtain ⟨a, b, srv', h1, h2⟩ := hpar t (by simpa [Op.ok, Mode.ok] using hok)
      exact ⟨_, _, .search w (.parallelList t) f b srv' ⟨a, h1⟩, h2⟩
    | parallelCallback t =>
      obtain ⟨a, b, srv', h1, h2⟩ := hpar t (by simpa [Op.ok, Mode.ok] using hok)
      exact ⟨_, _, .search w (.parallelCallback t) f a srv' ⟨b, h1⟩, h2⟩

theorem run_exists (c : Crypto PK KS CT Rand) (ops : List (Op Rand)) (hok : ∀ op ∈ ops, op.ok = true)
    (s : Sys KS CT) (h : ∀ k, ∃ l, readCache s.server.cache k = .ok l) :
    ∃ s' outs, Run c s ops s' outs := by
  induction ops generalizing s with
  | nil => exact ⟨_, _, .nil s⟩
  | cons op ops ih =>
    obtain ⟨s1, out, h1, h2⟩ := step_exists c s h op (hok op (by simp))
    obtain ⟨s2, outs, h3⟩ := ih (fun o ho => hok o (by simp [ho])) s1 h2
    exact ⟨s2, _, .cons h1 h3⟩

theorem readable_run (c : Crypto PK KS CT Rand) {ops : List (Op Rand)} {s s' : Sys KS CT}
    {outs : List Out} (hrun : Run c s ops s' outs)
    (h : ∀ k, ∃ l, readCache s.server.cache k = .ok l) :
    ∀ k, ∃ l, readCache s'.server.cache k = .ok l := by
  induction hrun with
  | nil s => exact h
  | @cons s s1 s2 op ops out outs hstep hrest ih =>
    apply ih
    cases hstep with
    | insert w i r f s' out h1 =>
      obtain ⟨s', out, h2, h3⟩ := step_ok c s h (.insert w i r f)
      rw [h2] at h1
      obtain ⟨rfl, -⟩ := Prod.mk.inj (Except.ok.inj h1)
      exact h3
    | remove w i f s' out h1 =>
      obtain ⟨s', out, h2, h3⟩ := step_ok c s h (.remove w i f)
      rw [h2] at h1
      obtain ⟨rfl, -⟩ := Prod.mk.inj (Except.ok.inj h1)
      exact h3
    | search w mode f res srv' hsrv =>
      have hpar : ∀ threads reported listed,
          SearchParallelRun c s.server (searchRequest c s.client w f).1 f threads reported listed srv' →
          ∀ k, ∃ l, readCache srv'.cache k = .ok l := by
        rintro threads reported listed ⟨trace, delEdb, cached, fresh, -, hafter, -, -⟩
        obtain ⟨⟨⟨insertions, insEdb⟩, hins⟩, -, ⟨l, hl⟩⟩ :=
          parts_ok c s.client s.server w f (fun _ => true) h
        rw [after_parts c { s.server with delEdb := delEdb } _ f _ hl hins] at hafter
        obtain ⟨-, h2⟩ := Prod.mk.inj (Except.ok.inj hafter)
        obtain ⟨-, rfl⟩ := Prod.mk.inj h2
        exact readable_write h f.cachePut _ _
      cases mode with
      | sequential =>
        obtain ⟨⟨⟨insertions, insEdb⟩, hins⟩, ⟨⟨shares, delEdb⟩, hdel⟩, ⟨l, hl⟩⟩ :=
          parts_ok c s.client s.server w f f.keepIns h
        have h1 := sequential_parts c _ _ f hl hdel hins
        have hsrv : Faults.search c s.server (searchRequest c s.client w f).1 f = .ok (res, srv') := hsrv
        rw [hsrv] at h1
        obtain ⟨-, rfl⟩ := Prod.mk.inj (Except.ok.inj h1)
        exact readable_write h f.cachePut _ _
      | parallelList t =>
        obtain ⟨a, hrun⟩ := hsrv
        exact hpar _ _ _ hrun
      | parallelCallback t =>
        obtain ⟨a, hrun⟩ := hsrv
        exact hpar _ _ _ hrun

/-! ## Observations up to the order of the results -/

theorem honest_same (ops : List (Op Rand)) (S : Janus.Spec.Store) (outs outs' : List Out)
    (h : List.Forall₂ Same outs outs') (hh : Faults.Spec.Honest S (ops.map Op.plain) outs') :
    Spec.Honest S ops outs := by
  induction ops generalizing S outs outs' with
  | nil =>
    cases h with
    | nil => trivial
    | cons _ _ => exact hh.elim
  | cons op ops ih =>
    cases h with
    | nil => cases op with
      | search w m f => cases m <;> exact hh.elim
      | _ => exact hh.elim
    | @cons o o' outs outs' h1 h2 =>
      cases op with
      | insert w i r f =>
        cases o <;> cases o' <;> first | exact h1.elim | exact hh.elim | exact ih _ _ _ h2 hh
      | remove w i f =>
        cases o <;> cases o' <;> first | exact h1.elim | exact hh.elim | exact ih _ _ _ h2 hh
      | search w m f =>
        have hh : Faults.Spec.Honest S (.search w { f with keepIns := (Op.plain (.search w m f :
            Op Rand)) |> fun | .search _ g => g.keepIns | _ => f.keepIns } :: ops.map Op.plain)
            (o' :: outs') := by
          cases m <;> exact hh
        cases o <;> cases o' <;> first
          | exact h1.elim
          | exact hh.elim
          | exact ⟨(show List.Perm _ _ from h1).trans (.of_eq hh.1), ih _ _ _ h2 hh.2⟩

theorem tolerable_plain (op : Op Rand) (h : Spec.tolerable op) : Faults.Spec.tolerable op.plain := by
  cases op with
  | insert w i r f => exact h
  | remove w i f => exact h
  | search w m f =>
    obtain ⟨h1, h2, h3, h4, h5, h6, h7, h8⟩ := h
    cases m with
    | sequential =>
      refine ⟨h1, h2, h3, h4, h5, h6, h7, ?_⟩
      rcases h8 with h8 | ⟨-, h8⟩
      · exact Or.inl h8
      · exact Or.inr h8
    | parallelList t =>
      refine ⟨h1, h2, h3, h4, h5, h6, h7, ?_⟩
      rcases h8 with h8 | ⟨h8, -⟩
      · exact Or.inl h8
      · exact absurd h8 (by simp)
    | parallelCallback t =>
      refine ⟨h1, h2, h3, h4, h5, h6, h7, ?_⟩
      rcases h8 with h8 | ⟨h8, -⟩
      · exact Or.inl h8
      · exact absurd h8 (by simp)

theorem counted_plain (ops : List (Op Rand)) :
    (ops.map Op.plain).flatMap Faults.Spec.counted = ops.flatMap Spec.counted := by
  rw [List.flatMap_map]
  congr 1
  funext op
  cases op with
  | search w m f => cases m <;> rfl
  | _ => rfl

end Verif.Janus.Faults.Mixed
