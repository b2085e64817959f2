import Verif.Janus.Mixed
import Verif.Janus.CrashLemmas
import Verif.Janus.Props

/-! # Lemmas on Janus with sequential and parallel searches -/

set_option linter.unusedSectionVars false

namespace Verif.Janus.Mixed

open Verif

variable {PK KS CT Rand V : Type}

/-! ## Sequential runs -/

/-- All searches are sequential. -/
def sequentially : Janus.Op Rand → Op Rand
  | .insert w i r => .insert w i r
  | .remove w i => .remove w i
  | .search w => .search w .sequential

theorem step_sequentially (c : Crypto PK KS CT Rand) {s s' : Sys KS CT} {op : Janus.Op Rand}
    {out : Option (List Index)} (h : Janus.step c s op = .ok (s', out)) :
    Step c s (sequentially op) s' out := by
  cases op with
  | insert w i r =>
    obtain ⟨rfl, rfl⟩ := Prod.mk.inj (Except.ok.inj h)
    exact .insert w i r
  | remove w i =>
    obtain ⟨rfl, rfl⟩ := Prod.mk.inj (Except.ok.inj h)
    exact .remove w i
  | search w =>
    simp only [Janus.step] at h
    cases hs : Janus.search c s.server (searchRequest c s.client w).1 with
    | error e => rw [hs] at h; exact absurd h (by simp)
    | ok p =>
      rw [hs] at h
      obtain ⟨rfl, rfl⟩ := Prod.mk.inj (Except.ok.inj h)
      exact .search w .sequential p.1 p.2 hs

theorem run_sequentially (c : Crypto PK KS CT Rand) (ops : List (Janus.Op Rand)) {s s' : Sys KS CT}
    {outs : List (List Index)} (h : Janus.run c s ops = .ok (s', outs)) :
    Run c s (ops.map sequentially) s' outs := by
  induction ops generalizing s outs with
  | nil =>
    obtain ⟨rfl, rfl⟩ := Prod.mk.inj (Except.ok.inj h)
    exact .nil s
  | cons op ops ih =>
    simp only [Janus.run] at h
    cases hs : Janus.step c s op with
    | error e => rw [hs] at h; exact absurd h (by simp)
    | ok p =>
      obtain ⟨s1, out⟩ := p
      cases hr : Janus.run c s1 ops with
      | error e => simp [hs, hr] at h
      | ok q =>
        obtain ⟨s2, outs2⟩ := q
        simp only [hs, hr, Except.ok.injEq, Prod.mk.injEq] at h
        obtain ⟨rfl, rfl⟩ := h
        exact .cons (step_sequentially c hs) (ih hr)

theorem run_append (c : Crypto PK KS CT Rand) {s s1 s2 : Sys KS CT} {ops ops' : List (Op Rand)}
    {outs outs' : List (List Index)} (h : Run c s ops s1 outs) (h' : Run c s1 ops' s2 outs') :
    Run c s (ops ++ ops') s2 (outs ++ outs') := by
  induction h with
  | nil s => exact h'
  | cons hs _ ih =>
    rw [List.cons_append, List.append_assoc]
    exact .cons hs (ih h')

/-! ## Searches of a Diana instance -/

/-- A search, deleting or not. -/
theorem diana_search_eq (c : Diana.Crypto Str V) (edb : Diana.Edb V) (m : Map Str UInt32) (mk : Str)
    (hnc : Diana.RequestNoCollision c mk (Diana.searchRequest c m mk).addCount.toNat) (del : Bool) :
    ∃ edb', Diana.search c edb (Diana.searchRequest c m mk) del =
        some ((Diana.leavesOf c mk (Diana.searchRequest c m mk).addCount.toNat).filterMap
          (fun e => Diana.lookup c edb e.2), edb') ∧
      ∀ k, edb' k = if del = true ∧ ∃ a, a < (Diana.searchRequest c m mk).addCount.toNat ∧
        k = Diana.updateToken c mk a then none else edb k := by
  rcases Diana.searchRequest_cases c m mk with h0 | ⟨n, hn, hn2, ha, hr⟩
  · refine ⟨edb, ?_, ?_⟩
    · rw [Diana.search, if_pos h0, h0]; simp [Diana.leavesOf]
    · intro k; rw [h0]; simp
  · rw [Diana.search_leaves c edb _ mk n hn hn2 ha hr, ha]
    rw [ha] at hnc
    cases del with
    | false =>
      rw [Diana.searchLoop_keep]
      exact ⟨edb, rfl, by simp⟩
    | true =>
      have hnd : ((Diana.leavesOf c mk n).map (fun e => c.token e.2)).Nodup := by
        rw [Diana.tokens_leavesOf]
        apply List.Nodup.map_on _ List.nodup_range
        intro a h1 b h2 hab
        exact hnc a b (List.mem_range.mp h1) (List.mem_range.mp h2) hab
      obtain ⟨h1, h2⟩ := Diana.searchLoop_delete c edb _ hnd
      refine ⟨_, congrArg some (Prod.ext h1 rfl), ?_⟩
      intro k
      have hiff : k ∈ (Diana.leavesOf c mk n).map (fun e => c.token e.2) ↔
          (true = true ∧ ∃ a, a < n ∧ k = Diana.updateToken c mk a) := by
        rw [Diana.tokens_leavesOf]
        simp only [List.mem_map, List.mem_range, true_and]
        exact ⟨fun ⟨a, x, y⟩ => ⟨a, x, y.symm⟩, fun ⟨a, x, y⟩ => ⟨a, x, y.symm⟩⟩
      refine (h2 k).trans ?_
      by_cases hk : k ∈ (Diana.leavesOf c mk n).map (fun e => c.token e.2)
      · rw [if_pos hk, if_pos (hiff.mp hk)]
      · rw [if_neg hk, if_neg (fun h => hk (hiff.mpr h))]

theorem ins_search_eq (c : Crypto PK KS CT Rand) (edb : Diana.Edb CT) (cl : Client) (w : Str)
    (hnc : Diana.RequestNoCollision c.ins (metaKeyword w (searchCounter cl w))
      (searchRequest c cl w).1.ins.addCount.toNat) (del : Bool) :
    ∃ edb', Diana.search c.ins edb (searchRequest c cl w).1.ins del =
        some ((Diana.leavesOf c.ins (metaKeyword w (searchCounter cl w))
          (searchRequest c cl w).1.ins.addCount.toNat).filterMap
          (fun e => Diana.lookup c.ins edb e.2), edb') ∧
      ∀ k, edb' k = if del = true ∧ ∃ a, a < (searchRequest c cl w).1.ins.addCount.toNat ∧
        k = Diana.updateToken c.ins (metaKeyword w (searchCounter cl w)) a then none else edb k :=
  diana_search_eq c.ins edb cl.insCtr _ hnc del

theorem del_search_eq (c : Crypto PK KS CT Rand) (edb : Diana.Edb KS) (cl : Client) (w : Str)
    (hnc : Diana.RequestNoCollision c.del (metaKeyword w (searchCounter cl w))
      (searchRequest c cl w).1.del.addCount.toNat) :
    ∃ edb', Diana.search c.del edb (searchRequest c cl w).1.del true =
        some ((Diana.leavesOf c.del (metaKeyword w (searchCounter cl w))
          (searchRequest c cl w).1.del.addCount.toNat).filterMap
          (fun e => Diana.lookup c.del edb e.2), edb') := by
  obtain ⟨edb', h, -⟩ := diana_search_eq c.del edb cl.delCtr _ hnc true
  exact ⟨edb', h⟩

/-! ## The client -/

/-- The value of a counter, 0 if missing. -/
def countOf (m : Map Str UInt32) (k : Str) : Nat :=
  match m k with
  | none => 0
  | some v => v.toNat + 1

/-- After `t` operations no counter exceeds `t`. -/
structure ClientOk (t : Nat) (cl : Client) : Prop where
  epoch : ∀ w, (searchCounter cl w).toNat ≤ t
  ins : ∀ k, countOf cl.insCtr k ≤ t
  del : ∀ k, countOf cl.delCtr k ≤ t

theorem clientOk_init : ClientOk 0 (Sys.init : Sys KS CT).client :=
  ⟨fun _ => Nat.le_refl _, fun _ => Nat.le_refl _, fun _ => Nat.le_refl _⟩

theorem addCount_le (c : Diana.Crypto Str V) (m : Map Str UInt32) (k : Str) :
    (Diana.searchRequest c m k).addCount.toNat ≤ countOf m k := by
  unfold Diana.searchRequest countOf Counter.get
  cases m k with
  | none => simp
  | some v =>
    simp only [UInt32.toNat_add]
    exact Nat.mod_le _ _

theorem countOf_increment (m : Map Str UInt32) {t : Nat} (ht : t + 1 < 2 ^ 32)
    (h : ∀ k, countOf m k ≤ t) (mk : Str) :
    ∀ k, countOf (Counter.getAndIncrement m mk).2 k ≤ t + 1 := by
  intro k
  have hk := h k
  have hmk := h mk
  by_cases he : k = mk
  · subst he
    simp only [countOf, Counter.getAndIncrement, Map.put_self, Counter.nextValue, Counter.get] at hk ⊢
    cases hm : m k with
    | none => simp
    | some v =>
      simp only [hm] at hk ⊢
      have : (v + 1).toNat = v.toNat + 1 := by
        rw [UInt32.toNat_add]
        show (v.toNat + 1) % 2 ^ 32 = _
        omega
      omega
  · simp only [countOf, Counter.getAndIncrement, Map.put_of_ne _ _ he] at hk ⊢
    exact Nat.le_succ_of_le hk

theorem countOf_remove (m : Map Str UInt32) {t : Nat} (h : ∀ k, countOf m k ≤ t) (mk : Str) :
    ∀ k, countOf (Diana.removeKeyword m mk) k ≤ t := by
  intro k
  have hk := h k
  by_cases he : k = mk
  · subst he
    simp [countOf, Diana.removeKeyword, Counter.removeKey]
  · simpa [countOf, Diana.removeKeyword, Counter.removeKey, Map.erase_of_ne _ he] using hk

theorem clientOk_insert (c : Crypto PK KS CT Rand) {t : Nat} {cl : Client} (h : ClientOk t cl)
    (ht : t + 1 < 2 ^ 32) (w : Str) (i : Index) (r : Rand) :
    ClientOk (t + 1) (insertionRequest c cl w i r).2 :=
  ⟨fun v => Nat.le_succ_of_le (h.epoch v), countOf_increment _ ht h.ins _,
    fun k => Nat.le_succ_of_le (h.del k)⟩

theorem clientOk_remove (c : Crypto PK KS CT Rand) {t : Nat} {cl : Client} (h : ClientOk t cl)
    (ht : t + 1 < 2 ^ 32) (w : Str) (i : Index) :
    ClientOk (t + 1) (removalRequest c cl w i).2 :=
  ⟨fun v => Nat.le_succ_of_le (h.epoch v), fun k => Nat.le_succ_of_le (h.ins k),
    countOf_increment _ ht h.del _⟩

/-- The epoch after a search. -/
theorem searchCounter_search (c : Crypto PK KS CT Rand) {t : Nat} {cl : Client} (h : ClientOk t cl)
    (ht : t + 1 < 2 ^ 32) (w : Str) :
    (∀ v, v ≠ w → searchCounter (searchRequest c cl w).2 v = searchCounter cl v) ∧
    (searchCounter (searchRequest c cl w).2 w).toNat =
      if 0 < (searchRequest c cl w).1.ins.addCount.toNat ∨
          0 < (searchRequest c cl w).1.del.addCount.toNat
      then (searchCounter cl w).toNat + 1 else (searchCounter cl w).toNat := by
  have hgt : ∀ x : UInt32, x > 0 ↔ 0 < x.toNat := fun x => by
    rw [gt_iff_lt, UInt32.lt_iff_toNat_lt]; rfl
  constructor
  · intro v hv
    have hif : (searchRequest c cl w).2.searchCtr v = cl.searchCtr v := by
      simp only [searchRequest]
      split
      · exact Map.put_of_ne _ _ hv
      · rfl
    simp only [searchCounter, Counter.get, hif]
  · have he := h.epoch w
    by_cases hp : 0 < (searchRequest c cl w).1.ins.addCount.toNat ∨
          0 < (searchRequest c cl w).1.del.addCount.toNat
    · rw [if_pos hp]
      simp only [searchRequest] at hp
      conv => lhs; simp only [searchRequest]
      rw [if_pos (by simpa only [Bool.or_eq_true, decide_eq_true_iff, hgt] using hp)]
      simp only [searchCounter, Counter.get, Counter.set, Map.put_self] at he ⊢
      rw [UInt32.toNat_add]
      show (_ + 1) % 2 ^ 32 = _
      omega
    · rw [if_neg hp]
      simp only [searchRequest] at hp
      conv => lhs; simp only [searchRequest]
      rw [if_neg (by simpa only [Bool.or_eq_true, decide_eq_true_iff, hgt] using hp)]
      rfl

theorem clientOk_search (c : Crypto PK KS CT Rand) {t : Nat} {cl : Client} (h : ClientOk t cl)
    (ht : t + 1 < 2 ^ 32) (w : Str) : ClientOk (t + 1) (searchRequest c cl w).2 := by
  obtain ⟨h1, h2⟩ := searchCounter_search c h ht w
  refine ⟨?_, ?_, ?_⟩
  · intro v
    by_cases hv : v = w
    · subst hv
      have := h.epoch v
      rw [h2]
      split <;> omega
    · rw [h1 v hv]; exact Nat.le_succ_of_le (h.epoch v)
  · intro k
    simp only [searchRequest]
    split
    · exact Nat.le_succ_of_le (countOf_remove _ h.ins _ k)
    · exact Nat.le_succ_of_le (h.ins k)
  · intro k
    simp only [searchRequest]
    split
    · exact Nat.le_succ_of_le (countOf_remove _ h.del _ k)
    · exact Nat.le_succ_of_le (h.del k)

/-! ## The simulation -/

/-- A system with searches of all kinds and one with sequential searches only, after `t` operations:
the same up to the order of the cached results and to the insertions of past epochs. -/
structure Rel (c : Crypto PK KS CT Rand) (K : List Str) (n t : Nat) (s q : Sys KS CT) : Prop where
  client : s.client = q.client
  ok : ClientOk t s.client
  ins : ∀ w ∈ K, ∀ e, (searchCounter s.client w).toNat ≤ e → e ≤ n → ∀ a, a < n →
    s.server.insEdb (Diana.updateToken c.ins (metaNat w e) a) =
      q.server.insEdb (Diana.updateToken c.ins (metaNat w e) a)
  del : s.server.delEdb = q.server.delEdb
  cache : ∀ k, ∃ l l', readCache s.server.cache k = .ok l ∧ readCache q.server.cache k = .ok l' ∧
    l.Perm l'

theorem rel_init (c : Crypto PK KS CT Rand) (K : List Str) (n : Nat) :
    Rel c K n 0 Sys.init Sys.init :=
  ⟨rfl, clientOk_init, fun _ _ _ _ _ _ _ => rfl, rfl, fun _ => ⟨[], [], rfl, rfl, .refl _⟩⟩

/-- The requests of a search do not collide. -/
theorem request_noCollision (c : Crypto PK KS CT Rand) {K D n t} (hn : n < 2 ^ 32)
    (hnc : NoCollision c K D n) {cl : Client} (h : ClientOk t cl) (ht : t ≤ n) {w : Str} (hw : w ∈ K) :
    Diana.RequestNoCollision c.ins (metaKeyword w (searchCounter cl w))
      (searchRequest c cl w).1.ins.addCount.toNat ∧
    Diana.RequestNoCollision c.del (metaKeyword w (searchCounter cl w))
      (searchRequest c cl w).1.del.addCount.toNat := by
  have he := h.epoch w
  have hi := Nat.le_trans (addCount_le c.ins cl.insCtr (metaKeyword w (searchCounter cl w))) (h.ins _)
  have hd := Nat.le_trans (addCount_le c.del cl.delCtr (metaKeyword w (searchCounter cl w))) (h.del _)
  constructor
  · intro a b ha hb hab
    simp only [searchRequest] at ha hb
    exact (Crash.token_ne c.ins hnc.ins hw hw (e := (searchCounter cl w).toNat)
      (f := (searchCounter cl w).toNat) (by omega) (by omega) hn (by omega) (by omega) hab).2.2
  · intro a b ha hb hab
    simp only [searchRequest] at ha hb
    exact (Crash.token_ne c.del hnc.del hw hw (e := (searchCounter cl w).toNat)
      (f := (searchCounter cl w).toNat) (by omega) (by omega) hn (by omega) (by omega) hab).2.2

theorem filterCache_perm (ts : List Tag) {l l' : List (Index × Tag)} (h : l.Perm l') :
    (filterCache ts l).Perm (filterCache ts l') := h.filter _

theorem cache_write {m m' : Map (Vector UInt8 16) (List UInt8)} {k : Vector UInt8 16}
    {a a' : List (Index × Tag)} (hp : a.Perm a')
    (h : ∀ k, ∃ l l', readCache m k = .ok l ∧ readCache m' k = .ok l' ∧ l.Perm l') :
    ∀ k', ∃ l l', readCache (writeCache m k a) k' = .ok l ∧
      readCache (writeCache m' k a') k' = .ok l' ∧ l.Perm l' := by
  intro k'
  by_cases hk : k' = k
  · subst hk
    exact ⟨a, a', readCache_writeCache _ _ _, readCache_writeCache _ _ _, hp⟩
  · rw [readCache_writeCache_ne _ _ hk, readCache_writeCache_ne _ _ hk]
    exact h k'

/-- A parallel search, from the four parts. -/
theorem parallel_parts (c : Crypto PK KS CT Rand) (cl : Client) (srv : Server KS CT) (w : Str)
    (threads : UInt8) (ht : threads ≠ 0)
    (hd : Diana.RequestNoCollision c.del (metaKeyword w (searchCounter cl w))
      (searchRequest c cl w).1.del.addCount.toNat)
    {l : List (Index × Tag)} (hc : readCache srv.cache (c.kwToken w) = .ok l)
    {reported listed : List Index} {srv' : Server KS CT}
    (h : SearchParallelRun c srv (searchRequest c cl w).1 threads reported listed srv') :
    ∃ shares delEdb insertions insEdb,
      Diana.search c.del srv.delEdb (searchRequest c cl w).1.del true = some (shares, delEdb) ∧
      Diana.search c.ins srv.insEdb (searchRequest c cl w).1.ins false = some (insertions, insEdb) ∧
      ∃ fresh, fresh = decryptAll c ((searchRequest c cl w).1.firstKeyShare :: shares) insertions ∧
      ∃ filtered, filtered = filterCache (shares.map c.ksTag) l ∧
      reported = filtered.map (·.1) ++ fresh.map (·.1) ∧
      listed = fresh.map (·.1) ++ filtered.map (·.1) ∧
      srv' = ⟨insEdb, delEdb, writeCache srv.cache (c.kwToken w) (fresh ++ filtered)⟩ := by
  obtain ⟨trace, delEdb, cached, fresh, hpar, hafter, rfl, rfl⟩ := h
  have hdel := Diana.C08_list c.del srv.delEdb cl.delCtr
    (metaKeyword w (searchCounter cl w)) threads ht true (fun _ => hd) trace delEdb hpar
  have e1 : (searchRequest c cl w).1.del =
      Diana.searchRequest c.del cl.delCtr (metaKeyword w (searchCounter cl w)) := rfl
  have e3 : (searchRequest c cl w).1.kwToken = c.kwToken w := rfl
  rw [← e1] at hdel
  refine ⟨Diana.listResult threads trace, delEdb, ?_⟩
  unfold afterShares at hafter
  rw [e3] at hafter
  cases hs : Diana.search c.ins srv.insEdb (searchRequest c cl w).1.ins false with
  | none => simp [hc, hs, ofOption, bind, Except.bind] at hafter
  | some p =>
    obtain ⟨insertions, insEdb⟩ := p
    simp only [hc, hs, ofOption, bind, Except.bind, pure, Except.pure, Except.ok.injEq,
      Prod.mk.injEq] at hafter
    obtain ⟨rfl, rfl, rfl⟩ := hafter
    exact ⟨_, _, hdel, rfl, _, rfl, _, rfl, rfl, rfl, rfl⟩

/-- A sequential search, from the four parts. -/
theorem sequential_parts (c : Crypto PK KS CT Rand) (cl : Client) (srv : Server KS CT) (w : Str)
    {l : List (Index × Tag)} (hc : readCache srv.cache (c.kwToken w) = .ok l)
    {shares : List KS} {delEdb : Diana.Edb KS} {insertions : List CT} {insEdb : Diana.Edb CT}
    (h1 : Diana.search c.del srv.delEdb (searchRequest c cl w).1.del true = some (shares, delEdb))
    (h2 : Diana.search c.ins srv.insEdb (searchRequest c cl w).1.ins true =
      some (insertions, insEdb)) :
    Janus.search c srv (searchRequest c cl w).1 = .ok
      ((filterCache (shares.map c.ksTag) l).map (·.1) ++
        (decryptAll c ((searchRequest c cl w).1.firstKeyShare :: shares) insertions).map (·.1),
        ⟨insEdb, delEdb, writeCache srv.cache (c.kwToken w) (filterCache (shares.map c.ksTag) l ++
          decryptAll c ((searchRequest c cl w).1.firstKeyShare :: shares) insertions)⟩) := by
  have e3 : (searchRequest c cl w).1.kwToken = c.kwToken w := rfl
  simp only [Janus.search, h1, h2, e3, hc, ofOption, bind, Except.bind, pure, Except.pure]

theorem step_of_search (c : Crypto PK KS CT Rand) (s : Sys KS CT) (w : Str) {r : List Index}
    {srv : Server KS CT} (h : Janus.search c s.server (searchRequest c s.client w).1 = .ok (r, srv)) :
    Janus.step c s (.search w : Janus.Op Rand) = .ok (⟨(searchRequest c s.client w).2, srv⟩, some r) := by
  simp only [Janus.step, h]

/-- What is observed, up to the order. -/
def OutRel : Option (List Index) → Option (List Index) → Prop
  | none, none => True
  | some l, some l' => l.Perm l'
  | _, _ => False

theorem step_sim (c : Crypto PK KS CT Rand) {K D n t} (hn : n + 1 < 2 ^ 32)
    (hnc : NoCollision c K D n) {s q : Sys KS CT} (hr : Rel c K n t s q) (ht : t + 1 ≤ n)
    {op : Op Rand} (hok : op.ok = true) (hK : Janus.Spec.Op.kw op.plain ∈ K) {s' : Sys KS CT}
    {out : Option (List Index)} (hs : Step c s op s' out) :
    ∃ q' outq, Janus.step c q op.plain = .ok (q', outq) ∧ Rel c K n (t + 1) s' q' ∧
      OutRel out outq := by
  obtain ⟨cl, srv⟩ := s
  obtain ⟨clq, srvq⟩ := q
  obtain ⟨h1, h2, h3, h4, h5⟩ := hr
  simp only at h1 h2 h3 h4 h5
  subst h1
  cases hs with
  | insert w i r =>
    refine ⟨_, _, rfl, ⟨rfl, clientOk_insert c h2 (by omega) w i r, ?_, h4, h5⟩, trivial⟩
    intro v hv e he he' a ha
    have := h3 v hv e he he' a ha
    by_cases hk : Diana.updateToken c.ins (metaNat v e) a = (insertionRequest c cl w i r).1.token
    · rw [hk]
      exact (Map.put_self _ _ _).trans (Map.put_self _ _ _).symm
    · exact (Map.put_of_ne _ _ hk).trans (this.trans (Map.put_of_ne _ _ hk).symm)
  | remove w i =>
    refine ⟨_, _, rfl, ⟨rfl, clientOk_remove c h2 (by omega) w i, h3, ?_, h5⟩, trivial⟩
    exact congrArg (fun d => Diana.serverInsert d (removalRequest c cl w i).1) h4
  | search w mode res srv' hsrv =>
    have hw : w ∈ K := hK
    obtain ⟨l, l', hl, hl', hp⟩ := h5 (c.kwToken w)
    obtain ⟨hi, hd⟩ := request_noCollision c (by omega) hnc h2 (by omega) hw
    have hadd : (searchRequest c cl w).1.ins.addCount.toNat ≤ t :=
      Nat.le_trans (addCount_le c.ins cl.insCtr (metaKeyword w (searchCounter cl w))) (h2.ins _)
    have hepoch := h2.epoch w
    -- the two databases of insertions give the same
    have hsame : (Diana.leavesOf c.ins (metaKeyword w (searchCounter cl w))
          (searchRequest c cl w).1.ins.addCount.toNat).filterMap
          (fun e => Diana.lookup c.ins srv.insEdb e.2) =
        (Diana.leavesOf c.ins (metaKeyword w (searchCounter cl w))
          (searchRequest c cl w).1.ins.addCount.toNat).filterMap
          (fun e => Diana.lookup c.ins srvq.insEdb e.2) := by
      apply List.filterMap_congr
      intro x hx
      simp only [Diana.leavesOf, List.mem_map, List.mem_range] at hx
      obtain ⟨a, ha, rfl⟩ := hx
      have := h3 w hw (searchCounter cl w).toNat (Nat.le_refl _) (by omega) a (by omega)
      simp only [Diana.updateToken] at this
      simp only [Diana.lookup]
      rw [show metaKeyword w (searchCounter cl w) = metaNat w (searchCounter cl w).toNat from rfl,
        this]
    obtain ⟨qIns, q1, q2⟩ := ins_search_eq c srvq.insEdb cl w hi true
    obtain ⟨qDel, q3⟩ := del_search_eq c srvq.delEdb cl w hd
    have hseq := sequential_parts c cl srvq w hl' q3 q1
    -- the databases afterwards
    have hfin : ∀ (del : Bool) (insEdb : Diana.Edb CT),
        (∀ k, insEdb k = if del = true ∧ ∃ a, a < (searchRequest c cl w).1.ins.addCount.toNat ∧
          k = Diana.updateToken c.ins (metaKeyword w (searchCounter cl w)) a then none
          else srv.insEdb k) →
        ∀ v ∈ K, ∀ e, (searchCounter (searchRequest c cl w).2 v).toNat ≤ e → e ≤ n → ∀ a, a < n →
          insEdb (Diana.updateToken c.ins (metaNat v e) a) =
            qIns (Diana.updateToken c.ins (metaNat v e) a) := by
      intro del insEdb hE v hv e he he' a ha
      obtain ⟨b1, b2⟩ := searchCounter_search c h2 (by omega) w
      have hnot : ¬ ∃ b, b < (searchRequest c cl w).1.ins.addCount.toNat ∧
          Diana.updateToken c.ins (metaNat v e) a =
            Diana.updateToken c.ins (metaKeyword w (searchCounter cl w)) b := by
        rintro ⟨b, hb, hab⟩
        obtain ⟨rfl, h', -⟩ := Crash.token_ne c.ins hnc.ins hv hw (f := (searchCounter cl w).toNat)
          he' (by omega) (by omega) ha (by omega) hab
        rw [b2, if_pos (Or.inl (by omega))] at he
        omega
      have hle : (searchCounter cl v).toNat ≤ e := by
        by_cases hv' : v = w
        · subst hv'
          rw [b2] at he
          split at he <;> omega
        · rw [b1 v hv'] at he; exact he
      rw [hE, if_neg (fun h => hnot h.2), q2, if_neg (fun h => hnot h.2)]
      exact h3 v hv e hle he' a ha
    have hstep := step_of_search c ⟨cl, srvq⟩ w hseq
    have hpar : ∀ t' reported listed, t' ≠ 0 →
        SearchParallelRun c srv (searchRequest c cl w).1 t' reported listed srv' →
        ∃ q' resq, Janus.step c ⟨cl, srvq⟩ (.search w : Janus.Op Rand) = .ok (q', some resq) ∧
          Rel c K n (t + 1) ⟨(searchRequest c cl w).2, srv'⟩ q' ∧ reported.Perm resq ∧
            listed.Perm resq := by
      intro t' reported listed ht' hrun
      obtain ⟨shares, delEdb, insertions, insEdb, r1, r2, fresh, r3, filtered, r4, rfl, rfl, rfl⟩ :=
        parallel_parts c cl srv w t' ht' hd hl hrun
      obtain ⟨sIns, p1, p2⟩ := ins_search_eq c srv.insEdb cl w hi false
      rw [r2] at p1
      rw [h4, q3] at r1
      obtain ⟨rfl, rfl⟩ := Prod.mk.inj (Option.some.inj p1)
      obtain ⟨rfl, rfl⟩ := Prod.mk.inj (Option.some.inj r1)
      rw [hsame] at r3
      have hq := filterCache_perm (List.map c.ksTag
        ((Diana.leavesOf c.del (metaKeyword w (searchCounter cl w))
          (searchRequest c cl w).1.del.addCount.toNat).filterMap
          (fun e => Diana.lookup c.del srvq.delEdb e.2))) hp
      refine ⟨_, _, hstep, ⟨rfl, clientOk_search c h2 (by omega) w, hfin false _ p2, rfl, ?_⟩, ?_, ?_⟩
      · exact cache_write (List.perm_append_comm.trans ((r4 ▸ hq).append (r3 ▸ .refl _))) h5
      · exact ((r4 ▸ hq).map _).append (r3 ▸ .refl _)
      · exact List.perm_append_comm.trans (((r4 ▸ hq).map _).append (r3 ▸ .refl _))
    cases mode with
    | sequential =>
      obtain ⟨sIns, p1, p2⟩ := ins_search_eq c srv.insEdb cl w hi true
      have q3' := q3
      rw [← h4] at q3'
      have hs := sequential_parts c cl srv w hl q3' p1
      have hsrv : Janus.search c srv (searchRequest c cl w).1 = .ok (res, srv') := hsrv
      rw [hsrv] at hs
      obtain ⟨rfl, rfl⟩ := Prod.mk.inj (Except.ok.inj hs)
      rw [h4, hsame]
      have hq := filterCache_perm (List.map c.ksTag
        ((Diana.leavesOf c.del (metaKeyword w (searchCounter cl w))
          (searchRequest c cl w).1.del.addCount.toNat).filterMap
          (fun e => Diana.lookup c.del srvq.delEdb e.2))) hp
      refine ⟨_, _, hstep, ⟨rfl, clientOk_search c h2 (by omega) w, hfin true _ p2, rfl, ?_⟩, ?_⟩
      · exact cache_write (hq.append (.refl _)) h5
      · exact (hq.map _).append (.refl _)
    | parallelList t' =>
      obtain ⟨reported, hrun⟩ := hsrv
      obtain ⟨q', resq, a1, a2, -, a4⟩ := hpar t' reported res (by simpa [Op.ok, Mode.ok] using hok)
        hrun
      exact ⟨q', _, a1, a2, a4⟩
    | parallelCallback t' =>
      obtain ⟨listed, hrun⟩ := hsrv
      obtain ⟨q', resq, a1, a2, a3, -⟩ := hpar t' res listed (by simpa [Op.ok, Mode.ok] using hok)
        hrun
      exact ⟨q', _, a1, a2, a3⟩

theorem run_sim (c : Crypto PK KS CT Rand) {K D n} (hn : n + 1 < 2 ^ 32)
    (hnc : NoCollision c K D n) {ops : List (Op Rand)} {s s' : Sys KS CT} {outs : List (List Index)}
    (hrun : Run c s ops s' outs) :
    ∀ {t : Nat} {q : Sys KS CT}, Rel c K n t s q → t + ops.length ≤ n →
    (∀ op ∈ ops, op.ok = true) → (∀ op ∈ ops, Janus.Spec.Op.kw op.plain ∈ K) →
    ∃ q' outs', Rel c K n (t + ops.length) s' q' ∧
      Janus.run c q (ops.map Op.plain) = .ok (q', outs') ∧ List.Forall₂ List.Perm outs outs' := by
  induction hrun with
  | nil s =>
    intro t q hr _ _ _
    exact ⟨q, [], hr, rfl, .nil⟩
  | @cons s s1 s2 op ops out outs hstep hrest ih =>
    intro t q hr hlen hok hK
    simp only [List.length_cons] at hlen
    obtain ⟨q1, outq, a1, a2, a3⟩ := step_sim c hn hnc hr (by omega) (hok op (by simp))
      (hK op (by simp)) hstep
    obtain ⟨q2, outs', b1, b2, b3⟩ := ih a2 (by omega) (fun o ho => hok o (by simp [ho]))
      (fun o ho => hK o (by simp [ho]))
    refine ⟨q2, outq.toList ++ outs', ?_, ?_, ?_⟩
    · rw [List.length_cons, show t + (ops.length + 1) = t + 1 + ops.length by omega]; exact b1
    · simp only [List.map_cons, Janus.run, a1, b2]
    · cases out with
      | none =>
        cases outq with
        | none => exact b3
        | some l => exact a3.elim
      | some l =>
        cases outq with
        | none => exact a3.elim
        | some l' => exact .cons a3 b3

/-- An operation can always be carried out. -/
theorem step_exists (c : Crypto PK KS CT Rand) {K D n t} (hn : n + 1 < 2 ^ 32)
    (hnc : NoCollision c K D n) {s q : Sys KS CT} (hr : Rel c K n t s q) (ht : t ≤ n) {op : Op Rand}
    (hok : op.ok = true) (hK : Janus.Spec.Op.kw op.plain ∈ K) : ∃ s' out, Step c s op s' out := by
  cases op with
  | insert w i r => exact ⟨_, _, .insert w i r⟩
  | remove w i => exact ⟨_, _, .remove w i⟩
  | search w mode =>
    obtain ⟨l, l', hl, hl', hp⟩ := hr.cache (c.kwToken w)
    obtain ⟨hi, hd⟩ := request_noCollision c (by omega) hnc hr.ok ht (show w ∈ K from hK)
    have hsrv : ∃ res srv', ServerSearch c s.server (searchRequest c s.client w).1 mode res srv' := by
      cases mode with
      | sequential =>
        obtain ⟨_, q1, -⟩ := ins_search_eq c s.server.insEdb s.client w hi true
        obtain ⟨_, q3⟩ := del_search_eq c s.server.delEdb s.client w hd
        exact ⟨_, _, sequential_parts c s.client s.server w hl q3 q1⟩
      | parallelList t' =>
        obtain ⟨a, b, srv', q⟩ := C15_terminates c s.client s.server w t'
          (by simpa [Op.ok, Mode.ok] using hok) hi l hl
        exact ⟨b, srv', a, q⟩
      | parallelCallback t' =>
        obtain ⟨a, b, srv', q⟩ := C15_terminates c s.client s.server w t'
          (by simpa [Op.ok, Mode.ok] using hok) hi l hl
        exact ⟨a, srv', b, q⟩
    obtain ⟨res, srv', q⟩ := hsrv
    exact ⟨_, _, .search w mode res srv' q⟩

theorem run_exists (c : Crypto PK KS CT Rand) {K D n} (hn : n + 1 < 2 ^ 32)
    (hnc : NoCollision c K D n) (ops : List (Op Rand)) :
    ∀ {t : Nat} {s q : Sys KS CT}, Rel c K n t s q → t + ops.length ≤ n →
    (∀ op ∈ ops, op.ok = true) → (∀ op ∈ ops, Janus.Spec.Op.kw op.plain ∈ K) →
    ∃ s' outs, Run c s ops s' outs := by
  induction ops with
  | nil => intro t s q _ _ _ _; exact ⟨_, _, .nil s⟩
  | cons op ops ih =>
    intro t s q hr hlen hok hK
    simp only [List.length_cons] at hlen
    obtain ⟨s1, out, hs⟩ := step_exists c hn hnc hr (by omega) (hok op (by simp))
      (hK op (by simp))
    obtain ⟨q1, outq, -, a2, -⟩ := step_sim c hn hnc hr (by omega) (hok op (by simp))
      (hK op (by simp)) hs
    obtain ⟨s', outs, hrun⟩ := ih a2 (by omega) (fun o ho => hok o (by simp [ho]))
      (fun o ho => hK o (by simp [ho]))
    exact ⟨_, _, .cons hs hrun⟩

end Verif.Janus.Mixed
