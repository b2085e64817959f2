import Verif.Janus.Concurrent
import Verif.Janus.MixedLemmas

/-! # Lemmas on concurrent calls of a Janus server -/

set_option linter.unusedSectionVars false

namespace Verif.Janus.Conc

open Verif

variable {PK KS CT Rand V : Type}

/-! ## One call alone -/

/-- Several accesses of one call, nothing in between. -/
def workN (c : Crypto PK KS CT Rand) : Nat → Server KS CT × Pc c → Server KS CT × Pc c
  | 0, x => x
  | m + 1, x => workN c m (work c x.1 x.2)

theorem workN_add (c : Crypto PK KS CT Rand) (a b : Nat) (x : Server KS CT × Pc c) :
    workN c (a + b) x = workN c b (workN c a x) := by
  induction a generalizing x with
  | zero => rw [Nat.zero_add]; rfl
  | succ a ih => rw [Nat.succ_add]; exact ih _

theorem work_over (c : Crypto PK KS CT Rand) (srv : Server KS CT) {pc : Pc c} (h : pc.over = true) :
    work c srv pc = (srv, pc) := by
  cases pc <;> first | rfl | cases h

theorem workN_over (c : Crypto PK KS CT Rand) (m : Nat) (srv : Server KS CT) {pc : Pc c}
    (h : pc.over = true) : workN c m (srv, pc) = (srv, pc) := by
  induction m with
  | zero => rfl
  | succ m ih => simp only [workN, work_over c srv h, ih]

/-- Once more does not change the end. -/
theorem workN_done (c : Crypto PK KS CT Rand) {m : Nat} {x : Server KS CT × Pc c} {srv : Server KS CT}
    {res : Option (List Index)} (h : workN c m x = (srv, .done res)) :
    workN c (m + 1) x = (srv, .done res) := by
  rw [workN_add, h]; rfl

theorem ins_loop (c : Crypto PK KS CT Rand) (req : SearchReq c) (ls : List (Nat × Diana.Leaf)) :
    ∀ (srv : Server KS CT) (acc : List CT), ∃ m, workN c m (srv, .insGet req ls acc) =
      ({ srv with insEdb := (Diana.searchLoop c.ins true srv.insEdb ls).2 },
        startDel c req (acc ++ (Diana.searchLoop c.ins true srv.insEdb ls).1)) := by
  induction ls with
  | nil => intro srv acc; exact ⟨1, by simp [workN, work, Diana.searchLoop]⟩
  | cons l ls ih =>
    intro srv acc
    obtain ⟨i, leaf⟩ := l
    cases hg : srv.insEdb (c.ins.token leaf) with
    | none =>
      obtain ⟨m, hm⟩ := ih srv acc
      refine ⟨m + 1, ?_⟩
      simp only [workN, work, hg]
      rw [hm]
      simp [Diana.searchLoop, Diana.getUnmask, Diana.retrieveEntry, hg]
    | some v =>
      obtain ⟨m, hm⟩ := ih { srv with insEdb := srv.insEdb.erase (c.ins.token leaf) }
        (acc ++ [c.ins.xor v (c.ins.mask leaf)])
      refine ⟨m + 2, ?_⟩
      simp only [workN, work, hg]
      rw [hm]
      simp [Diana.searchLoop, Diana.getUnmask, Diana.retrieveEntry, hg]

theorem del_loop (c : Crypto PK KS CT Rand) (req : SearchReq c) (is : List CT)
    (ls : List (Nat × Diana.Leaf)) :
    ∀ (srv : Server KS CT) (acc : List KS), ∃ m, workN c m (srv, .delGet req is ls acc) =
      ({ srv with delEdb := (Diana.searchLoop c.del true srv.delEdb ls).2 },
        .cacheGet req is (acc ++ (Diana.searchLoop c.del true srv.delEdb ls).1)) := by
  induction ls with
  | nil => intro srv acc; exact ⟨1, by simp [workN, work, Diana.searchLoop]⟩
  | cons l ls ih =>
    intro srv acc
    obtain ⟨i, leaf⟩ := l
    cases hg : srv.delEdb (c.del.token leaf) with
    | none =>
      obtain ⟨m, hm⟩ := ih srv acc
      refine ⟨m + 1, ?_⟩
      simp only [workN, work, hg]
      rw [hm]
      simp [Diana.searchLoop, Diana.getUnmask, Diana.retrieveEntry, hg]
    | some v =>
      obtain ⟨m, hm⟩ := ih { srv with delEdb := srv.delEdb.erase (c.del.token leaf) }
        (acc ++ [c.del.xor v (c.del.mask leaf)])
      refine ⟨m + 2, ?_⟩
      simp only [workN, work, hg]
      rw [hm]
      simp [Diana.searchLoop, Diana.getUnmask, Diana.retrieveEntry, hg]

theorem search_of_leaves (c : Diana.Crypto Str V) (edb : Diana.Edb V) (req : Diana.SearchReq c) :
    Diana.search c edb req true =
      (searchLeaves c req).map (fun ls => Diana.searchLoop c true edb ls) := by
  unfold Diana.search searchLeaves
  split
  · rfl
  · rfl

/-- A search that is alone does what `Janus.search` says. -/
theorem search_alone (c : Crypto PK KS CT Rand) (srv srv' : Server KS CT) (req : SearchReq c)
    (res : List Index) (h : Janus.search c srv req = .ok (res, srv')) :
    ∃ m, workN c m (srv, startSearch c req) = (srv', .done (some res)) := by
  unfold Janus.search at h
  rw [search_of_leaves] at h
  cases hi : searchLeaves c.ins req.ins with
  | none => simp [hi, ofOption, bind, Except.bind] at h
  | some li =>
    rw [search_of_leaves] at h
    cases hd : searchLeaves c.del req.del with
    | none => simp [hi, hd, ofOption, bind, Except.bind] at h
    | some ld =>
      cases hc : readCache srv.cache req.kwToken with
      | error f => simp [hi, hd, hc, ofOption, bind, Except.bind] at h
      | ok cached =>
        simp only [hi, hd, hc, Option.map_some, ofOption, bind, Except.bind, pure, Except.pure,
          Except.ok.injEq, Prod.mk.injEq] at h
        obtain ⟨rfl, rfl⟩ := h
        obtain ⟨m1, h1⟩ := ins_loop c req li srv []
        obtain ⟨m2, h2⟩ := del_loop c req ([] ++ (Diana.searchLoop c.ins true srv.insEdb li).1) ld
          { srv with insEdb := (Diana.searchLoop c.ins true srv.insEdb li).2 } []
        refine ⟨m1 + (m2 + 2), ?_⟩
        rw [workN_add, startSearch, hi]
        simp only
        rw [h1, workN_add, startDel, hd]
        simp only
        rw [h2]
        simp only [workN, work, hc, List.nil_append]

/-! ## What a call touches -/

/-- Keys of the three databases. -/
structure Keys where
  ins : Diana.Token → Prop
  del : Diana.Token → Prop
  cache : Vector UInt8 16 → Prop

/-- The call only touches these keys from now on. -/
def Within (c : Crypto PK KS CT Rand) (S : Keys) : Pc c → Prop
  | .insert req => S.ins req.token
  | .remove req => S.del req.token
  | .insGet req ls _ => (∀ l ∈ ls, S.ins (c.ins.token l.2)) ∧
    (∀ ld, searchLeaves c.del req.del = some ld → ∀ l ∈ ld, S.del (c.del.token l.2)) ∧ S.cache req.kwToken
  | .insErase req t ls _ => S.ins t ∧ (∀ l ∈ ls, S.ins (c.ins.token l.2)) ∧
    (∀ ld, searchLeaves c.del req.del = some ld → ∀ l ∈ ld, S.del (c.del.token l.2)) ∧ S.cache req.kwToken
  | .delGet req _ ls _ => (∀ l ∈ ls, S.del (c.del.token l.2)) ∧ S.cache req.kwToken
  | .delErase req _ t ls _ => S.del t ∧ (∀ l ∈ ls, S.del (c.del.token l.2)) ∧ S.cache req.kwToken
  | .cacheGet req _ _ => S.cache req.kwToken
  | .cachePut req _ _ => S.cache req.kwToken
  | .done _ => True
  | .failed _ => True

/-- The same entries under these keys. -/
structure Agree (S : Keys) (s s' : Server KS CT) : Prop where
  ins : ∀ k, S.ins k → s.insEdb k = s'.insEdb k
  del : ∀ k, S.del k → s.delEdb k = s'.delEdb k
  cache : ∀ k, S.cache k → s.cache k = s'.cache k

theorem Agree.refl (S : Keys) (s : Server KS CT) : Agree S s s :=
  ⟨fun _ _ => rfl, fun _ _ => rfl, fun _ _ => rfl⟩

theorem Agree.symm {S : Keys} {s s' : Server KS CT} (h : Agree S s s') : Agree S s' s :=
  ⟨fun k hk => (h.ins k hk).symm, fun k hk => (h.del k hk).symm, fun k hk => (h.cache k hk).symm⟩

theorem Agree.trans {S : Keys} {s s' s'' : Server KS CT} (h : Agree S s s') (h' : Agree S s' s'') :
    Agree S s s'' :=
  ⟨fun k hk => (h.ins k hk).trans (h'.ins k hk), fun k hk => (h.del k hk).trans (h'.del k hk),
    fun k hk => (h.cache k hk).trans (h'.cache k hk)⟩

theorem agree_put {K A : Type} [DecidableEq K] {P : K → Prop} {m m' : Map K A}
    (h : ∀ k, P k → m k = m' k) (t : K) (v : A) :
    ∀ k, P k → (m.put t v) k = (m'.put t v) k := by
  intro k hk
  by_cases he : k = t
  · subst he; rw [Map.put_self, Map.put_self]
  · rw [Map.put_of_ne _ _ he, Map.put_of_ne _ _ he]; exact h k hk

theorem agree_erase {K A : Type} [DecidableEq K] {P : K → Prop} {m m' : Map K A}
    (h : ∀ k, P k → m k = m' k) (t : K) : ∀ k, P k → (m.erase t) k = (m'.erase t) k := by
  intro k hk
  by_cases he : k = t
  · subst he; rw [Map.erase_self, Map.erase_self]
  · rw [Map.erase_of_ne _ he, Map.erase_of_ne _ he]; exact h k hk

theorem frame_put {K A : Type} [DecidableEq K] {P : K → Prop} (m : Map K A) {t : K} (v : A)
    (h : ¬ P t) : ∀ k, P k → m k = (m.put t v) k := by
  intro k hk
  rw [Map.put_of_ne]
  rintro rfl
  exact h hk

theorem frame_erase {K A : Type} [DecidableEq K] {P : K → Prop} (m : Map K A) {t : K}
    (h : ¬ P t) : ∀ k, P k → m k = (m.erase t) k := by
  intro k hk
  rw [Map.erase_of_ne]
  rintro rfl
  exact h hk

theorem readCache_congr {m m' : Map (Vector UInt8 16) (List UInt8)} {k : Vector UInt8 16}
    (h : m k = m' k) : readCache m k = readCache m' k := by
  simp only [readCache, ListStore.get, h]

theorem within_startDel (c : Crypto PK KS CT Rand) (S : Keys) (req : SearchReq c) (is : List CT)
    (h : ∀ ld, searchLeaves c.del req.del = some ld → ∀ l ∈ ld, S.del (c.del.token l.2))
    (hc : S.cache req.kwToken) : Within c S (startDel c req is) := by
  unfold startDel
  cases hd : searchLeaves c.del req.del with
  | none => trivial
  | some ld => exact ⟨h ld hd, hc⟩

theorem work_within (c : Crypto PK KS CT Rand) (S : Keys) (srv : Server KS CT) (pc : Pc c)
    (h : Within c S pc) : Within c S (work c srv pc).2 := by
  cases pc with
  | insert req => trivial
  | remove req => trivial
  | insGet req ls acc =>
    obtain ⟨h1, h2, h3⟩ := h
    cases ls with
    | nil => exact within_startDel c S req acc h2 h3
    | cons l ls =>
      have hl : ∀ x ∈ ls, S.ins (c.ins.token x.2) := fun x hx => h1 x (List.mem_cons_of_mem _ hx)
      simp only [work]
      split
      · exact ⟨hl, h2, h3⟩
      · exact ⟨h1 l (List.mem_cons_self ..), hl, h2, h3⟩
  | insErase req t ls acc => exact h.2
  | delGet req is ls acc =>
    obtain ⟨h1, h3⟩ := h
    cases ls with
    | nil => exact h3
    | cons l ls =>
      have hl : ∀ x ∈ ls, S.del (c.del.token x.2) := fun x hx => h1 x (List.mem_cons_of_mem _ hx)
      simp only [work]
      split
      · exact ⟨hl, h3⟩
      · exact ⟨h1 l (List.mem_cons_self ..), hl, h3⟩
  | delErase req is t ls acc => exact h.2
  | cacheGet req is shares =>
    simp only [work]
    split
    · trivial
    · exact h
  | cachePut req entries results => trivial
  | done res => trivial
  | failed f => trivial

/-- A call does the same on two servers with the same entries for it. -/
theorem work_local (c : Crypto PK KS CT Rand) {S : Keys} {s s' : Server KS CT} {pc : Pc c}
    (h : Within c S pc) (ha : Agree S s s') :
    (work c s pc).2 = (work c s' pc).2 ∧ Agree S (work c s pc).1 (work c s' pc).1 := by
  obtain ⟨a1, a2, a3⟩ := ha
  cases pc with
  | insert req => exact ⟨rfl, agree_put a1 _ _, a2, a3⟩
  | remove req => exact ⟨rfl, a1, agree_put a2 _ _, a3⟩
  | insGet req ls acc =>
    cases ls with
    | nil => exact ⟨rfl, a1, a2, a3⟩
    | cons l ls =>
      simp only [work]
      rw [a1 _ (h.1 l (List.mem_cons_self ..))]
      split
      · exact ⟨rfl, a1, a2, a3⟩
      · exact ⟨rfl, a1, a2, a3⟩
  | insErase req t ls acc => exact ⟨rfl, agree_erase a1 _, a2, a3⟩
  | delGet req is ls acc =>
    cases ls with
    | nil => exact ⟨rfl, a1, a2, a3⟩
    | cons l ls =>
      simp only [work]
      rw [a2 _ (h.1 l (List.mem_cons_self ..))]
      split
      · exact ⟨rfl, a1, a2, a3⟩
      · exact ⟨rfl, a1, a2, a3⟩
  | delErase req is t ls acc => exact ⟨rfl, a1, agree_erase a2 _, a3⟩
  | cacheGet req is shares =>
    simp only [work]
    rw [readCache_congr (a3 _ h)]
    split
    · exact ⟨rfl, a1, a2, a3⟩
    · exact ⟨rfl, a1, a2, a3⟩
  | cachePut req entries results => exact ⟨rfl, a1, a2, agree_put a3 _ _⟩
  | done res => exact ⟨rfl, a1, a2, a3⟩
  | failed f => exact ⟨rfl, a1, a2, a3⟩

/-- No key in common. -/
structure Separate (S T : Keys) : Prop where
  ins : ∀ k, S.ins k → T.ins k → False
  del : ∀ k, S.del k → T.del k → False
  cache : ∀ k, S.cache k → T.cache k → False

/-- A call leaves all other entries as they are. -/
theorem work_frame (c : Crypto PK KS CT Rand) {S T : Keys} (hst : Separate S T) (s : Server KS CT) {pc : Pc c}
    (h : Within c S pc) : Agree T s (work c s pc).1 := by
  cases pc with
  | insert req =>
    exact ⟨frame_put _ _ (fun x => hst.ins _ h x), fun _ _ => rfl, fun _ _ => rfl⟩
  | remove req =>
    exact ⟨fun _ _ => rfl, frame_put _ _ (fun x => hst.del _ h x), fun _ _ => rfl⟩
  | insGet req ls acc =>
    cases ls with
    | nil => exact Agree.refl _ _
    | cons l ls =>
      simp only [work]
      split
      · exact Agree.refl _ _
      · exact Agree.refl _ _
  | insErase req t ls acc =>
    exact ⟨frame_erase _ (fun x => hst.ins _ h.1 x), fun _ _ => rfl, fun _ _ => rfl⟩
  | delGet req is ls acc =>
    cases ls with
    | nil => exact Agree.refl _ _
    | cons l ls =>
      simp only [work]
      split
      · exact Agree.refl _ _
      · exact Agree.refl _ _
  | delErase req is t ls acc =>
    exact ⟨fun _ _ => rfl, frame_erase _ (fun x => hst.del _ h.1 x), fun _ _ => rfl⟩
  | cacheGet req is shares =>
    simp only [work]
    split
    · exact Agree.refl _ _
    · exact Agree.refl _ _
  | cachePut req entries results =>
    exact ⟨fun _ _ => rfl, fun _ _ => rfl, frame_put _ _ (fun x => hst.cache _ h x)⟩
  | done res => exact Agree.refl _ _
  | failed f => exact Agree.refl _ _

theorem workN_local (c : Crypto PK KS CT Rand) {S : Keys} (m : Nat) :
    ∀ {s s' : Server KS CT} {pc : Pc c}, Within c S pc → Agree S s s' →
    (workN c m (s, pc)).2 = (workN c m (s', pc)).2 ∧
      Agree S (workN c m (s, pc)).1 (workN c m (s', pc)).1 := by
  induction m with
  | zero => intro s s' pc _ ha; exact ⟨rfl, ha⟩
  | succ m ih =>
    intro s s' pc h ha
    obtain ⟨h1, h2⟩ := work_local c h ha
    have h3 := work_within c S s pc h
    have := ih h3 h2
    simp only [workN]
    have e1 : work c s pc = ((work c s pc).1, (work c s pc).2) := rfl
    have e2 : work c s' pc = ((work c s' pc).1, (work c s pc).2) := by rw [h1]
    rw [e2]
    exact this

theorem workN_frame (c : Crypto PK KS CT Rand) {S T : Keys} (hst : Separate S T) (m : Nat) :
    ∀ (s : Server KS CT) {pc : Pc c}, Within c S pc → Agree T s (workN c m (s, pc)).1 := by
  induction m with
  | zero => intro s pc _; exact Agree.refl _ _
  | succ m ih =>
    intro s pc h
    exact (work_frame c hst s h).trans (ih _ (work_within c S s pc h))

end Verif.Janus.Conc
