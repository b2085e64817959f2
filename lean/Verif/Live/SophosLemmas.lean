import Verif.Live.Model
import Verif.Live.Spec
import Verif.Sophos.ParallelLemmas
import Mathlib.Data.Nat.Find

/-! # Lemmas for Sophos searches that run while updates are stored -/

set_option linter.unusedSectionVars false

namespace Verif.Live

open Verif ThreadPool Sophos

variable {Kw Seed ST DK σ : Type} [DecidableEq Kw]

/-- Every entry of `E` is one of some moment while `us` were stored. -/
def Mixed (edb : Edb) (us : List UpdateReq) (E : Edb) : Prop :=
  ∀ key, ∃ m ≤ us.length, E key = serverRun edb (us.take m) key

theorem serverRun_append (edb : Edb) (us vs : List UpdateReq) :
    serverRun edb (us ++ vs) = serverRun (serverRun edb us) vs := by
  simp [serverRun]

theorem access_congr (c : Crypto Kw Seed ST DK) {E E' : Edb} (k : DK) (st : ST)
    (h : E (c.prf k st false) = E' (c.prf k st false)) : access c E k st = access c E' k st := by
  simp [access, genUpdateTokenMasks, h]

/-- Lookups of distinct keys at different moments are lookups in one database. -/
theorem exists_mixed (c : Crypto Kw Seed ST DK) (k : DK) (edb : Edb) (us : List UpdateReq) (Es : List (ST × Nat))
    (hle : ∀ x ∈ Es, x.2 ≤ us.length) (hnd : (Es.map (fun x => c.prf k x.1 false)).Nodup) :
    ∃ E, Mixed edb us E ∧ (∀ x ∈ Es, E (c.prf k x.1 false) = serverRun edb (us.take x.2) (c.prf k x.1 false)) := by
  refine ⟨fun key => match Es.find? (fun x => c.prf k x.1 false = key) with
    | some x => serverRun edb (us.take x.2) key
    | none => edb key, ?_, ?_⟩
  · intro key
    cases h : Es.find? (fun x => c.prf k x.1 false = key) with
    | none => exact ⟨0, by omega, by simp [h, serverRun]⟩
    | some x => exact ⟨x.2, hle x (List.mem_of_find?_eq_some h), by simp [h]⟩
  · intro x hx
    have hf : Es.find? (fun y => c.prf k y.1 false = c.prf k x.1 false) = some x := by
      clear hle
      induction Es with
      | nil => cases hx
      | cons y Es ih =>
        rw [List.map_cons, List.nodup_cons] at hnd
        rcases List.mem_cons.mp hx with rfl | hx
        · simp
        · rw [List.find?_cons_of_neg, ih hnd.2 hx]
          simp only [decide_eq_true_eq]
          intro h
          exact hnd.1 (h ▸ List.mem_map.mpr ⟨x, hx, rfl⟩)
    simp only [hf]

/-- Invariant of a search by threads -/
structure Inv (c : Crypto Kw Seed ST DK) (k : DK) (looked : σ → List ST) (edb : Edb) (s : State σ)
    (Es : List (ST × Nat)) : Prop where
  order : Es.map (·.1) = looked s.threads
  times : ∀ x ∈ Es, x.2 ≤ s.stored.length
  now : s.edb = serverRun edb s.stored
  found : (s.held ++ s.results).Perm
    (Es.filterMap (fun x => access c (serverRun edb (s.stored.take x.2)) k x.1))

theorem inv_reachable (c : Crypto Kw Seed ST DK) (k : DK) (R : σ → σ → Prop) (looked : σ → List ST) (edb : Edb) (x : σ)
    (hx : looked x = []) (s : State σ) (h : Relation.ReflTransGen (Step c k R looked) (State.init x edb) s) :
    Relation.ReflTransGen R x s.threads ∧ ∃ Es, Inv c k looked edb s Es := by
  induction h with
  | refl => exact ⟨.refl, [], by simp [State.init, hx], by simp, rfl, by simp [State.init]⟩
  | @tail s s' _ hst ih =>
    obtain ⟨hr, Es, hE⟩ := ih
    cases hst with
    | put r =>
      refine ⟨hr, Es, hE.order, ?_, ?_, ?_⟩
      · intro x hx
        have := hE.times x hx
        simp only [List.length_append, List.length_singleton]
        omega
      · show serverInsert _ r = _
        rw [hE.now, serverRun_append]
        rfl
      · refine hE.found.trans (List.Perm.of_eq (List.filterMap_congr ?_))
        intro x hx
        rw [List.take_append_of_le_length (hE.times x hx)]
    | move y h hl => exact ⟨hr.tail h, Es, by rw [hl]; exact hE.order, hE.times, hE.now, hE.found⟩
    | look y st h hl =>
      refine ⟨hr.tail h, Es ++ [(st, s.stored.length)], ?_, ?_, hE.now, ?_⟩
      · simp only [List.map_append, hE.order, hl, List.map_cons, List.map_nil]
      · intro x hx
        rcases List.mem_append.mp hx with hx | hx
        · exact hE.times x hx
        · simp only [List.mem_singleton] at hx
          subst hx
          exact Nat.le_refl _
      · dsimp only
        rw [List.filterMap_append, List.filterMap_cons, List.filterMap_nil, List.take_length, ← hE.now]
        have h1 : (s.held ++ (access c s.edb k st).toList ++ s.results).Perm
            (s.held ++ s.results ++ (access c s.edb k st).toList) := by
          rw [List.append_assoc, List.append_assoc]
          exact List.perm_append_comm.append_left _
        refine h1.trans ((hE.found.append_right _).trans (List.Perm.of_eq ?_))
        cases access c s.edb k st <;> rfl
    | report pre post v h =>
      refine ⟨hr, Es, hE.order, hE.times, hE.now, ?_⟩
      refine List.Perm.trans ?_ hE.found
      dsimp only
      rw [h]
      simp only [List.append_assoc, List.cons_append]
      refine List.Perm.trans ?_ List.perm_middle.symm
      have : (pre ++ (post ++ (s.results ++ [v]))) = (pre ++ (post ++ s.results)) ++ [v] := by simp
      rw [this]
      exact List.perm_append_comm

/-- The update tokens that a search looks up -/
def keysOf (c : Crypto Kw Seed ST DK) (r : SearchReq ST DK) : List Token :=
  (List.range r.addCount.toNat).map (fun p => c.prf r.derivationKey (c.eval^[p] r.token) false)

/-- A finished search by threads that looked all tokens up once is a search in one database. -/
theorem threads_mixed (c : Crypto Kw Seed ST DK) (r : SearchReq ST DK) (looked : σ → List ST)
    (edb : Edb) (s : State σ) (Es : List (ST × Nat)) (hE : Inv c r.derivationKey looked edb s Es) (hh : s.held = [])
    (hp : (looked s.threads).Perm ((List.range r.addCount.toNat).map (fun p => c.eval^[p] r.token)))
    (hnd : (keysOf c r).Nodup) :
    ∃ E, Mixed edb s.stored E ∧ s.results.Perm (search c E r) := by
  have hkeys : (Es.map (fun x => c.prf r.derivationKey x.1 false)).Perm (keysOf c r) := by
    have h1 : Es.map (fun x => c.prf r.derivationKey x.1 false) =
        (Es.map (·.1)).map (fun st => c.prf r.derivationKey st false) := by simp
    rw [h1, hE.order]
    refine (hp.map _).trans (List.Perm.of_eq ?_)
    simp [keysOf]
  obtain ⟨E, h1, h2⟩ := exists_mixed c r.derivationKey edb s.stored Es hE.times (hkeys.nodup_iff.mpr hnd)
  refine ⟨E, h1, ?_⟩
  have h3 := hE.found
  rw [hh, List.nil_append] at h3
  refine h3.trans ?_
  have h4 : Es.filterMap (fun x => access c (serverRun edb (s.stored.take x.2)) r.derivationKey x.1) =
      (Es.map (·.1)).filterMap (access c E r.derivationKey) := by
    rw [List.filterMap_map]
    apply List.filterMap_congr
    intro x hx
    exact access_congr c _ _ (h2 x hx).symm
  rw [h4, hE.order, search_eq_filterMap]
  exact hp.filterMap _

/-! ## Runs exist -/

theorem run_puts (c : Crypto Kw Seed ST DK) (k : DK) (R : σ → σ → Prop) (looked : σ → List ST) (us : List UpdateReq) :
    ∀ s : State σ, Relation.ReflTransGen (Step c k R looked) s
      { s with edb := serverRun s.edb us, stored := s.stored ++ us } := by
  induction us with
  | nil => intro s; rw [List.append_nil]; exact .refl
  | cons r us ih =>
    intro s
    have h := ih { s with edb := serverInsert s.edb r, stored := s.stored ++ [r] }
    dsimp only at h
    rw [List.append_assoc] at h
    exact Relation.ReflTransGen.head (Step.put s r) h

theorem run_reports (c : Crypto Kw Seed ST DK) (k : DK) (R : σ → σ → Prop) (looked : σ → List ST) (vs : List Index) :
    ∀ s : State σ, s.held = vs → Relation.ReflTransGen (Step c k R looked) s
      { s with held := [], results := s.results ++ vs } := by
  induction vs with
  | nil => rintro ⟨a, b, d, _, e⟩ rfl; rw [List.append_nil]
  | cons v vs ih =>
    intro s hs
    have h := ih { s with held := [] ++ vs, results := s.results ++ [v] } rfl
    dsimp only at h
    rw [List.append_assoc] at h
    exact Relation.ReflTransGen.head (Step.report s [] vs v hs) h

/-- A run of the threads is one of the search, with no update stored. -/
theorem run_lift (c : Crypto Kw Seed ST DK) (k : DK) (R : σ → σ → Prop) (looked : σ → List ST)
    (hR : ∀ a b, R a b → looked b = looked a ∨ ∃ st, looked b = looked a ++ [st]) (x y : σ)
    (h : Relation.ReflTransGen R x y) (s : State σ) (hs : s.threads = x) :
    ∃ s', Relation.ReflTransGen (Step c k R looked) s s' ∧ s'.threads = y ∧ s'.stored = s.stored := by
  induction h with
  | refl => exact ⟨s, .refl, hs, rfl⟩
  | @tail y z _ hst ih =>
    obtain ⟨s', h1, rfl, h3⟩ := ih
    rcases hR _ _ hst with hl | ⟨st, hl⟩
    · exact ⟨_, h1.tail (Step.move s' z hst hl), rfl, h3⟩
    · exact ⟨_, h1.tail (Step.look s' z st hst hl), rfl, h3⟩

theorem seqStep_looked (l : Bool) (a b : ThreadPool.Sys ST ST) (h : SeqStep some l a b) :
    b.pool.emitted = a.pool.emitted ∨ ∃ st, b.pool.emitted = a.pool.emitted ++ [st] := by
  cases h with
  | step h _ =>
    cases h with
    | produce t x rest p' h hp => cases hp; exact Or.inl rfl
    | reject t x rest p' h hp => cases hp; exact Or.inl rfl
    | join p' hp => cases hp; exact Or.inl rfl
    | internal p' hp => cases hp <;> exact Or.inl rfl
    | emit b p' hp => cases hp; exact Or.inr ⟨_, rfl⟩
    | spurious p' hp => cases hp; exact Or.inl rfl

/-! ## The sequential search -/

theorem sophosLoop_eq (c : Crypto Kw Seed ST DK) (k : DK) (n : Nat) : ∀ (st : ST) (edb : Edb) (us : List (List UpdateReq)),
    sophosLoop c k n st edb us = (List.range n).filterMap (fun p =>
      access c (serverRun edb (us.take (p + 1)).flatten) k (c.eval^[p] st)) := by
  induction n with
  | zero => intro st edb us; rfl
  | succ n ih =>
    intro st edb us
    rw [sophosLoop, ih, List.range_succ_eq_map, List.filterMap_cons, List.filterMap_map]
    have h0 : (us.take (0 + 1)).flatten = us.headD [] := by cases us <;> simp
    have h1 : (List.range n).filterMap (fun p => access c (serverRun (serverRun edb (us.headD []))
          (us.tail.take (p + 1)).flatten) k (c.eval^[p] (c.eval st))) =
        (List.range n).filterMap ((fun p => access c (serverRun edb (us.take (p + 1)).flatten) k
          (c.eval^[p] st)) ∘ Nat.succ) := by
      apply List.filterMap_congr
      intro p _
      have h2 : (us.take (p.succ + 1)).flatten = us.headD [] ++ (us.tail.take (p + 1)).flatten := by
        cases us <;> simp
      simp only [Function.comp_apply]
      rw [h2, serverRun_append, Function.iterate_succ_apply]
    rw [h0, h1]
    generalize (List.range n).filterMap ((fun p => access c (serverRun edb (us.take (p + 1)).flatten) k
          (c.eval^[p] st)) ∘ Nat.succ) = L
    rw [Function.iterate_zero_apply]
    cases access c (serverRun edb (us.headD [])) k st <;> rfl

/-! ## Search requests of a client -/

theorem eval_iterate_iterate_inv (c : Crypto Kw Seed ST DK) (x : ST) (p : Nat) : ∀ m, p ≤ m →
    c.eval^[p] (c.inv^[m] x) = c.inv^[m - p] x := by
  induction p with
  | zero => intro m _; rfl
  | succ p ih =>
    intro m hm
    obtain ⟨m, rfl⟩ : ∃ q, m = q + 1 := ⟨m - 1, by omega⟩
    rw [Function.iterate_succ_apply, eval_iterate_inv, ih m (by omega)]
    rw [Nat.add_sub_add_right]

/-- The request of a client that made the insertions `H`: the number of lookups and their keys -/
theorem request_spec (c : Crypto Kw Seed ST DK) (g : ST × DK) (H : List (Kw × Index)) (w : Kw)
    (hfit : (Sophos.Spec.docs w H).length < 2 ^ 32) :
    (searchRequest c g (clientRun c Map.empty H).2 w).addCount.toNat = (Sophos.Spec.docs w H).length ∧
    ∀ p, p < (Sophos.Spec.docs w H).length →
      c.prf (searchRequest c g (clientRun c Map.empty H).2 w).derivationKey
        (c.eval^[p] (searchRequest c g (clientRun c Map.empty H).2 w).token) false =
      updateToken c w ((Sophos.Spec.docs w H).length - 1 - p) := by
  have hg : Counter.get (clientRun c Map.empty H).2 w = Counter.counterOf (Sophos.Spec.docs w H).length :=
    clientRun_countersOk c H w
  unfold searchRequest
  rw [hg]
  unfold Counter.counterOf
  by_cases h0 : (Sophos.Spec.docs w H).length = 0
  · rw [if_pos h0, h0]
    exact ⟨rfl, fun p hp => absurd hp (by omega)⟩
  · rw [if_neg h0]
    obtain ⟨n, hn⟩ : ∃ n, (Sophos.Spec.docs w H).length = n + 1 := ⟨(Sophos.Spec.docs w H).length - 1, by omega⟩
    rw [hn, Nat.add_sub_cancel]
    have h1 : (UInt32.ofNat n).toNat = n := by
      simp [UInt32.toNat_ofNat']; omega
    have h2 : (UInt32.ofNat n + 1).toNat = n + 1 := by
      rw [UInt32.toNat_add, h1]; simp; omega
    refine ⟨h2, ?_⟩
    intro p hp
    dsimp only
    rw [h1, eval_iterate_iterate_inv c _ p n (by omega)]
    rfl

theorem keysOf_nodup (c : Crypto Kw Seed ST DK) (g : ST × DK) (H0 H1 : List (Kw × Index)) (w : Kw)
    (hfit : Fits (H0 ++ H1)) (hnc : NoCollision c (H0 ++ H1)) :
    (keysOf c (searchRequest c g (clientRun c Map.empty H0).2 w)).Nodup := by
  have hle : (Sophos.Spec.docs w H0).length ≤ (Sophos.Spec.docs w (H0 ++ H1)).length := by
    simp [Sophos.Spec.docs]
  obtain ⟨h1, h2⟩ := request_spec c g H0 w (Nat.lt_of_le_of_lt hle (hfit w))
  rw [keysOf, h1]
  apply List.Nodup.map_on _ List.nodup_range
  intro p hp q hq h
  rw [List.mem_range] at hp hq
  rw [h2 p hp, h2 q hq] at h
  have := (hnc w _ w _ (by omega) (by omega) h).2
  omega

/-! ## Delivered updates -/

theorem stored_take {α : Type} (f : Nat → Option α) (us : List α) (D : List Nat) (h : us.map some = D.map f) (m : Nat) :
    us.take m = (D.take m).filterMap f := by
  have h1 : (D.take m).filterMap f = ((D.take m).map f).filterMap id := by simp [List.filterMap_map]
  rw [h1, List.map_take, ← h, ← List.map_take]
  simp [List.filterMap_map]

theorem deliver_append (c : Crypto Kw Seed ST DK) (H : List (Kw × Index)) (D0 D1 : List Nat) :
    deliver c H (D0 ++ D1) = serverRun (deliver c H D0) (D1.filterMap (fun k => (clientRun c Map.empty H).1[k]?)) := by
  rw [deliver, List.filterMap_append, serverRun_append]
  rfl

theorem expectedDelivered_eq (w : Kw) (H : List (Kw × Index)) (P : List Nat) :
    Sophos.Spec.expectedDelivered w H P = (Spec.documents w H P).reverse := by
  simp only [Sophos.Spec.expectedDelivered, Spec.documents, Spec.entries, List.filter_map, List.filter_filter,
    List.map_map]
  congr 2
  apply List.filter_congr
  intro e _
  simp [Bool.and_comm]

/-- Updates stored at the time of the lookup of position `k` of the history: `before ++ during.take (T k)` -/
theorem search_times (c : Crypto Kw Seed ST DK) (g : ST × DK) (H0 H1 : List (Kw × Index)) (w : Kw)
    (hfit : Fits (H0 ++ H1)) (hnc : NoCollision c (H0 ++ H1)) (E : Edb) (seen : Nat → List Nat) (P : List Nat)
    (hE : ∀ A i B, H0 = A ++ (w, i) :: B →
      E (updateToken c w (Sophos.Spec.docs w A).length) =
        deliver c (H0 ++ H1) (seen A.length) (updateToken c w (Sophos.Spec.docs w A).length))
    (hP : ∀ A i B, H0 = A ++ (w, i) :: B → (A.length ∈ P ↔ A.length ∈ seen A.length)) :
    search c E (searchRequest c g (clientRun c Map.empty H0).2 w) = (Spec.documents w H0 P).reverse := by
  have hle : (Sophos.Spec.docs w H0).length ≤ (Sophos.Spec.docs w (H0 ++ H1)).length := by
    simp [Sophos.Spec.docs]
  rw [search_descend c g E _ H0 (clientRun_countersOk c H0) w (Nat.lt_of_le_of_lt hle (hfit w)),
    descend_spec c E w P H0, expectedDelivered_eq]
  intro A i B h
  have h1 := deliver_lookup c (H0 ++ H1) (seen A.length) hfit hnc w A i (B ++ H1) (by simp [h])
  refine (hE A i B h).trans (h1.trans ?_)
  by_cases h2 : A.length ∈ P
  · rw [if_pos h2, if_pos ((hP A i B h).mp h2)]
  · rw [if_neg h2, if_neg (fun h3 => h2 ((hP A i B h).mpr h3))]

/-- A search in a database of entries of different moments sees some of the updates stored meanwhile. -/
theorem mixed_search (c : Crypto Kw Seed ST DK) (g : ST × DK) (H0 H1 : List (Kw × Index)) (w : Kw)
    (hfit : Fits (H0 ++ H1)) (hnc : NoCollision c (H0 ++ H1)) (before during : List Nat) (us : List UpdateReq)
    (hus : us.map some = during.map (fun k => (clientRun c Map.empty (H0 ++ H1)).1[k]?)) (E : Edb)
    (hE : Mixed (deliver c (H0 ++ H1) before) us E) :
    ∃ P, Spec.Seen before during P ∧
      search c E (searchRequest c g (clientRun c Map.empty H0).2 w) = (Spec.documents w H0 P).reverse := by
  classical
  choose T hT hET using hE
  let time : Nat → Nat := fun k => T (updateToken c w (Sophos.Spec.docs w (H0.take k)).length)
  let seen : Nat → List Nat := fun k => before ++ during.take (time k)
  refine ⟨before ++ during.filter (fun k => k ∈ seen k), ⟨fun k hk => by simp [hk], ?_⟩,
    search_times c g H0 H1 w hfit hnc E seen _ ?_ ?_⟩
  · intro k hk
    rcases List.mem_append.mp hk with h | h
    · exact Or.inl h
    · exact Or.inr (List.mem_filter.mp h).1
  · intro A i B h
    have htake : H0.take A.length = A := by rw [h]; simp
    have : seen A.length = before ++ during.take (T (updateToken c w (Sophos.Spec.docs w A).length)) := by
      simp only [seen, time, htake]
    rw [this, deliver_append, ← stored_take _ us during hus]
    exact hET _
  · intro A i B _
    constructor
    · intro h
      rcases List.mem_append.mp h with h | h
      · exact List.mem_append_left _ h
      · simpa using (List.mem_filter.mp h).2
    · intro h
      rcases List.mem_append.mp h with h1 | h1
      · exact List.mem_append_left _ h1
      · exact List.mem_append_right _ (List.mem_filter.mpr ⟨List.mem_of_mem_take h1, by simpa using h⟩)

/-- If higher positions are looked up earlier and the updates arrive in order, what is seen is what is stored
at one moment. -/
theorem exists_moment (W : Nat → Prop) (during before : List Nat) (T : Nat → Nat)
    (hT : ∀ j k, W j → W k → k < j → T j ≤ T k)
    (hord : ∀ p q j k : Nat, during[p]? = some k → during[q]? = some j → p < q → W k → W j → k ≤ j) :
    ∃ m, m ≤ during.length ∧ ∀ k, W k → (k ∈ before ++ during.take (T k) ↔ k ∈ before ++ during.take m) := by
  classical
  have hex : ∃ m, ∀ k, W k → k ∈ before ++ during.take (T k) → k ∈ before ++ during.take m :=
    ⟨during.length, fun k _ h => by
      rcases List.mem_append.mp h with h | h
      · exact List.mem_append_left _ h
      · rw [List.take_length]; exact List.mem_append_right _ (List.mem_of_mem_take h)⟩
  refine ⟨Nat.find hex, Nat.find_min' hex (fun k _ h => by
      rcases List.mem_append.mp h with h | h
      · exact List.mem_append_left _ h
      · rw [List.take_length]; exact List.mem_append_right _ (List.mem_of_mem_take h)), ?_⟩
  have hspec := Nat.find_spec hex
  have hmin : ∀ m, m < Nat.find hex → ¬ _ := fun m h => Nat.find_min hex h
  generalize Nat.find hex = M at hspec hmin
  intro k hk
  refine ⟨hspec k hk, ?_⟩
  intro hkM
  by_contra hnf
  rcases List.mem_append.mp hkM with h | h
  · exact hnf (List.mem_append_left _ h)
  obtain ⟨q, hq⟩ := List.getElem?_of_mem h
  rw [List.getElem?_take] at hq
  split at hq
  case isFalse => cases hq
  case isTrue hqM =>
  have hTq : T k ≤ q := by
    by_contra hlt
    apply hnf
    apply List.mem_append_right
    apply List.mem_of_getElem? (i := q)
    rw [List.getElem?_take, if_pos (by omega)]
    exact hq
  obtain ⟨M, rfl⟩ : ∃ m, M = m + 1 := ⟨M - 1, by omega⟩
  have hno := hmin M (by omega)
  simp only [not_forall] at hno
  obtain ⟨j, hj, hjf, hjM⟩ := hno
  have hj1 : during[M]? = some j := by
    have := hspec j hj hjf
    rcases List.mem_append.mp this with h1 | h1
    · exact absurd (List.mem_append_left _ h1) hjM
    · rw [List.take_add_one] at h1
      rcases List.mem_append.mp h1 with h2 | h2
      · exact absurd (List.mem_append_right _ h2) hjM
      · simpa using h2
  have hjk : j ≠ k := by rintro rfl; exact hnf hjf
  have hqlt : q < M := by
    rcases Nat.lt_or_ge q M with h1 | h1
    · exact h1
    · have : q = M := by omega
      subst this
      rw [hq] at hj1
      exact absurd (Option.some.inj hj1).symm hjk
  have hkj := hord q M j k hq hj1 hqlt hk hj
  have hTT := hT j k hj hk (by omega)
  apply hjM
  rcases List.mem_append.mp hjf with h1 | h1
  · exact List.mem_append_left _ h1
  · apply List.mem_append_right
    obtain ⟨x, hx⟩ := List.getElem?_of_mem h1
    rw [List.getElem?_take] at hx
    split at hx
    case isFalse => cases hx
    case isTrue hxT =>
    apply List.mem_of_getElem? (i := x)
    rw [List.getElem?_take, if_pos (by omega)]
    exact hx

theorem flatten_take_eq {α : Type} (us : List (List α)) : ∀ m,
    (us.take m).flatten = us.flatten.take (us.take m).flatten.length := by
  intro m
  conv => rhs; rw [← List.take_append_drop m us, List.flatten_append]
  rw [List.take_append_drop, List.take_left]

theorem flatten_take_mono {α : Type} (us : List (List α)) {m n : Nat} (h : m ≤ n) :
    (us.take m).flatten.length ≤ (us.take n).flatten.length := by
  obtain ⟨d, rfl⟩ := Nat.exists_eq_add_of_le h
  rw [List.take_add, List.flatten_append, List.length_append]
  omega

/-- The sequential search is a search in a database of entries of different moments. -/
theorem sequential_mixed (c : Crypto Kw Seed ST DK) (r : SearchReq ST DK) (edb : Edb) (us : List (List UpdateReq))
    (hnd : (keysOf c r).Nodup) :
    ∃ E, Mixed edb us.flatten E ∧ sophosSearch c r edb us = search c E r ∧
      ∀ p, p < r.addCount.toNat → E (c.prf r.derivationKey (c.eval^[p] r.token) false) =
        serverRun edb (us.flatten.take (us.take (p + 1)).flatten.length)
          (c.prf r.derivationKey (c.eval^[p] r.token) false) := by
  obtain ⟨E, h1, h2⟩ := exists_mixed c r.derivationKey edb us.flatten
    ((List.range r.addCount.toNat).map (fun p => (c.eval^[p] r.token, (us.take (p + 1)).flatten.length)))
    (by
      intro x hx
      obtain ⟨p, -, rfl⟩ := List.mem_map.mp hx
      have := flatten_take_mono us (Nat.le_max_left (p + 1) us.length)
      rw [List.take_of_length_le (Nat.le_max_right (p + 1) us.length)] at this
      exact this)
    (by simpa [keysOf, Function.comp_def] using hnd)
  have h3 : ∀ p, p < r.addCount.toNat → E (c.prf r.derivationKey (c.eval^[p] r.token) false) =
        serverRun edb (us.flatten.take (us.take (p + 1)).flatten.length)
          (c.prf r.derivationKey (c.eval^[p] r.token) false) :=
    fun p hp => h2 _ (List.mem_map.mpr ⟨p, List.mem_range.mpr hp, rfl⟩)
  refine ⟨E, h1, ?_, h3⟩
  rw [sophosSearch, sophosLoop_eq, search_eq_filterMap, List.filterMap_map]
  apply List.filterMap_congr
  intro p hp
  rw [flatten_take_eq us (p + 1)]
  exact access_congr c _ _ (h3 p (List.mem_range.mp hp)).symm

theorem docs_take_le (w : Kw) (H : List (Kw × Index)) {j k : Nat} (h : j ≤ k) :
    (Sophos.Spec.docs w (H.take j)).length ≤ (Sophos.Spec.docs w (H.take k)).length := by
  obtain ⟨d, rfl⟩ := Nat.exists_eq_add_of_le h
  rw [List.take_add]
  simp [Sophos.Spec.docs]

/-- With updates that arrive in order, the sequential search sees what is stored at one moment. -/
theorem sequential_moment (c : Crypto Kw Seed ST DK) (g : ST × DK) (H0 H1 : List (Kw × Index)) (w : Kw)
    (hfit : Fits (H0 ++ H1)) (hnc : NoCollision c (H0 ++ H1)) (before during : List Nat) (us : List (List UpdateReq))
    (hus : us.flatten.map some = during.map (fun k => (clientRun c Map.empty (H0 ++ H1)).1[k]?))
    (hord : Spec.InOrder w H0 during) :
    ∃ P, Spec.Moment before during P ∧
      sophosSearch c (searchRequest c g (clientRun c Map.empty H0).2 w) (deliver c (H0 ++ H1) before) us =
        (Spec.documents w H0 P).reverse := by
  have hle : (Sophos.Spec.docs w H0).length ≤ (Sophos.Spec.docs w (H0 ++ H1)).length := by
    simp [Sophos.Spec.docs]
  obtain ⟨hr1, hr2⟩ := request_spec c g H0 w (Nat.lt_of_le_of_lt hle (hfit w))
  obtain ⟨E, -, h2, h3⟩ := sequential_mixed c (searchRequest c g (clientRun c Map.empty H0).2 w)
    (deliver c (H0 ++ H1) before) us (keysOf_nodup c g H0 H1 w hfit hnc)
  rw [hr1] at h3
  let n := (Sophos.Spec.docs w H0).length
  let T : Nat → Nat := fun k => (us.take (n - 1 - (Sophos.Spec.docs w (H0.take k)).length + 1)).flatten.length
  obtain ⟨m, hm, hmom⟩ := exists_moment (fun k => (H0[k]?).map (·.1) = some w) during before T
    (by
      intro j k _ _ hkj
      apply flatten_take_mono
      have := docs_take_le w H0 (Nat.le_of_lt hkj)
      omega)
    (by
      intro p q j k hp hq hpq hk hj
      obtain ⟨hp1, rfl⟩ := List.getElem?_eq_some_iff.mp hp
      obtain ⟨hq1, rfl⟩ := List.getElem?_eq_some_iff.mp hq
      exact List.pairwise_iff_getElem.mp hord p q hp1 hq1 hpq hk hj)
  refine ⟨before ++ during.take m, ⟨m, hm, rfl⟩, ?_⟩
  rw [h2]
  refine search_times c g H0 H1 w hfit hnc E (fun k => before ++ during.take (T k)) _ ?_ ?_
  · intro A i B h
    have htake : H0.take A.length = A := by rw [h]; simp
    have hlt : (Sophos.Spec.docs w A).length < n := by
      simp only [n, h]
      simp [Sophos.Spec.docs]
    have h4 := h3 (n - 1 - (Sophos.Spec.docs w A).length) (by omega)
    rw [hr2 _ (by omega)] at h4
    have h5 : (Sophos.Spec.docs w H0).length - 1 - (n - 1 - (Sophos.Spec.docs w A).length) =
        (Sophos.Spec.docs w A).length := by
      have : n = (Sophos.Spec.docs w H0).length := rfl
      omega
    rw [h5, stored_take _ us.flatten during hus, ← deliver_append] at h4
    dsimp only [T]
    rw [htake]
    exact h4
  · intro A i B h
    exact (hmom A.length (by rw [h]; simp)).symm

end Verif.Live
