import Verif.Live.Model
import Verif.Live.Spec
import Verif.Diana.ParallelProps

/-! # Lemmas for Diana searches that run while updates are stored -/

set_option linter.unusedSectionVars false

namespace Verif.Live

open Verif Diana

variable {Kw V : Type} [DecidableEq Kw]

/-- Every entry of `E` is one of some moment while `us` were stored. -/
def DianaMixed (edb : Edb V) (us : List (UpdateReq V)) (E : Edb V) : Prop :=
  ∀ key, ∃ m ≤ us.length, E key = dianaRun edb (us.take m) key

theorem dianaRun_append (edb : Edb V) (us vs : List (UpdateReq V)) :
    dianaRun edb (us ++ vs) = dianaRun (dianaRun edb us) vs := by
  simp [dianaRun]

theorem lookup_congr (c : Crypto Kw V) {E E' : Edb V} (leaf : Leaf) (h : E (c.token leaf) = E' (c.token leaf)) :
    lookup c E leaf = lookup c E' leaf := by
  simp [lookup, h]

/-! ## The sequential search -/

theorem dianaLoop_mixed (c : Crypto Kw V) (leaves : List (Nat × Leaf)) :
    ∀ (edb : Edb V) (us : List (List (UpdateReq V))), (leaves.map (fun e => c.token e.2)).Nodup →
    ∃ E, DianaMixed edb us.flatten E ∧
      dianaLoop c leaves edb us = leaves.filterMap (fun e => lookup c E e.2) := by
  induction leaves with
  | nil => intro edb us _; exact ⟨edb, fun key => ⟨0, by omega, rfl⟩, rfl⟩
  | cons e leaves ih =>
    intro edb us hnd
    obtain ⟨i, leaf⟩ := e
    rw [List.map_cons, List.nodup_cons] at hnd
    obtain ⟨E, h1, h2⟩ := ih (dianaRun edb (us.headD [])) us.tail hnd.2
    have hfl : us.flatten = us.headD [] ++ us.tail.flatten := by cases us <;> simp
    refine ⟨fun key => if key = c.token leaf then dianaRun edb (us.headD []) key else E key, ?_, ?_⟩
    · intro key
      rw [hfl]
      by_cases hk : key = c.token leaf
      · exact ⟨(us.headD []).length, by simp, by simp [hk]⟩
      · obtain ⟨m, hm, he⟩ := h1 key
        refine ⟨(us.headD []).length + m, by rw [List.length_append]; omega, ?_⟩
        rw [List.take_length_add_append, dianaRun_append, ← he]
        exact if_neg hk
    · rw [dianaLoop, h2]
      have h3 : leaves.filterMap (fun e => lookup c E e.2) = leaves.filterMap (fun e => lookup c
          (fun key => if key = c.token leaf then dianaRun edb (us.headD []) key else E key) e.2) := by
        apply List.filterMap_congr
        intro e he
        apply lookup_congr
        refine (if_neg ?_).symm
        intro h
        exact hnd.1 (h ▸ List.mem_map.mpr ⟨e, he, rfl⟩)
      rw [h3, List.filterMap_cons]
      dsimp only
      have h4 : (getUnmask c (dianaRun edb (us.headD [])) leaf false).1 = lookup c
          (fun key => if key = c.token leaf then dianaRun edb (us.headD []) key else E key) leaf := by
        unfold getUnmask retrieveEntry lookup
        simp only [if_true]
        cases dianaRun edb (us.headD []) (c.token leaf) <;> rfl
      rw [h4]
      cases lookup c (fun key => if key = c.token leaf then dianaRun edb (us.headD []) key else E key) leaf <;> rfl

/-! ## The parallel search -/

/-- Invariant of the search threads: with the entries read so far fixed to what was read, the threads run as in
a database that does not change. -/
structure LiveInv (c : Crypto Kw V) (edb : Edb V) (Ls : List (List (Nat × Leaf))) (s : ScanState V) (E : Edb V)
    (read : List Token) : Prop where
  now : s.scan.edb = dianaRun edb s.stored
  mixed : DianaMixed edb s.stored E
  keys : (read ++ s.scan.workers.flatMap (Worker.keys c)).Nodup
  run : ∀ E' : Edb V, (∀ k ∈ read, E' k = E k) →
    Relation.ReflTransGen (ScanStep c false) (ScanSys.init E' Ls) { s.scan with edb := E' }
  quiet : ∀ w ∈ s.scan.workers, w.pending = none

theorem liveInv_init (c : Crypto Kw V) (edb : Edb V) (Ls : List (List (Nat × Leaf))) (hnd : (allKeys c Ls).Nodup) :
    LiveInv c edb Ls ⟨ScanSys.init edb Ls, []⟩ edb [] := by
  have h0 := scanInv_init c true edb Ls (fun _ => hnd)
  refine ⟨rfl, fun key => ⟨0, by omega, rfl⟩, by simpa using h0.nodup rfl, fun E' _ => .refl, ?_⟩
  intro w hw
  simp only [ScanSys.init, List.mem_map] at hw
  obtain ⟨L, -, rfl⟩ := hw
  rfl

/-- The entry of a key fixed to what it is now -/
theorem mixed_read (edb : Edb V) (us : List (UpdateReq V)) (E : Edb V) (h : DianaMixed edb us E) (k : Token) :
    DianaMixed edb us (fun key => if key = k then dianaRun edb us key else E key) := by
  intro key
  by_cases hk : key = k
  · exact ⟨us.length, Nat.le_refl _, by simp [hk]⟩
  · obtain ⟨m, hm, he⟩ := h key
    exact ⟨m, hm, by simp [hk, he]⟩

theorem liveInv_read (c : Crypto Kw V) (edb : Edb V) (Ls : List (List (Nat × Leaf))) (s : ScanState V) (E : Edb V)
    (read : List Token) (h : LiveInv c edb Ls s E read) (t i : Nat) (leaf : Leaf) (rest : List (Nat × Leaf))
    (ht : s.scan.workers[t]? = some ⟨(i, leaf) :: rest, none⟩) (trace : List (Nat × V × Nat))
    (hstep : ∀ E' : Edb V, E' (c.token leaf) = s.scan.edb (c.token leaf) →
      ScanStep c false { s.scan with edb := E' }
        { edb := E', workers := s.scan.workers.set t ⟨rest, none⟩, trace := trace }) :
    LiveInv c edb Ls ⟨{ s.scan with workers := s.scan.workers.set t ⟨rest, none⟩, trace := trace }, s.stored⟩
      (fun key => if key = c.token leaf then dianaRun edb s.stored key else E key) (read ++ [c.token leaf]) := by
  have hpk := Counter.set_perm_flatMap s.scan.workers t _ (⟨rest, none⟩ : Worker V) (Worker.keys c)
    [c.token leaf] ht (by simp [Worker.keys])
  have hnd : (read ++ ([c.token leaf] ++ (s.scan.workers.set t ⟨rest, none⟩).flatMap (Worker.keys c))).Nodup :=
    (hpk.append_left read).nodup_iff.mp h.keys
  refine ⟨h.now, mixed_read edb _ E h.mixed _, by rw [List.append_assoc]; exact hnd, ?_, ?_⟩
  · intro E' hE'
    have hold : ∀ k ∈ read, E' k = E k := by
      intro k hk
      have hne : k ≠ c.token leaf := by
        rintro rfl
        exact (List.nodup_append.mp hnd).2.2 _ hk _ (by simp) rfl
      have := hE' k (List.mem_append_left _ hk)
      rwa [if_neg hne] at this
    refine (h.run E' hold).tail (hstep E' ?_)
    have := hE' (c.token leaf) (by simp)
    rw [if_pos rfl] at this
    rw [this, h.now]
  · intro w hw
    rcases List.mem_or_eq_of_mem_set hw with hw | rfl
    · exact h.quiet w hw
    · rfl

theorem liveInv_step (c : Crypto Kw V) (edb : Edb V) (Ls : List (List (Nat × Leaf))) (s s' : ScanState V)
    (hs : ∃ E read, LiveInv c edb Ls s E read) (h : LiveScan c s s') : ∃ E read, LiveInv c edb Ls s' E read := by
  obtain ⟨E, read, hE⟩ := hs
  cases h with
  | put r =>
    refine ⟨E, read, ?_, ?_, hE.keys, hE.run, hE.quiet⟩
    · dsimp only
      rw [hE.now, dianaRun_append]
      rfl
    · intro key
      obtain ⟨m, hm, he⟩ := hE.mixed key
      refine ⟨m, by rw [List.length_append]; omega, ?_⟩
      rw [he, List.take_append_of_le_length hm]
  | scan x hx =>
    obtain ⟨y, us⟩ := s
    cases hx with
    | miss t i leaf rest h hm =>
      refine ⟨_, _, liveInv_read c edb Ls _ E read hE t i leaf rest h y.trace ?_⟩
      intro E' hE'
      exact ScanStep.miss (s := { y with edb := E' }) t i leaf rest h (hE'.trans hm)
    | hit t i leaf rest v h hm hd =>
      refine ⟨_, _, liveInv_read c edb Ls _ E read hE t i leaf rest h (y.trace ++ [(i, c.xor v (c.mask leaf), t)]) ?_⟩
      intro E' hE'
      exact ScanStep.hit (s := { y with edb := E' }) t i leaf rest v h (hE'.trans hm) hd
    | hitDelete t i leaf rest v h hm hd => cases hd
    | remove t i v key rest h =>
      have := hE.quiet _ (List.mem_of_getElem? h)
      cases this

/-- A complete run while updates are stored is one in a database of entries of different moments. -/
theorem parallel_mixed (c : Crypto Kw V) (edb : Edb V) (m : Map Kw UInt32) (w : Kw) (threadsCount : UInt8)
    (ht : threadsCount ≠ 0) (hnc : RequestNoCollision c w (searchRequest c m w).addCount.toNat)
    (stored : List (UpdateReq V)) (trace : List (Nat × V × Nat))
    (h : DianaParallelRun c edb (searchRequest c m w) threadsCount stored trace) :
    ∃ E, DianaMixed edb stored E ∧ ParallelRun c E (searchRequest c m w) threadsCount false trace E := by
  obtain ⟨Ls, s, hL, hs, hd, rfl, rfl⟩ := h
  have hnd : (allKeys c Ls).Nodup := by
    rcases searchRequest_cases c m w with h0 | ⟨n, hn, hn2, ha, hr⟩
    · have hLs : Ls = [] := by
        rw [jobs, if_pos h0] at hL; exact (Option.some.inj hL).symm
      subst hLs
      simp [allKeys]
    · obtain ⟨Ls', hL', hfl, -⟩ := jobs_eq c _ w n hn hn2 ha hr threadsCount ht
      have : Ls = Ls' := Option.some.inj (hL.symm.trans hL')
      subst this
      rw [ha] at hnc
      exact allKeys_nodup c w n hnc Ls hfl
  have hinv : ∃ E read, LiveInv c edb Ls s E read := by
    clear hd
    induction hs with
    | refl => exact ⟨_, _, liveInv_init c edb Ls hnd⟩
    | tail _ hst ih => exact liveInv_step c edb Ls _ _ ih hst
  obtain ⟨E, read, hE⟩ := hinv
  exact ⟨E, hE.mixed, Ls, _, hL, hE.run E (fun _ _ => rfl), hd, rfl, rfl⟩

/-! ## Delivered updates -/

theorem clientRun_assign (c : Crypto Kw V) (H : List (Kw × V)) : ∀ m, clientRun c m H =
    ((Counter.assign m H).1.map (fun e => requestFor c e.1 e.2.1 e.2.2), (Counter.assign m H).2) := by
  induction H with
  | nil => intro m; rfl
  | cons e H ih =>
    intro m
    obtain ⟨w, i⟩ := e
    simp only [clientRun, Counter.assign, insertionRequest, ih, List.map_cons]

theorem docs_take_lt (w : Kw) (H : List (Kw × V)) {j k : Nat} (h : j < k) (hj : (H[j]?).map (·.1) = some w) :
    (Diana.Spec.docs w (H.take j)).length < (Diana.Spec.docs w (H.take k)).length := by
  obtain ⟨e, he, rfl⟩ := Option.map_eq_some_iff.mp hj
  obtain ⟨d, rfl⟩ := Nat.exists_eq_add_of_lt h
  have h1 : j + d + 1 = (j + 1) + d := by omega
  rw [h1, List.take_add, List.take_add_one, he]
  simp [Diana.Spec.docs]

/-- The update at position `k` -/
theorem update_at (c : Crypto Kw V) (H : List (Kw × V)) (k : Nat) (w : Kw) (i : V) (hk : H[k]? = some (w, i))
    (hfit : ∀ v, (Diana.Spec.docs v H).length < 2 ^ 32) :
    (clientRun c Map.empty H).1[k]? = some ⟨updateToken c w (Diana.Spec.docs w (H.take k)).length,
      c.xor i (c.mask (c.eval (c.root (c.hash w)) (Diana.Spec.docs w (H.take k)).length))⟩ := by
  obtain ⟨hlt, he⟩ := List.getElem?_eq_some_iff.mp hk
  have hsplit : H = H.take k ++ (w, i) :: H.drop (k + 1) := by
    conv => lhs; rw [← List.take_append_drop k H]
    rw [List.drop_eq_getElem_cons hlt, he]
  have h1 := Counter.assign_get H (H.take k) w i (H.drop (k + 1)) hsplit
  have hlen : (H.take k).length = k := by simp; omega
  rw [hlen] at h1
  rw [clientRun_assign, List.getElem?_map, h1]
  have h2 : (Diana.Spec.docs w (H.take k)).length < 2 ^ 32 := by
    refine Nat.lt_of_le_of_lt ?_ (hfit w)
    conv => rhs; rw [hsplit]
    simp [Diana.Spec.docs]
  have h3 : (UInt32.ofNat (Counter.cnt w (H.take k))).toNat = (Diana.Spec.docs w (H.take k)).length := by
    simp only [UInt32.toNat_ofNat']
    exact Nat.mod_eq_of_lt h2
  simp only [Option.map_some, requestFor, h3]
  rfl

theorem docs_take_le_diana (w : Kw) (H : List (Kw × V)) (k : Nat) :
    (Diana.Spec.docs w (H.take k)).length ≤ (Diana.Spec.docs w H).length := by
  have h := congrArg (fun l => (Diana.Spec.docs w l).length) (List.take_append_drop k H)
  simp only [Diana.Spec.docs, List.filter_append, List.map_append, List.length_append] at h ⊢
  omega

/-- The entry of position `k` after the updates at positions `D` were stored -/
theorem dianaDeliver_lookup (c : Crypto Kw V) (H : List (Kw × V)) (D : List Nat)
    (hfit : ∀ v, (Diana.Spec.docs v H).length < 2 ^ 32)
    (hnc : NoCollision c (fun v => (Diana.Spec.docs v H).length)) (k : Nat) (w : Kw) (i : V)
    (hk : H[k]? = some (w, i)) :
    dianaDeliver c H D (updateToken c w (Diana.Spec.docs w (H.take k)).length) = if k ∈ D then
      some (c.xor i (c.mask (c.eval (c.root (c.hash w)) (Diana.Spec.docs w (H.take k)).length))) else none := by
  have hin : ∀ j (v : Kw) (x : V), H[j]? = some (v, x) →
      (Diana.Spec.docs v (H.take j)).length < (Diana.Spec.docs v H).length := by
    intro j v x hj
    have h1 := docs_take_lt v H (Nat.lt_succ_self j) (by simp [hj])
    have h2 := docs_take_le_diana v H (j + 1)
    exact Nat.lt_of_lt_of_le h1 h2
  have hsame : ∀ j r, (clientRun c Map.empty H).1[j]? = some r →
      r.token = updateToken c w (Diana.Spec.docs w (H.take k)).length → j = k := by
    intro j r hr ht
    have hj : j < H.length := by
      obtain ⟨hlt, -⟩ := List.getElem?_eq_some_iff.mp hr
      rw [clientRun_assign, List.length_map, Counter.assign_length] at hlt
      exact hlt
    have hj' : H[j]? = some (H[j].1, H[j].2) := List.getElem?_eq_getElem hj
    rw [update_at c H j _ _ hj' hfit] at hr
    have hr' := Option.some.inj hr
    subst hr'
    obtain ⟨h1, h2⟩ := hnc _ _ _ _ (hin j _ _ hj') (hin k w i hk) ht
    rw [h1] at h2 hj'
    rcases Nat.lt_trichotomy j k with h | h | h
    · have := docs_take_lt w H h (by rw [hj']; rfl)
      omega
    · exact h
    · have := docs_take_lt w H h (by rw [hk]; rfl)
      omega
  unfold dianaDeliver dianaRun
  induction D using List.reverseRecOn with
  | nil => rfl
  | append_singleton D j ih =>
    rw [List.filterMap_append, List.foldl_append]
    cases hr : (clientRun c Map.empty H).1[j]? with
    | none =>
      have hne : j ≠ k := by
        rintro rfl
        rw [update_at c H j w i hk hfit] at hr
        cases hr
      simp only [List.filterMap_cons, hr, List.filterMap_nil, List.foldl_nil, ih, List.mem_append, List.mem_singleton]
      simp [Ne.symm hne]
    | some r =>
      simp only [List.filterMap_cons, hr, List.filterMap_nil, List.foldl_cons, List.foldl_nil, serverInsert,
        Map.put_apply]
      by_cases ht : updateToken c w (Diana.Spec.docs w (H.take k)).length = r.token
      · have hjk := hsame j r hr ht.symm
        subst hjk
        rw [update_at c H j w i hk hfit] at hr
        have hr' := Option.some.inj hr
        subst hr'
        simp
      · have hne : j ≠ k := by
          rintro rfl
          rw [update_at c H j w i hk hfit] at hr
          have hr' := Option.some.inj hr
          subst hr'
          exact ht rfl
        rw [if_neg ht, ih]
        simp [Ne.symm hne]

theorem dianaStored_take {α : Type} (f : Nat → Option α) (us : List α) (D : List Nat) (h : us.map some = D.map f)
    (m : Nat) : us.take m = (D.take m).filterMap f := by
  have h1 : (D.take m).filterMap f = ((D.take m).map f).filterMap id := by simp [List.filterMap_map]
  rw [h1, List.map_take, ← h, ← List.map_take]
  simp [List.filterMap_map]

theorem dianaDeliver_append (c : Crypto Kw V) (H : List (Kw × V)) (D0 D1 : List Nat) :
    dianaDeliver c H (D0 ++ D1) =
      dianaRun (dianaDeliver c H D0) (D1.filterMap (fun k => (clientRun c Map.empty H).1[k]?)) := by
  rw [dianaDeliver, List.filterMap_append, dianaRun_append]
  rfl

/-- The slots of `w`: a document or nothing -/
def slotsOpt (w : Kw) (H : List (Kw × V)) (P : List Nat) : List (Option V) :=
  (Spec.entries w H).map (fun e => if e.2 ∈ P then some e.1 else none)

theorem entries_snoc (w v : Kw) (i : V) (H : List (Kw × V)) :
    Spec.entries w (H ++ [(v, i)]) = Spec.entries w H ++ if v = w then [(i, H.length)] else [] := by
  by_cases h : v = w <;> simp [Spec.entries, List.zipIdx_append, h]

theorem entries_length (w : Kw) (H : List (Kw × V)) : (Spec.entries w H).length = (Diana.Spec.docs w H).length := by
  induction H using List.reverseRecOn with
  | nil => rfl
  | append_singleton H e ih =>
    obtain ⟨v, i⟩ := e
    rw [entries_snoc, List.length_append, ih]
    by_cases h : v = w <;> simp [Diana.Spec.docs, h]

theorem slotsOpt_docs (w : Kw) (H : List (Kw × V)) (P : List Nat) :
    (slotsOpt w H P).filterMap id = Spec.documents w H P := by
  unfold slotsOpt Spec.documents
  induction Spec.entries w H with
  | nil => rfl
  | cons e l ih =>
    by_cases h : e.2 ∈ P
    · simpa [h] using ih
    · simpa [h] using ih

/-- The contents of the slots of a database -/
theorem lookups_slots (c : Crypto Kw V) (E : Edb V) (w : Kw) (P : List Nat) (H : List (Kw × V))
    (hE : ∀ k i, H[k]? = some (w, i) → E (updateToken c w (Diana.Spec.docs w (H.take k)).length) = if k ∈ P then
      some (c.xor i (c.mask (c.eval (c.root (c.hash w)) (Diana.Spec.docs w (H.take k)).length))) else none) :
    (List.range (Diana.Spec.docs w H).length).map (fun a => lookup c E (c.eval (c.root (c.hash w)) a)) =
      slotsOpt w H P := by
  induction H using List.reverseRecOn with
  | nil => rfl
  | append_singleton H e ih =>
    obtain ⟨v, i⟩ := e
    have ih' := ih (by
      intro k j hk
      have hlt := (List.getElem?_eq_some_iff.mp hk).1
      have := hE k j (by rw [List.getElem?_append_left hlt]; exact hk)
      rwa [List.take_append_of_le_length (Nat.le_of_lt hlt)] at this)
    rw [slotsOpt, entries_snoc, List.map_append]
    by_cases hv : v = w
    · subst hv
      have h1 : (Diana.Spec.docs v (H ++ [(v, i)])).length = (Diana.Spec.docs v H).length + 1 := by
        simp [Diana.Spec.docs]
      have h2 := hE H.length i (by simp)
      rw [List.take_left] at h2
      rw [h1, List.range_succ, List.map_append, ih']
      simp only [if_true, slotsOpt, List.map_cons, List.map_nil]
      congr 2
      unfold updateToken at h2
      rw [lookup, h2]
      by_cases hP : H.length ∈ P <;> simp [hP, c.xor_xor]
    · have h1 : (Diana.Spec.docs w (H ++ [(v, i)])).length = (Diana.Spec.docs w H).length := by
        simp [Diana.Spec.docs, hv]
      rw [h1, ih', if_neg hv, List.map_nil, List.append_nil]
      rfl

/-- A database of entries of different moments holds the updates stored before and some of those stored
meanwhile. -/
theorem dianaMixed_slots (c : Crypto Kw V) (H0 H1 : List (Kw × V)) (w : Kw)
    (hfit : ∀ v, (Diana.Spec.docs v (H0 ++ H1)).length < 2 ^ 32)
    (hnc : NoCollision c (fun v => (Diana.Spec.docs v (H0 ++ H1)).length)) (before during : List Nat)
    (us : List (UpdateReq V))
    (hus : us.map some = during.map (fun k => (clientRun c Map.empty (H0 ++ H1)).1[k]?)) (E : Edb V)
    (hE : DianaMixed (dianaDeliver c (H0 ++ H1) before) us E) :
    ∃ P, Spec.Seen before during P ∧
      (List.range (Diana.Spec.docs w H0).length).map (fun a => lookup c E (c.eval (c.root (c.hash w)) a)) =
        slotsOpt w H0 P := by
  classical
  choose T hT hET using hE
  let seen : Nat → List Nat := fun k =>
    before ++ during.take (T (updateToken c w (Diana.Spec.docs w (H0.take k)).length))
  refine ⟨before ++ during.filter (fun k => k ∈ seen k), ⟨fun k hk => by simp [hk], ?_⟩,
    lookups_slots c E w _ H0 ?_⟩
  · intro k hk
    rcases List.mem_append.mp hk with h | h
    · exact Or.inl h
    · exact Or.inr (List.mem_filter.mp h).1
  · intro k i hk
    have hlt := (List.getElem?_eq_some_iff.mp hk).1
    have h1 := dianaDeliver_lookup c (H0 ++ H1) (seen k) hfit hnc k w i
      (by rw [List.getElem?_append_left hlt]; exact hk)
    rw [List.take_append_of_le_length (Nat.le_of_lt hlt)] at h1
    have h2 := hET (updateToken c w (Diana.Spec.docs w (H0.take k)).length)
    rw [dianaStored_take _ us during hus, ← dianaDeliver_append] at h2
    refine h2.trans (h1.trans ?_)
    have hiff : k ∈ seen k ↔ k ∈ before ++ during.filter (fun k => k ∈ seen k) := by
      constructor
      · intro h
        rcases List.mem_append.mp h with h1 | h1
        · exact List.mem_append_left _ h1
        · exact List.mem_append_right _ (List.mem_filter.mpr ⟨List.mem_of_mem_take h1, by simpa using h⟩)
      · intro h
        rcases List.mem_append.mp h with h | h
        · exact List.mem_append_left _ h
        · simpa using (List.mem_filter.mp h).2
    by_cases h3 : k ∈ seen k
    · rw [if_pos h3, if_pos (hiff.mp h3)]
    · rw [if_neg h3, if_neg (fun h4 => h3 (hiff.mpr h4))]

/-- The request of a client that made the insertions `H` -/
theorem diana_request (c : Crypto Kw V) (H : List (Kw × V)) (w : Kw) (hfit : (Diana.Spec.docs w H).length < 2 ^ 32) :
    (clientRun c Map.empty H).2 w = Counter.counterOf (Diana.Spec.docs w H).length ∧
    (searchRequest c (clientRun c Map.empty H).2 w).addCount.toNat = (Diana.Spec.docs w H).length := by
  have h1 : (clientRun c Map.empty H).2 w = Counter.counterOf (Diana.Spec.docs w H).length := by
    rw [clientRun_assign]
    have := Counter.assign_countersOk (α := V) (Kw := Kw) Counter.countersOk_empty H
    exact this w
  refine ⟨h1, ?_⟩
  unfold searchRequest
  rw [Counter.get, h1]
  unfold Counter.counterOf
  by_cases h0 : (Diana.Spec.docs w H).length = 0
  · rw [if_pos h0, h0]; rfl
  · rw [if_neg h0]
    have h2 : (UInt32.ofNat ((Diana.Spec.docs w H).length - 1)).toNat = (Diana.Spec.docs w H).length - 1 := by
      simp [UInt32.toNat_ofNat']; omega
    show (UInt32.ofNat ((Diana.Spec.docs w H).length - 1) + 1).toNat = _
    rw [UInt32.toNat_add, h2]
    simp
    omega

end Verif.Live
