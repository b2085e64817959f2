import Verif.Runner.LoadFail
import Verif.Runner.SessionSearch

/-!
# C18: searches after `load_inverted_index`

What a search returns once the call has returned, for both schemes, whatever was lost.
-/

namespace Verif.Runner

open Verif

variable {Kw : Type} [DecidableEq Kw]

/-- The database of the Diana server when the messages have been received -/
def loadedDiana (c : Diana.Crypto Kw Index) (s : Loader Kw) : Diana.Edb Index :=
  (s.sent.map (fun m => Diana.requestFor c m.1 m.2.1 m.2.2)).foldl Diana.serverInsert Map.empty

/-- The documents of the messages of `w`, in the order of the messages -/
def docsOf (w : Kw) (ms : List (Msg Kw)) : List Index := (ms.filter (fun m => m.1 = w)).map (·.2.1)

omit [DecidableEq Kw] in
theorem assign_pairs [DecidableEq Kw] (m : Map Kw UInt32) (H : List (Kw × Index)) :
    (Counter.assign m H).1.map (fun e => (e.1, e.2.1)) = H := by
  induction H generalizing m with
  | nil => rfl
  | cons e H ih => obtain ⟨w, i⟩ := e; simp [Counter.assign, ih]

/-- The documents at some positions, each given once, are those found by looking at the positions one by one. -/
theorem documents_perm (w : Kw) (H : List (Kw × Index)) (D : List Nat) (hnd : D.Nodup) (hD : ∀ k ∈ D, k < H.length) :
    (Live.Spec.documents w H D).Perm
      (((D.filterMap (fun k => H[k]?)).filter (fun e => e.1 = w)).map (·.2)) := by
  have h1 : ((List.range H.length).filter (fun k => k ∈ D)).Perm D := by
    rw [List.perm_ext_iff_of_nodup (List.nodup_range.filter _) hnd]
    intro k
    simp only [List.mem_filter, List.mem_range, decide_eq_true_eq]
    exact ⟨fun h => h.2, fun h => ⟨hD k h, h⟩⟩
  refine List.Perm.trans ?_ ((((h1.filterMap (fun k => H[k]?)).filter _).map _))
  apply List.Perm.of_eq
  unfold Live.Spec.documents Live.Spec.entries
  have h2 : ∀ (l : List (Kw × Index)) (n : Nat),
      ((((l.zipIdx n).filter (fun e => e.1.1 = w)).map (fun e => (e.1.2, e.2))).filter (fun e => e.2 ∈ D)).map (·.1) =
        (((((l.zipIdx n).filter (fun e => e.2 ∈ D)).map (·.1)).filter (fun e => e.1 = w)).map (·.2)) := by
    intro l
    induction l with
    | nil => intro n; rfl
    | cons e l ih =>
      intro n
      have := ih (n + 1)
      by_cases a : e.1 = w <;> by_cases b : n ∈ D <;> simp [List.zipIdx_cons, a, b, this]
  have h3 : ∀ (l : List (Kw × Index)) (n : Nat), (∀ k, l[k]? = H[n + k]?) →
      (((l.zipIdx n).filter (fun e => e.2 ∈ D)).map (·.1)) =
        ((List.range' n l.length).filter (fun k => k ∈ D)).filterMap (fun k => H[k]?) := by
    intro l
    induction l with
    | nil => intro n _; rfl
    | cons e l ih =>
      intro n hk
      have h0 : H[n]? = some e := by simpa using (hk 0).symm
      have := ih (n + 1) (fun k => by
        have := hk (k + 1)
        rw [List.getElem?_cons_succ] at this
        rw [this]; congr 1; omega)
      by_cases b : n ∈ D <;> simp [List.zipIdx_cons, List.range'_succ, b, this, h0]
  have := h3 H 0 (fun k => by simp)
  rw [← List.range_eq_range'] at this
  rw [← this]
  exact h2 H 0

/-- What the client did, as one history `H`: the counters, and the messages that were sent as positions of `H`, each once. -/
theorem load_history {n : Nat} (hn : 1 ≤ n) {file : List (Kw × List Index)} (hnd : (file.map (·.1)).Nodup)
    {s : Loader Kw} (hs : LoadReachable n file s) (hres : s.result = some true) :
    ∃ (H : List (Kw × Index)) (D : List Nat), Counter.CountersOk s.client.counters H ∧ H.Perm (pairs file) ∧
      D.Nodup ∧ (∀ k ∈ D, k < H.length) ∧ s.sent = D.filterMap (fun k => (Counter.assign Map.empty H).1[k]?) ∧
      (s.lost = [] → ∀ k < H.length, k ∈ D) ∧ ∀ x ∈ file, Counter.items x.1 H = x.2 := by
  have hinv := loadReachable_inv hs
  obtain ⟨hdone, hsent⟩ := load_done hn hinv ((result_true hres).1)
  obtain ⟨H, hcnt, hem, hperm, hitems⟩ := Counter.done_sequential (disjoint_of_nodup hnd) hinv.client hdone
  rw [insertions_flatten] at hperm
  have hlen : (Counter.assign Map.empty H).1.length = H.length := Counter.assign_length _ _
  have h1 : ((s.sent ++ s.lost).map some).Perm
      ((List.range H.length).map (fun k => (Counter.assign Map.empty H).1[k]?)) := by
    have h2 : (List.range H.length).map (fun k => (Counter.assign Map.empty H).1[k]?) =
        ((Counter.assign Map.empty H).1).map some := by
      apply List.ext_getElem
      · simp [hlen]
      · intro k h1 h2
        simp only [List.length_map] at h2
        simp [h2]
    rw [h2, ← hem]
    exact hsent.map _
  obtain ⟨D, hD, hl⟩ := perm_map_exists _ _ _ h1
  refine ⟨H, D.take s.sent.length, hcnt, hperm, (hD.nodup_iff.mpr List.nodup_range).sublist (List.take_sublist _ _),
    fun k hk => List.mem_range.mp (hD.mem_iff.mp (List.mem_of_mem_take hk)), ?_, ?_, ?_⟩
  · have h3 := congrArg (fun l => (l.take s.sent.length).filterMap id) hl
    simp only [← List.map_take, List.filterMap_map, List.take_left] at h3
    have h4 : ∀ l : List (Msg Kw), l.filterMap (id ∘ some) = l := by intro l; simp
    rw [h4] at h3
    exact h3
  · intro hlost k hk
    have hlen' : D.length = s.sent.length := by
      have := congrArg List.length hl
      simp [hlost] at this
      omega
    rw [List.take_of_length_le (by omega)]
    exact hD.mem_iff.mpr (List.mem_range.mpr hk)
  · intro x hx
    have hL : x.2.map (fun d => (x.1, d)) ∈ insertions file := List.mem_map.mpr ⟨x, hx, rfl⟩
    have hit : Counter.items x.1 (x.2.map (fun d => (x.1, d))) = x.2 := by
      simp [Counter.items, List.filter_map, Function.comp_def]
    by_cases h0 : x.2 = []
    · rw [h0]
      have h5 : (Counter.items x.1 H).Perm (Counter.items x.1 (pairs file)) := (hperm.filter _).map _
      have h6 : Counter.items x.1 (pairs file) = [] := by
        unfold Counter.items pairs
        rw [List.map_eq_nil_iff, List.filter_eq_nil_iff]
        intro e he hw
        obtain ⟨y, hy, hye⟩ := List.mem_flatMap.mp he
        obtain ⟨d, hd, rfl⟩ := List.mem_map.mp hye
        have hxy : y = x := List.inj_on_of_nodup_map hnd hy hx (by simpa using hw)
        rw [hxy, h0] at hd
        cases hd
      rw [h6] at h5
      exact h5.eq_nil
    · rw [hitems _ hL x.1 (by
        cases hx2 : x.2 with
        | nil => exact absurd hx2 h0
        | cons d ds => simp), hit]

/-- The documents at the positions of the messages that were sent -/
theorem documents_sent {H : List (Kw × Index)} {D : List Nat} (hnd : D.Nodup) (hD : ∀ k ∈ D, k < H.length)
    {ms : List (Msg Kw)} (hms : ms = D.filterMap (fun k => (Counter.assign Map.empty H).1[k]?)) (w : Kw) :
    (Live.Spec.documents w H D).Perm (docsOf w ms) := by
  refine (documents_perm w H D hnd hD).trans (List.Perm.of_eq ?_)
  have h1 : D.filterMap (fun k => H[k]?) = ms.map (fun e => (e.1, e.2.1)) := by
    rw [hms, List.map_filterMap]
    apply List.filterMap_congr
    intro k _
    conv_lhs => rw [← assign_pairs Map.empty H]
    rw [List.getElem?_map]
  rw [h1, docsOf, List.filter_map, List.map_map]
  rfl

/-- **C18, searches** (Sophos): whatever was lost, once the call has returned, the search for any keyword returns exactly the
documents whose messages were sent; in particular, if no `Write` failed, the list of the file, newest first.
Missing: files with a keyword that occurs twice, see C06, and what C18 says of a machine without known number of processors. -/
theorem C18_sophos_search_partial {Seed ST DK : Type} (c : Sophos.Crypto Kw Seed ST DK) (garbage : ST × DK) {n : Nat}
    (hn : 1 ≤ n) {file : List (Kw × List Index)} (hnd : (file.map (·.1)).Nodup)
    (hfit : Sophos.Fits (pairs file)) (hnc : Sophos.NoCollision c (pairs file))
    {s : Loader Kw} (hs : LoadReachable n file s) (hres : s.result = some true) :
    (∀ w, (Sophos.search c (loadedEdb c s) (Sophos.searchRequest c garbage s.client.counters w)).Perm (docsOf w s.sent)) ∧
    (s.lost = [] → ∀ x ∈ file,
      Sophos.search c (loadedEdb c s) (Sophos.searchRequest c garbage s.client.counters x.1) = x.2.reverse) := by
  obtain ⟨H, D, hcnt, hperm, hDn, hDl, hsent, hall, hitems⟩ := load_history hn hnd hs hres
  have hlen : ∀ v, (Sophos.Spec.docs v H).length = (Sophos.Spec.docs v (pairs file)).length :=
    fun v => ((hperm.filter _).map _).length_eq
  have hfitH : Sophos.Fits H := fun v => by rw [hlen]; exact hfit v
  have hncH : Sophos.NoCollision c H := fun v a u b ha hb h =>
    hnc v a u b (by rwa [← hlen]) (by rwa [← hlen]) h
  have hcm : s.client.counters = (Sophos.clientRun c Map.empty H).2 := by
    apply Map.ext; intro v
    rw [hcnt v, Sophos.clientRun_countersOk c H v]
  have hedb : loadedEdb c s = Sophos.deliver c H D := by
    unfold loadedEdb Sophos.deliver
    rw [hsent, List.map_filterMap, Sophos.clientRun_eq_assign]
    congr 1
    apply List.filterMap_congr
    intro k _
    rw [List.getElem?_map]
  rw [hcm, hedb]
  refine ⟨fun w => ?_, fun hlost x hx => ?_⟩
  · rw [Sophos.C04_search_delivered c garbage H D hfitH hncH w, Sess.expectedDelivered_documents]
    exact (List.reverse_perm _).trans (documents_sent hDn hDl hsent w)
  · rw [Sophos.C04_search_delivered c garbage H D hfitH hncH x.1, Sophos.expectedDelivered_all x.1 H D (hall hlost)]
    unfold Sophos.Spec.expected
    rw [Sophos.docs_eq_items, hitems x hx]

/-- A file with two keywords, one of them without documents, loaded by three threads, and the search after it -/
example : ∃ s : Loader Bool, LoadReachable 3 [(true, [5, 6]), (false, [])] s ∧ s.result = some true ∧
    Sophos.search Sophos.Toy.crypto (loadedEdb Sophos.Toy.crypto s)
      (Sophos.searchRequest Sophos.Toy.crypto (0, false) s.client.counters true) = [6, 5] ∧
    Sophos.search Sophos.Toy.crypto (loadedEdb Sophos.Toy.crypto s)
      (Sophos.searchRequest Sophos.Toy.crypto (0, false) s.client.counters false) = [] := by
  obtain ⟨s, h, hr, hl⟩ := exists_good_run 3 [(true, [(5 : Index), 6]), (false, [])]
  have := (C18_sophos_search_partial Sophos.Toy.crypto (0, false) (by decide) (by decide)
    (fun v => by cases v <;> decide) (Sophos.Toy.noCollision _ (by decide)) h hr).2 hl
  exact ⟨s, h, hr, this (true, [5, 6]) (by decide), this (false, []) (by decide)⟩

/-- The same file when the stream is broken: nothing is found. -/
example : ∃ s : Loader Bool, LoadReachable 3 [(true, [5, 6]), (false, [])] s ∧ s.result = some true ∧
    Sophos.search Sophos.Toy.crypto (loadedEdb Sophos.Toy.crypto s)
      (Sophos.searchRequest Sophos.Toy.crypto (0, false) s.client.counters true) = [] := by
  obtain ⟨s, h, hr, hl⟩ := C18_broken_stream 3 [(true, [(5 : Index), 6]), (false, [])]
  have := (C18_sophos_search_partial Sophos.Toy.crypto (0, false) (by decide) (by decide)
    (fun v => by cases v <;> decide) (Sophos.Toy.noCollision _ (by decide)) h hr).1 true
  rw [hl] at this
  exact ⟨s, h, hr, this.eq_nil⟩

/-- **C18, searches** (Diana): the same, oldest first.
Missing: files with a keyword that occurs twice, see C06, and what C18 says of a machine without known number of processors. -/
theorem C18_diana_search_partial (c : Diana.Crypto Kw Index) {n : Nat}
    (hn : 1 ≤ n) {file : List (Kw × List Index)} (hnd : (file.map (·.1)).Nodup)
    (hfit : ∀ v, (Diana.Spec.docs v (pairs file)).length < 2 ^ 32)
    (hnc : Diana.NoCollision c (fun v => (Diana.Spec.docs v (pairs file)).length))
    {s : Loader Kw} (hs : LoadReachable n file s) (hres : s.result = some true) :
    (∀ w, ∃ r, Diana.search c (loadedDiana c s) (Diana.searchRequest c s.client.counters w) false =
        some (r, loadedDiana c s) ∧ r.Perm (docsOf w s.sent)) ∧
    (s.lost = [] → ∀ x ∈ file,
      Diana.search c (loadedDiana c s) (Diana.searchRequest c s.client.counters x.1) false =
        some (x.2, loadedDiana c s)) := by
  obtain ⟨H, D, hcnt, hperm, hDn, hDl, hsent, hall, hitems⟩ := load_history hn hnd hs hres
  have hlen : ∀ v, (Diana.Spec.docs v H).length = (Diana.Spec.docs v (pairs file)).length :=
    fun v => ((hperm.filter _).map _).length_eq
  have hfitH : ∀ v, (Diana.Spec.docs v H).length < 2 ^ 32 := fun v => by rw [hlen]; exact hfit v
  have hncH : Diana.NoCollision c (fun v => (Diana.Spec.docs v H).length) := fun v a u b ha hb h =>
    hnc v a u b (by simpa only [← hlen] using ha) (by simpa only [← hlen] using hb) h
  have hcm : s.client.counters = (Diana.clientRun c Map.empty H).2 := by
    apply Map.ext; intro v
    rw [hcnt v, (Live.diana_request c H v (hfitH v)).1]
    rfl
  have hedb : loadedDiana c s = Live.dianaDeliver c H D := by
    unfold loadedDiana Live.dianaDeliver Live.dianaRun
    rw [hsent, List.map_filterMap, Live.clientRun_assign]
    congr 1
    apply List.filterMap_congr
    intro k _
    rw [List.getElem?_map]
  have key : ∀ w, Diana.search c (loadedDiana c s) (Diana.searchRequest c s.client.counters w) false =
      some (Live.Spec.documents w H D, loadedDiana c s) := by
    intro w
    have h1 := Sess.diana_delivered c H D w hfitH hncH
    obtain ⟨hc, -⟩ := Live.diana_request c H w (hfitH w)
    rw [hcm, hedb]
    have h3 := Diana.search_request c (Live.dianaDeliver c H D) _ w _ hc (hfitH w) false
    by_cases h0 : (Diana.searchRequest c (Diana.clientRun c Map.empty H).2 w).addCount = 0
    · rw [if_pos h0] at h1
      rw [Diana.search, if_pos h0, ← Option.some.inj h1]
    · rw [if_neg h0] at h1
      rw [h3] at h1 ⊢
      have h4 := Option.some.inj h1
      rw [← h4]
      simp [Diana.searchLoop_keep]
  refine ⟨fun w => ⟨_, key w, documents_sent hDn hDl hsent w⟩, fun hlost x hx => ?_⟩
  rw [key x.1]
  have h2 : Live.Spec.documents x.1 H D = (Sophos.Spec.expectedDelivered x.1 H D).reverse := by
    rw [Sess.expectedDelivered_documents, List.reverse_reverse]
  rw [h2, Sophos.expectedDelivered_all x.1 H D (hall hlost), Sophos.Spec.expected, List.reverse_reverse,
    Sophos.docs_eq_items, hitems x hx]

/-- The same file as above -/
example : ∃ s : Loader Bool, LoadReachable 3 [(true, [5, 6]), (false, [])] s ∧ s.result = some true ∧
    Diana.search Diana.Toy.crypto (loadedDiana Diana.Toy.crypto s)
      (Diana.searchRequest Diana.Toy.crypto s.client.counters true) false =
        some ([5, 6], loadedDiana Diana.Toy.crypto s) := by
  obtain ⟨s, h, hr, hl⟩ := exists_good_run 3 [(true, [(5 : Index), 6]), (false, [])]
  have := (C18_diana_search_partial Diana.Toy.crypto (by decide) (by decide)
    (fun v => by cases v <;> decide) (Diana.Toy.noCollision _ (fun v => by cases v <;> decide)) h hr).2 hl
  exact ⟨s, h, hr, this (true, [5, 6]) (by decide)⟩

end Verif.Runner
