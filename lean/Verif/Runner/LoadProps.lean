import Verif.Runner.LoadLemmas
import Verif.Sophos.Props

/-!
# C18: bulk loading of an inverted index

The call inserts everything if the machine reports at least one thread and if no `Write` fails. If one of
these is not the case, the result is `true` all the same.
-/

namespace Verif.Runner

variable {Kw Seed ST DK : Type} [DecidableEq Kw]

/-- The pairs of an inverted index -/
def pairs (file : List (Kw × List Index)) : List (Kw × Index) :=
  file.flatMap (fun x => x.2.map (fun d => (x.1, d)))

omit [DecidableEq Kw] in
theorem insertions_flatten (file : List (Kw × List Index)) : (insertions file).flatten = pairs file := by
  rw [List.flatten_eq_flatMap, insertions, List.flatMap_map]
  rfl

/-- **C18 (part that holds)**: with at least one worker and no failed `Write`, in every schedule in which the
call returns success, exactly the pairs of the file have been sent. Missing: `hardware_concurrency()` equal
to 0 and failing writes, for which the claim is false, see `C18_no_worker` and `C18_broken_stream`. -/
theorem C18_all_sent_partial {n : Nat} (hn : 1 ≤ n) {file : List (Kw × List Index)} {s : Loader Kw}
    (hs : LoadReachable n file s) (hres : s.result = some true) (hlost : s.lost = []) :
    (s.sent.map (fun m => (m.1, m.2.1))).Perm (pairs file) := by
  have h := emitted_perm hn (loadReachable_inv hs) ((result_true hres).1)
  rwa [hlost, List.append_nil, insertions_flatten] at h

/-- **C18, failed writes**: in general, exactly the pairs whose `Write` failed are missing. -/
theorem C18_missing_are_lost {n : Nat} (hn : 1 ≤ n) {file : List (Kw × List Index)} {s : Loader Kw}
    (hs : LoadReachable n file s) (hres : s.result = some true) :
    (s.sent.map (fun m => (m.1, m.2.1)) ++ s.lost.map (fun m => (m.1, m.2.1))).Perm (pairs file) := by
  have h := emitted_perm hn (loadReachable_inv hs) ((result_true hres).1)
  rwa [List.map_append, insertions_flatten] at h

/-- The database of the Sophos server when the messages have been received -/
def loadedEdb (c : Sophos.Crypto Kw Seed ST DK) (s : Loader Kw) : Sophos.Edb :=
  Sophos.serverRun Map.empty (s.sent.map (fun m => Sophos.requestFor c m.1 m.2.1 m.2.2))

omit [DecidableEq Kw] in
theorem disjoint_of_nodup : ∀ {file : List (Kw × List Index)}, (file.map (·.1)).Nodup →
    Counter.Disjoint (insertions file) := by
  intro file hnd t t' L L' h h' hne w hw hw'
  unfold insertions at h h'
  rw [List.getElem?_map] at h h'
  obtain ⟨x, hx, rfl⟩ := Option.map_eq_some_iff.mp h
  obtain ⟨x', hx', rfl⟩ := Option.map_eq_some_iff.mp h'
  have e : x.1 = x'.1 := by
    simp only [List.map_map, List.mem_map, Function.comp] at hw hw'
    obtain ⟨_, -, rfl⟩ := hw
    obtain ⟨_, -, h2⟩ := hw'
    exact h2.symm
  obtain ⟨ht, ht2⟩ := List.getElem?_eq_some_iff.mp hx
  obtain ⟨ht', ht2'⟩ := List.getElem?_eq_some_iff.mp hx'
  refine hne ((List.getElem?_inj (by simpa using ht) hnd).mp ?_)
  rw [List.getElem?_map, List.getElem?_map, hx, hx', Option.map_some, Option.map_some, e]

/-- **C18, searches**: if moreover no keyword occurs twice in the file, a search for a keyword of the file
returns the documents of its list, for Sophos. -/
theorem C18_search_after_load_partial (c : Sophos.Crypto Kw Seed ST DK) (garbage : ST × DK) {n : Nat} (hn : 1 ≤ n)
    {file : List (Kw × List Index)} (hnd : (file.map (·.1)).Nodup)
    (hfit : Sophos.Fits (pairs file)) (hnc : Sophos.NoCollision c (pairs file))
    {s : Loader Kw} (hs : LoadReachable n file s) (hres : s.result = some true) (hlost : s.lost = [])
    {w : Kw} {ds : List Index} (hw : (w, ds) ∈ file) (hne : ds ≠ []) :
    Sophos.search c (loadedEdb c s) (Sophos.searchRequest c garbage s.client.counters w) = ds.reverse := by
  have hinv := loadReachable_inv hs
  obtain ⟨hdone, hsent⟩ := load_done hn hinv ((result_true hres).1)
  rw [hlost, List.append_nil] at hsent
  rw [← insertions_flatten] at hfit hnc
  obtain ⟨H, hcnt, hem, hperm, hitems⟩ := Counter.done_sequential (disjoint_of_nodup hnd) hinv.client hdone
  have hlen : ∀ v, (Sophos.Spec.docs v H).length = (Sophos.Spec.docs v (insertions file).flatten).length := by
    intro v
    exact ((hperm.filter _).map _).length_eq
  have hfitH : Sophos.Fits H := fun v => by rw [hlen]; exact hfit v
  have hncH : Sophos.NoCollision c H := fun v a u b ha hb h =>
    hnc v a u b (by rwa [← hlen]) (by rwa [← hlen]) h
  have hcm : s.client.counters = (Sophos.clientRun c Map.empty H).2 := by
    apply Map.ext; intro v
    rw [hcnt v, Sophos.clientRun_countersOk c H v]
  obtain ⟨D, hD, hedb⟩ : ∃ D : List Nat, D.Perm (List.range H.length) ∧ loadedEdb c s = Sophos.deliver c H D := by
    have h1 : ((s.sent.map (fun m => Sophos.requestFor c m.1 m.2.1 m.2.2)).map some).Perm
        ((List.range H.length).map (fun k => (Sophos.clientRun c Map.empty H).1[k]?)) := by
      have h2 : (List.range H.length).map (fun k => (Sophos.clientRun c Map.empty H).1[k]?) =
          ((Sophos.clientRun c Map.empty H).1).map some := by
        apply List.ext_getElem
        · simp [Sophos.clientRun_length]
        · intro k h1 h2
          simp only [List.length_map] at h2
          simp [h2]
      rw [h2, Sophos.clientRun_eq_assign, ← hem]
      exact (hsent.map _).map _
    obtain ⟨D, hD, hl⟩ := perm_map_exists _ _ _ h1
    refine ⟨D, hD, ?_⟩
    unfold loadedEdb Sophos.deliver
    have h3 := congrArg (List.filterMap id) hl
    have h4 : ∀ l : List Sophos.UpdateReq, (l.map some).filterMap id = l := by intro l; simp
    rw [h4, List.filterMap_map] at h3
    rw [h3]
    rfl
  have hL : ds.map (fun d => (w, d)) ∈ insertions file := List.mem_map.mpr ⟨(w, ds), hw, rfl⟩
  have hwL : w ∈ (ds.map (fun d => (w, d))).map (·.1) := by
    cases ds with
    | nil => exact absurd rfl hne
    | cons d ds => simp
  rw [hcm, hedb, Sophos.C04_search_delivered c garbage H _ hfitH hncH w,
    Sophos.expectedDelivered_all w H _ (fun k hk => hD.mem_iff.mpr (List.mem_range.mpr hk))]
  unfold Sophos.Spec.expected
  rw [Sophos.docs_eq_items, hitems _ hL w hwL, ← Sophos.docs_eq_items]
  congr 1
  unfold Sophos.Spec.docs
  simp [List.filter_map, Function.comp_def]

/-- **C18 is violated if `hardware_concurrency()` is 0**: for every file there is a run in which the call
returns success, and in no run anything is sent. -/
theorem C18_no_worker (file : List (Kw × List Index)) :
    (∃ s : Loader Kw, LoadReachable 0 file s ∧ s.result = some true) ∧
      ∀ s : Loader Kw, LoadReachable 0 file s → s.sent = [] := by
  constructor
  · obtain ⟨p, hp, hstuck⟩ := ThreadPool.exists_stuck (R := ThreadPool.SeqStep (some : Nat → Option Nat))
      (μ := ThreadPool.Sys.weight) (fun _ _ h => by cases h with | step h _ => exact ThreadPool.sys_weight_step h)
      (ThreadPool.Sys.init 0 [List.range file.length])
    obtain ⟨s, hs, rfl⟩ := no_worker_lift (Kw := Kw) (file := file) hp
    exact ⟨s, hs, by unfold Loader.result; rw [(ThreadPool.seq_stuck hp hstuck).1]⟩
  · intro s hs
    exact (no_worker_inv hs).2.2.1

/-- **C18, no deadlock**: from every reachable state the call can return, whether the stream is up or down
from then on. -/
theorem C18_returns {n : Nat} {file : List (Kw × List Index)} (up : Bool) (s : Loader Kw)
    (hs : LoadReachable n file s) :
    ∃ s', Relation.ReflTransGen LoadStep s s' ∧ s'.result = some true ∧ (up = true → s'.lost = s.lost) ∧
      (up = false → s'.sent = s.sent) :=
  load_completes up s hs

/-- **C18 is violated if the stream breaks**: whatever the file and the number of threads, there is a run in
which nothing is sent and the call returns success. -/
theorem C18_broken_stream (n : Nat) (file : List (Kw × List Index)) :
    ∃ s : Loader Kw, LoadReachable n file s ∧ s.result = some true ∧ s.sent = [] := by
  obtain ⟨s, h, hr, -, hs⟩ := load_completes false (Loader.init n file) .refl
  exact ⟨s, h, hr, hs rfl⟩

/-- Non-vacuity: for every file and number of threads there is a complete run without failed write. -/
theorem exists_good_run (n : Nat) (file : List (Kw × List Index)) :
    ∃ s : Loader Kw, LoadReachable n file s ∧ s.result = some true ∧ s.lost = [] := by
  obtain ⟨s, h, hr, hl, -⟩ := load_completes true (Loader.init n file) .refl
  exact ⟨s, h, hr, hl rfl⟩

/-- A file with two keywords, loaded by three threads, and the search after it -/
example : ∃ s : Loader Bool, LoadReachable 3 [(true, [5, 6]), (false, [7])] s ∧ s.result = some true ∧
    Sophos.search Sophos.Toy.crypto (loadedEdb Sophos.Toy.crypto s)
      (Sophos.searchRequest Sophos.Toy.crypto (0, false) s.client.counters true) = [6, 5] := by
  obtain ⟨s, h, hr, hl⟩ := exists_good_run 3 [(true, [(5 : Index), 6]), (false, [7])]
  refine ⟨s, h, hr, ?_⟩
  refine (C18_search_after_load_partial Sophos.Toy.crypto (0, false) (by decide) (by decide) ?_ ?_ h hr hl
    (ds := [5, 6]) (by decide) (by decide)).trans (by decide)
  · intro v
    cases v <;> decide
  · exact Sophos.Toy.noCollision _ (by decide)

end Verif.Runner
