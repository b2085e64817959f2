import Verif.Diana.ParallelLemmas
import Verif.Diana.Props

/-!
# Diana: C08, C09
-/

set_option linter.unusedSectionVars false

namespace Verif.Diana

open Verif

variable {Kw V : Type} [DecidableEq Kw]

/-! ## C08 -/

/-- **C08**: the ranges handed to the threads are non-empty, and put end to end they are the
positions `0 .. add_count - 1`, each once and in order. -/
theorem C08_partition (threadsCount : UInt8) (addCount : UInt32) (ht : threadsCount ≠ 0)
    (hn : addCount ≠ 0) :
    ∃ rs, ranges threadsCount addCount = some rs ∧
      rs.length = min threadsCount.toNat addCount.toNat ∧ (∀ r ∈ rs, r.1 ≤ r.2) ∧
      rs.flatMap (fun r => List.range' r.1 (r.2 + 1 - r.1)) = List.range addCount.toNat := by
  have hn' : 0 < addCount.toNat := by
    have : addCount.toNat ≠ 0 := fun h => hn (UInt32.toNat_inj.mp h)
    omega
  obtain ⟨h1, h2, h3⟩ := effective_pos (n := addCount.toNat) ht hn'
  have hs : 1 ≤ addCount.toNat / effective threadsCount addCount.toNat :=
    (Nat.one_le_div_iff h1).mpr h2
  refine ⟨_, ranges_eq threadsCount addCount ht hn', ?_, ?_, ?_⟩
  · have := threadsCount.toNat_lt
    simp only [List.length_map, List.length_range, effective]
    show min (min _ _) _ = _
    omega
  · intro r hr
    rw [List.mem_map] at hr
    obtain ⟨t, -, rfl⟩ := hr
    have e1 := lo_succ (addCount.toNat / effective threadsCount addCount.toNat)
      (addCount.toNat % effective threadsCount addCount.toNat) t
    simp only
    split at e1 <;> omega
  · have := flatMap_range'_lo (addCount.toNat / effective threadsCount addCount.toNat)
      (addCount.toNat % effective threadsCount addCount.toNat)
      (effective threadsCount addCount.toNat)
    rw [lo_top _ _ h1] at this
    rw [← this, List.flatMap_map]
    apply List.flatMap_congr
    intro t _
    have e1 := lo_succ (addCount.toNat / effective threadsCount addCount.toNat)
      (addCount.toNat % effective threadsCount addCount.toNat) t
    congr 1
    split at e1 <;> omega

/-- The tokens of the positions of a request do not collide. -/
def RequestNoCollision (c : Crypto Kw V) (w : Kw) (n : Nat) : Prop :=
  ∀ a b, a < n → b < n → updateToken c w a = updateToken c w b → a = b

theorem allKeys_nodup (c : Crypto Kw V) (w : Kw) (n : Nat) (h : RequestNoCollision c w n)
    (Ls : List (List (Nat × Leaf))) (hf : Ls.flatten = leavesOf c w n) : (allKeys c Ls).Nodup := by
  rw [allKeys, hf, tokens_leavesOf]
  apply List.Nodup.map_on _ List.nodup_range
  intro a ha b hb hab
  exact h a b (List.mem_range.mp ha) (List.mem_range.mp hb) hab

/-- Common part of the C08 theorems: what a finished parallel run has done, compared with the
sequential search of the same request. -/
theorem parallel_run (c : Crypto Kw V) (edb : Edb V) (m : Map Kw UInt32) (w : Kw)
    (threadsCount : UInt8) (ht : threadsCount ≠ 0) (del : Bool)
    (hnc : del = true → RequestNoCollision c w (searchRequest c m w).addCount.toNat)
    (trace : List (Nat × V × Nat)) (edb' : Edb V)
    (h : ParallelRun c edb (searchRequest c m w) threadsCount del trace edb') :
    search c edb (searchRequest c m w) del = some (listResult threadsCount trace, edb') ∧
    (trace.map (fun e => (e.1, e.2.1))).Perm
      ((leavesOf c w (searchRequest c m w).addCount.toNat).filterMap (look c edb)) := by
  obtain ⟨Ls, s, hL, hs, hdone, rfl, rfl⟩ := h
  rcases searchRequest_cases c m w with h0 | ⟨n, hn, hn2, ha, hr⟩
  · have hLs : Ls = [] := by
      rw [jobs, if_pos h0] at hL; exact (Option.some.inj hL).symm
    subst hLs
    obtain ⟨-, hp, he, hid⟩ := scan_done c del edb [] (by intro _; simp [allKeys]) s hs hdone
    have ht0 : s.trace = [] := by simpa using hp
    have hedb : s.edb = edb := by
      apply Map.ext; intro k; rw [he k]; simp [allKeys]
    constructor
    · rw [search, if_pos h0, ht0, hedb]; simp [listResult]
    · rw [h0]; simp [leavesOf, ht0]
  · obtain ⟨Ls', hL', hfl, hlen⟩ := jobs_eq c _ w n hn hn2 ha hr threadsCount ht
    have : Ls = Ls' := Option.some.inj (hL.symm.trans hL')
    subst this
    rw [ha] at hnc ⊢
    have hnd : del = true → (allKeys c Ls).Nodup := fun hd => allKeys_nodup c w n (hnc hd) Ls hfl
    obtain ⟨hc, hp, he, hid⟩ := scan_done c del edb Ls hnd s hs hdone
    constructor
    · rw [search_leaves c edb _ w n hn hn2 ha hr,
        splice_eq Ls c edb s.trace threadsCount hlen hc hid, hfl]
      congr 1
      cases del with
      | false =>
        rw [searchLoop_keep]
        congr 1
        apply Map.ext; intro k; rw [he k]; simp
      | true =>
        have hnd' := hnd rfl
        rw [allKeys, hfl] at hnd'
        obtain ⟨h1, h2⟩ := searchLoop_delete c edb (leavesOf c w n) hnd'
        rw [← h1]
        refine Prod.ext rfl ?_
        apply Map.ext; intro k
        show (searchLoop c true edb (leavesOf c w n)).2 k = s.edb k
        rw [he k, h2 k, allKeys, hfl]
        exact if_congr (by simp) rfl rfl
    · rw [hfl] at hp; exact hp

/-- **C08**, list variant: for every request of a client, every thread count from 1 to 255 and
every schedule, the parallel search returns exactly the list of the sequential search and leaves
the same database, with or without deletion. -/
theorem C08_list (c : Crypto Kw V) (edb : Edb V) (m : Map Kw UInt32) (w : Kw)
    (threadsCount : UInt8) (ht : threadsCount ≠ 0) (del : Bool)
    (hnc : del = true → RequestNoCollision c w (searchRequest c m w).addCount.toNat)
    (trace : List (Nat × V × Nat)) (edb' : Edb V)
    (h : ParallelRun c edb (searchRequest c m w) threadsCount del trace edb') :
    search c edb (searchRequest c m w) del = some (listResult threadsCount trace, edb') :=
  (parallel_run c edb m w threadsCount ht del hnc trace edb' h).1

theorem positions_nodup (c : Crypto Kw V) (edb : Edb V) (w : Kw) (n : Nat) :
    (((leavesOf c w n).filterMap (look c edb)).map (·.1)).Nodup := by
  have hsub : (((leavesOf c w n).filterMap (look c edb)).map (·.1)).Sublist (List.range n) := by
    unfold leavesOf
    induction List.range n with
    | nil => simp
    | cons a l ih =>
      simp only [List.map_cons, List.filterMap_cons]
      cases hl : look c edb (a, c.eval (c.root (c.hash w)) a) with
      | none => exact ih.cons a
      | some p =>
        have : p.1 = a := by
          unfold look at hl
          cases hlk : lookup c edb (c.eval (c.root (c.hash w)) a) with
          | none => simp [hlk] at hl
          | some v => simp [hlk] at hl; rw [← hl]
        simp only [List.map_cons, this]
        exact ih.cons_cons a
  exact hsub.nodup List.nodup_range

/-- **C08**, callback variants: the callbacks report the same multiset as the sequential search,
each position at most once. -/
theorem C08_callback (c : Crypto Kw V) (edb : Edb V) (m : Map Kw UInt32) (w : Kw)
    (threadsCount : UInt8) (ht : threadsCount ≠ 0) (del : Bool)
    (hnc : del = true → RequestNoCollision c w (searchRequest c m w).addCount.toNat)
    (trace : List (Nat × V × Nat)) (edb' : Edb V)
    (h : ParallelRun c edb (searchRequest c m w) threadsCount del trace edb') :
    (∃ res, search c edb (searchRequest c m w) del = some (res, edb') ∧
      (callbackResult trace).Perm res) ∧ (trace.map (·.1)).Nodup := by
  obtain ⟨h1, h2⟩ := parallel_run c edb m w threadsCount ht del hnc trace edb' h
  have hnd : (trace.map (·.1)).Nodup := by
    have hp := (h2.map (·.1)).nodup_iff.mpr (positions_nodup c edb w _)
    rw [List.map_map] at hp
    exact hp
  refine ⟨⟨_, h1, ?_⟩, hnd⟩
  · have hv := h2.map (·.2)
    rw [List.map_map, look_values] at hv
    have hres : listResult threadsCount trace =
        (leavesOf c w (searchRequest c m w).addCount.toNat).filterMap
          (fun e => lookup c edb e.2) := by
      rcases searchRequest_cases c m w with h0 | ⟨n, hn, hn2, ha, hr⟩
      · rw [search, if_pos h0] at h1
        have := (Prod.mk.inj (Option.some.inj h1)).1
        rw [← this, h0]; simp [leavesOf]
      · rw [search_leaves c edb _ w n hn hn2 ha hr] at h1
        have e1 := congrArg Prod.fst (Option.some.inj h1)
        simp only at e1
        rw [ha] at hnc ⊢
        rw [← e1]
        cases del with
        | false => rw [searchLoop_keep]
        | true =>
          refine (searchLoop_delete c edb _ ?_).1
          rw [tokens_leavesOf]
          apply List.Nodup.map_on _ List.nodup_range
          intro a ha b hb hab
          exact hnc rfl a b (List.mem_range.mp ha) (List.mem_range.mp hb) hab
    rw [hres]
    exact hv

/-- Slots of the vector filled by the parallel search: slot `i` holds the value found at position
`i`, or what `resize` (or the caller) put there if nothing was found. -/
theorem vector_slots (c : Crypto Kw V) (edb : Edb V) (m : Map Kw UInt32) (w : Kw)
    (threadsCount : UInt8) (ht : threadsCount ≠ 0) (del : Bool)
    (hnc : del = true → RequestNoCollision c w (searchRequest c m w).addCount.toNat)
    (trace : List (Nat × V × Nat)) (edb' : Edb V) (zero : V) (results : List V)
    (h : ParallelRun c edb (searchRequest c m w) threadsCount del trace edb') :
    (vectorResult zero (searchRequest c m w).addCount results trace).length =
      max results.length (searchRequest c m w).addCount.toNat ∧
    ∀ i, i < (searchRequest c m w).addCount.toNat →
      (vectorResult zero (searchRequest c m w).addCount results trace)[i]? =
        some ((lookup c edb (c.eval (c.root (c.hash w)) i)).getD ((results[i]?).getD zero)) := by
  obtain ⟨-, hp⟩ := parallel_run c edb m w threadsCount ht del hnc trace edb' h
  obtain ⟨-, hnd⟩ := C08_callback c edb m w threadsCount ht del hnc trace edb' h
  generalize hn : (searchRequest c m w).addCount = cnt at *
  unfold vectorResult
  have hlen : (if results.length < cnt.toNat
      then results ++ List.replicate (cnt.toNat - results.length) zero else results).length =
      max results.length cnt.toNat := by
    split
    · rw [List.length_append, List.length_replicate]; omega
    · omega
  obtain ⟨f1, f2, f3⟩ := vector_fold trace hnd (if results.length < cnt.toNat
      then results ++ List.replicate (cnt.toNat - results.length) zero else results)
  refine ⟨by rw [f1, hlen], ?_⟩
  intro i hi
  have hmem : ∀ j v, (j, v) ∈ trace.map (fun e => (e.1, e.2.1)) ↔
      j < cnt.toNat ∧ lookup c edb (c.eval (c.root (c.hash w)) j) = some v := by
    intro j v
    rw [hp.mem_iff, List.mem_filterMap]
    constructor
    · rintro ⟨e, he, hl⟩
      simp only [leavesOf, List.mem_map, List.mem_range] at he
      obtain ⟨a, ha, rfl⟩ := he
      unfold look at hl
      cases hk : lookup c edb (c.eval (c.root (c.hash w)) a) with
      | none => simp [hk] at hl
      | some u => simp [hk] at hl; obtain ⟨rfl, rfl⟩ := hl; exact ⟨ha, hk⟩
    · rintro ⟨h1, h2⟩
      refine ⟨(j, c.eval (c.root (c.hash w)) j), ?_, ?_⟩
      · simp only [leavesOf, List.mem_map, List.mem_range]; exact ⟨j, h1, rfl⟩
      · simp [look, h2]
  cases hl : lookup c edb (c.eval (c.root (c.hash w)) i) with
  | some v =>
    obtain ⟨e, he, hev⟩ := List.mem_map.mp ((hmem i v).mpr ⟨hi, hl⟩)
    have e1 : e.1 = i := (Prod.mk.inj hev).1
    have e2 : e.2.1 = v := (Prod.mk.inj hev).2
    have := f2 e he (by rw [hlen]; omega)
    rw [e1, e2] at this
    simpa using this
  | none =>
    rw [f3 i]
    · simp only [Option.getD_none]
      split
      · by_cases hr : i < results.length
        · rw [List.getElem?_append_left hr, List.getElem?_eq_getElem hr]; rfl
        · rw [List.getElem?_append_right (by omega), List.getElem?_eq_none (l := results) (by omega),
            List.getElem?_replicate, if_pos (by omega)]
          rfl
      · have hr : i < results.length := by omega
        rw [List.getElem?_eq_getElem hr]; rfl
    · intro e he hei
      have := (hmem e.1 e.2.1).mp (List.mem_map.mpr ⟨e, he, rfl⟩)
      rw [hei, hl] at this
      simp at this

/-- **C08**, vector variant: after a history without lost update or deletion, the vector (initially
empty) contains the documents inserted under the keyword, the `i`-th inserted at position `i`. -/
theorem C08_vector (c : Crypto Kw V) (H : List (Kw × V)) (w : Kw)
    (hfit : ∀ v, (Spec.docs v H).length < 2 ^ 32)
    (hnc : NoCollision c (fun v => (Spec.docs v H).length))
    (s : Sys Kw V) (outs : List (List V))
    (hrun : run c Sys.init (H.map (fun e => Op.insert e.1 e.2)) = some (s, outs))
    (threadsCount : UInt8) (ht : threadsCount ≠ 0) (zero : V)
    (trace : List (Nat × V × Nat)) (edb' : Edb V)
    (h : ParallelRun c s.edb (searchRequest c s.counters w) threadsCount false trace edb') :
    vectorResult zero (searchRequest c s.counters w).addCount [] trace = Spec.docs w H := by
  have hinv : ∀ (G : List (Kw × V)) (s0 : Sys Kw V) (S : Kw → List (Option V)),
      SlotInv c (fun v => (Spec.docs v H).length) s0 S →
      (∀ v, (S v).length + (Spec.docs v G).length ≤ (Spec.docs v H).length) →
      ∀ s outs, run c s0 (G.map (fun e => Op.insert e.1 e.2)) = some (s, outs) →
      SlotInv c (fun v => (Spec.docs v H).length) s
        (fun v => S v ++ (Spec.docs v G).map some) := by
    intro G
    induction G with
    | nil =>
      intro s0 S h0 _ s outs hr
      simp only [List.map_nil, run, Option.some.injEq, Prod.mk.injEq] at hr
      rw [← hr.1]
      simpa [Spec.docs] using h0
    | cons e G ih =>
      intro s0 S h0 hb s outs hr
      simp only [List.map_cons, run, step, Option.bind_some] at hr
      have hbw := hb e.1
      simp only [Spec.docs, List.filter_cons, decide_true, if_true, List.map_cons,
        List.length_cons] at hbw
      have hs1 := slotInv_insert c _ hnc s0 S h0 e.1 e.2 (by simp only [Spec.docs]; omega)
        (hfit e.1)
      have hb1 : ∀ v, (setSlots S e.1 (S e.1 ++ [some e.2]) v).length + (Spec.docs v G).length ≤
          (Spec.docs v H).length := by
        intro v
        have := hb v
        by_cases hv : v = e.1
        · subst hv; simp [setSlots, Spec.docs] at this ⊢; omega
        · simpa [setSlots, hv, Spec.docs, Ne.symm hv] using this
      cases hr' : run c _ (G.map (fun e => Op.insert e.1 e.2)) with
      | none => rw [hr'] at hr; cases hr
      | some p =>
        rw [hr'] at hr
        simp only [Option.map_some, Option.some.injEq, Prod.mk.injEq] at hr
        have := ih _ _ hs1 hb1 p.1 p.2 hr'
        rw [hr.1] at this
        have hS : (fun v => setSlots S e.1 (S e.1 ++ [some e.2]) v ++ (Spec.docs v G).map some) =
            (fun v => S v ++ (Spec.docs v (e :: G)).map some) := by
          funext v
          by_cases hv : v = e.1
          · subst hv; simp [setSlots, Spec.docs]
          · simp [setSlots, hv, Spec.docs, Ne.symm hv]
        rwa [hS] at this
  have hs := hinv H Sys.init (fun _ => []) (slotInv_init c _) (by intro v; simp) s outs hrun
  simp only [List.nil_append] at hs
  -- the request
  have hcount : (searchRequest c s.counters w).addCount.toNat = (Spec.docs w H).length := by
    have hm := hs.counters w
    simp only [List.length_map] at hm
    simp only [searchRequest, Counter.get, hm, Counter.counterOf]
    by_cases h0 : (Spec.docs w H).length = 0
    · simp [h0]
    · have := hfit w
      have h1 : (UInt32.ofNat ((Spec.docs w H).length - 1)).toNat = (Spec.docs w H).length - 1 := by
        simp [UInt32.toNat_ofNat']; omega
      simp only [h0, if_false]
      rw [UInt32.toNat_add, h1]; simp; omega
  obtain ⟨hl, hsl⟩ := vector_slots c s.edb s.counters w threadsCount ht false (by simp) trace edb'
    zero [] h
  rw [hcount] at hl hsl
  apply List.ext_getElem?
  intro i
  by_cases hi : i < (Spec.docs w H).length
  · rw [hsl i hi]
    have := hs.edb w i hi
    unfold updateToken at this
    simp only [lookup, this, List.getElem?_map, List.getElem?_eq_getElem hi, Option.map_some,
      Option.join_some, c.xor_xor, Option.getD_some]
  · rw [List.getElem?_eq_none (by rw [hl]; simp; omega), List.getElem?_eq_none (by omega)]

/-! ### Runs exist and end -/

/-- Work left. -/
def ScanSys.weight (s : ScanSys V) : Nat :=
  (s.workers.map (fun w => 2 * w.todo.length + (if w.pending.isSome then 1 else 0))).sum

theorem sum_set (l : List Nat) (t a b : Nat) (h : l[t]? = some a) : (l.set t b).sum + a = l.sum + b := by
  induction l generalizing t with
  | nil => simp at h
  | cons x l ih =>
    cases t with
    | zero => simp at h; subst h; simp; omega
    | succ t => simp at h; simp; have := ih t h; omega

theorem weight_step (c : Crypto Kw V) (del : Bool) {s s' : ScanSys V} (h : ScanStep c del s s') :
    s'.weight < s.weight := by
  have key : ∀ (t : Nat) (a b : Worker V), s.workers[t]? = some a →
      2 * b.todo.length + (if b.pending.isSome then 1 else 0) <
        2 * a.todo.length + (if a.pending.isSome then 1 else 0) →
      ((s.workers.set t b).map
        (fun w => 2 * w.todo.length + (if w.pending.isSome then 1 else 0))).sum <
      (s.workers.map (fun w => 2 * w.todo.length + (if w.pending.isSome then 1 else 0))).sum := by
    intro t a b ha hlt
    rw [List.map_set]
    have := sum_set (s.workers.map (fun w => 2 * w.todo.length +
      (if w.pending.isSome then 1 else 0))) t _
      (2 * b.todo.length + (if b.pending.isSome then 1 else 0)) (by rw [List.getElem?_map, ha]; rfl)
    simp only at this
    omega
  cases h with
  | miss t i leaf rest h hm => exact key t _ _ h (by simp)
  | hit t i leaf rest v h hm hd => exact key t _ _ h (by simp)
  | hitDelete t i leaf rest v h hm hd => exact key t _ _ h (by simp; omega)
  | remove t i v k rest h => exact key t _ _ h (by simp)

theorem progress (c : Crypto Kw V) (del : Bool) (s : ScanSys V) (h : ¬ s.Done) :
    ∃ s', ScanStep c del s s' := by
  unfold ScanSys.Done at h
  simp only [not_forall] at h
  obtain ⟨w, hw, hnd⟩ := h
  obtain ⟨t, ht⟩ := List.getElem?_of_mem hw
  obtain ⟨todo, pending⟩ := w
  cases pending with
  | some p =>
    obtain ⟨i, v, key⟩ := p
    exact ⟨_, ScanStep.remove t i v key todo ht⟩
  | none =>
    cases todo with
    | nil => simp at hnd
    | cons e rest =>
      obtain ⟨i, leaf⟩ := e
      cases hm : s.edb (c.token leaf) with
      | none => exact ⟨_, ScanStep.miss t i leaf rest ht hm⟩
      | some v =>
        cases del with
        | false => exact ⟨_, ScanStep.hit t i leaf rest v ht hm rfl⟩
        | true => exact ⟨_, ScanStep.hitDelete t i leaf rest v ht hm rfl⟩

/-- **C08**: parallel searches end: every run can be completed, and no run is longer than twice the
number of positions (each step decreases `weight`). -/
theorem C08_terminates (c : Crypto Kw V) (edb : Edb V) (m : Map Kw UInt32) (w : Kw)
    (threadsCount : UInt8) (ht : threadsCount ≠ 0) (del : Bool) :
    ∃ trace edb', ParallelRun c edb (searchRequest c m w) threadsCount del trace edb' := by
  have hjobs : ∃ Ls, jobs c (searchRequest c m w) threadsCount = some Ls := by
    rcases searchRequest_cases c m w with h0 | ⟨n, hn, hn2, ha, hr⟩
    · exact ⟨[], by rw [jobs, if_pos h0]⟩
    · obtain ⟨Ls, h, -⟩ := jobs_eq c _ w n hn hn2 ha hr threadsCount ht
      exact ⟨Ls, h⟩
  obtain ⟨Ls, hL⟩ := hjobs
  have hend : ∀ k (s : ScanSys V), s.weight ≤ k →
      ∃ s', Relation.ReflTransGen (ScanStep c del) s s' ∧ s'.Done := by
    intro k
    induction k with
    | zero =>
      intro s hk
      by_cases hd : s.Done
      · exact ⟨s, .refl, hd⟩
      · obtain ⟨s', hs'⟩ := progress c del s hd
        have := weight_step c del hs'
        omega
    | succ k ih =>
      intro s hk
      by_cases hd : s.Done
      · exact ⟨s, .refl, hd⟩
      · obtain ⟨s', hs'⟩ := progress c del s hd
        have := weight_step c del hs'
        obtain ⟨s'', h1, h2⟩ := ih s' (by omega)
        exact ⟨s'', h1.head hs', h2⟩
  obtain ⟨s, h1, h2⟩ := hend _ (ScanSys.init edb Ls) (Nat.le_refl _)
  exact ⟨_, _, Ls, s, hL, h1, h2, rfl, rfl⟩

/-- C08: 7 matches over 3 threads. -/
example : ranges 3 7 = some [(0, 2), (3, 4), (5, 6)] := by decide

/-- C08: `threads_count = 0` divides by zero as soon as there is a match. -/
example (c : Crypto Kw V) (req : SearchReq c) (h : req.addCount ≠ 0) : jobs c req 0 = none := by
  simp [jobs, h, ranges]

/-- Non-vacuity of `C08_list`: a run with deletion over three threads. -/
example : ∃ trace edb', ParallelRun Toy.crypto
    (Map.empty.put (updateToken Toy.crypto true 0) (5 ^^^ 3))
    (searchRequest Toy.crypto (Map.empty.put true 4) true) 3 true trace edb' ∧
    search Toy.crypto (Map.empty.put (updateToken Toy.crypto true 0) (5 ^^^ 3))
      (searchRequest Toy.crypto (Map.empty.put true 4) true) true =
        some (listResult 3 trace, edb') := by
  obtain ⟨trace, edb', h⟩ := C08_terminates Toy.crypto
    (Map.empty.put (updateToken Toy.crypto true 0) (5 ^^^ 3)) (Map.empty.put true 4) true 3
    (by decide) true
  refine ⟨trace, edb', h, C08_list _ _ _ _ _ (by decide) _ ?_ _ _ h⟩
  intro _ a b ha hb hab
  have hc : (searchRequest Toy.crypto (Map.empty.put true 4) true).addCount.toNat = 5 := by decide
  rw [hc] at ha hb
  exact (Toy.noCollision (fun _ => 5) (by intro _; decide) true a true b ha hb hab).2

/-! ## C09 -/

/-- **C09 (part that holds)**: in every slot the vector search reports either the document found at
that position or the filler `zero` (and `C08_vector`: without lost updates there is no filler).
Missing: the absence of fillers when updates were lost, which is false, see
`C09_vector_invents_violated`. -/
theorem C09_vector_partial (c : Crypto Kw V) (edb : Edb V) (m : Map Kw UInt32) (w : Kw)
    (threadsCount : UInt8) (ht : threadsCount ≠ 0)
    (trace : List (Nat × V × Nat)) (edb' : Edb V) (zero : V)
    (h : ParallelRun c edb (searchRequest c m w) threadsCount false trace edb') :
    ∀ x ∈ vectorResult zero (searchRequest c m w).addCount [] trace,
      x = zero ∨ ∃ res, search c edb (searchRequest c m w) false = some (res, edb') ∧ x ∈ res := by
  intro x hx
  obtain ⟨hl, hsl⟩ := vector_slots c edb m w threadsCount ht false (by simp) trace edb' zero [] h
  obtain ⟨i, hi⟩ := List.getElem?_of_mem hx
  have hlt : i < (searchRequest c m w).addCount.toNat := by
    have := (List.getElem?_eq_some_iff.mp hi).1
    rw [hl] at this; simpa using this
  rw [hsl i hlt] at hi
  have hi := Option.some.inj hi
  have hlist := C08_list c edb m w threadsCount ht false (by simp) trace edb' h
  cases hlk : lookup c edb (c.eval (c.root (c.hash w)) i) with
  | none => left; rw [hlk] at hi; simpa using hi.symm
  | some v =>
    right
    rw [hlk, Option.getD_some] at hi
    subst hi
    refine ⟨_, hlist, ?_⟩
    rcases searchRequest_cases c m w with h0 | ⟨n, hn, hn2, ha, hr⟩
    · rw [h0] at hlt; simp at hlt
    · rw [search_leaves c edb _ w n hn hn2 ha hr, searchLoop_keep] at hlist
      have e1 := congrArg Prod.fst (Option.some.inj hlist)
      simp only at e1
      rw [← e1, List.mem_filterMap]
      refine ⟨(i, c.eval (c.root (c.hash w)) i), ?_, hlk⟩
      simp only [leavesOf, List.mem_map, List.mem_range]
      exact ⟨i, by omega, rfl⟩

/-- **C09 is violated**: one insertion of a document (here any `d`, for instance 5) is lost; every
complete run of the vector search — the one used by the synchronous gRPC search, with any thread
count — reports `[zero]`, that is document 0, which was never inserted.  This holds for every
instantiation of the cryptography. -/
theorem C09_vector_invents_violated (c : Crypto Kw V) (w : Kw) (d zero : V)
    (threadsCount : UInt8) (ht : threadsCount ≠ 0) (s : Sys Kw V) (outs : List (List V))
    (hrun : run c Sys.init [Op.lost w d] = some (s, outs))
    (trace : List (Nat × V × Nat)) (edb' : Edb V)
    (h : ParallelRun c s.edb (searchRequest c s.counters w) threadsCount false trace edb') :
    vectorResult zero (searchRequest c s.counters w).addCount [] trace = [zero] := by
  simp only [run, step, Option.bind_some, Option.map_some, Option.some.injEq, Prod.mk.injEq] at hrun
  obtain ⟨rfl, -⟩ := hrun
  have hm : (insertionRequest c (Sys.init (Kw := Kw) (V := V)).counters w d).2 w = some 0 := by
    simp [insertionRequest, Counter.getAndIncrement, Counter.get, Counter.nextValue, Sys.init]
  obtain ⟨hl, hsl⟩ := vector_slots c _ _ w threadsCount ht false (by simp) trace edb' zero [] h
  have hc : (searchRequest c (insertionRequest c (Sys.init (Kw := Kw) (V := V)).counters w d).2
      w).addCount.toNat = 1 := by
    simp [searchRequest, Counter.get, hm]
  simp only [hc] at hl hsl
  apply List.ext_getElem?
  intro i
  by_cases hi : i < 1
  · have : i = 0 := by omega
    subst this
    rw [hsl 0 hi]
    simp [lookup, Sys.init]
  · rw [List.getElem?_eq_none (by rw [hl]; simp; omega), List.getElem?_eq_none (by simp; omega)]

/-- The hypotheses of `C09_vector_invents_violated` are met with 8 threads, document 5 and
filler 0. -/
example : ∃ s outs trace edb', run Toy.crypto Sys.init [Op.lost true 5] = some (s, outs) ∧
    ParallelRun Toy.crypto s.edb (searchRequest Toy.crypto s.counters true) 8 false trace edb' ∧
    vectorResult 0 (searchRequest Toy.crypto s.counters true).addCount [] trace = [0] := by
  obtain ⟨trace, edb', h⟩ := C08_terminates Toy.crypto (Map.empty)
    (insertionRequest Toy.crypto (Sys.init (Kw := Bool) (V := Index)).counters true 5).2 true 8
    (by decide) false
  exact ⟨_, _, trace, edb', rfl, h, C09_vector_invents_violated _ true 5 0 8 (by decide) _ _ rfl _ _ h⟩

/-! ## C11, parallel searches -/

/-- **C11** for parallel searches: for every number of threads and every schedule, a deleting parallel search reports what a
plain search returns; afterwards the same request finds nothing; and no entry other than those of the `n` tokens of the
request is touched. -/
theorem C11_parallel (c : Crypto Kw V) (edb : Edb V) (w : Kw) (m : Map Kw UInt32) (n : Nat)
    (hm : m w = Counter.counterOf n) (hn : n < 2 ^ 32) (hnc : RequestNoCollision c w n)
    (threadsCount : UInt8) (ht : threadsCount ≠ 0) (trace : List (Nat × V × Nat)) (edb' : Edb V)
    (h : ParallelRun c edb (searchRequest c m w) threadsCount true trace edb') :
    (∃ res, search c edb (searchRequest c m w) false = some (res, edb) ∧ (callbackResult trace).Perm res) ∧
      search c edb' (searchRequest c m w) false = some ([], edb') ∧
      ∀ k, (∀ a, a < n → k ≠ updateToken c w a) → edb' k = edb k := by
  obtain ⟨res, edb1, h1, h2, h3, h4⟩ := C11_server c edb w m n hm hn hnc
  have hle : (searchRequest c m w).addCount.toNat ≤ n := by
    unfold searchRequest Counter.get
    rw [hm]
    unfold Counter.counterOf
    by_cases h0 : n = 0
    · simp [h0]
    · rw [if_neg h0]
      simp only [UInt32.toNat_add, UInt32.toNat_ofNat']
      rw [Nat.mod_eq_of_lt (show n - 1 < 2 ^ 32 by omega)]
      refine Nat.le_trans (Nat.mod_le _ _) ?_
      have : UInt32.toNat 1 = 1 := rfl
      omega
  obtain ⟨⟨res', h5, h6⟩, -⟩ := C08_callback c edb m w threadsCount ht true
    (fun _ a b ha hb => hnc a b (by omega) (by omega)) trace edb' h
  rw [h2] at h5
  cases h5
  exact ⟨⟨res, h1, h6⟩, h3, h4⟩

/-- Non-vacuity of `C11_parallel`: a counter of 5 insertions, of which one is stored, and three threads. -/
example : ∃ trace edb', ParallelRun Toy.crypto
    (Map.empty.put (updateToken Toy.crypto true 0) (5 ^^^ 3))
    (searchRequest Toy.crypto (Map.empty.put true 4) true) 3 true trace edb' ∧
    search Toy.crypto edb' (searchRequest Toy.crypto (Map.empty.put true 4) true) false = some ([], edb') := by
  obtain ⟨trace, edb', h⟩ := C08_terminates Toy.crypto
    (Map.empty.put (updateToken Toy.crypto true 0) (5 ^^^ 3)) (Map.empty.put true 4) true 3
    (by decide) true
  refine ⟨trace, edb', h, (C11_parallel _ _ _ _ 5 (by decide) (by decide) ?_ 3 (by decide) _ _ h).2.1⟩
  intro a b ha hb hab
  exact (Toy.noCollision (fun _ => 5) (by intro _; decide) true a true b ha hb hab).2

end Verif.Diana
