import Verif.Faults.Spec

/-! # Helper lemmas for failures of RocksDB -/

set_option linter.unusedSectionVars false

namespace Verif.Faults

open Verif

variable {Kw V Seed ST DK : Type} [DecidableEq Kw]

theorem getAndIncrement_spec (getOk : Bool) (r : PutRes) (m : Map Kw UInt32) (w : Kw) (n : Nat)
    (h : m w = Counter.counterOf n) :
    getAndIncrement getOk r m w =
      (r.isOk, UInt32.ofNat (if getOk then n else 0),
        put r m w (UInt32.ofNat (if getOk then n else 0))) := by
  unfold getAndIncrement get
  cases getOk
  · simp [Counter.nextValue]
  · simp [h, Counter.nextValue_counterOf]

/-! ## Sophos -/

/-- The system holds what the slots say. -/
structure SInv (c : Sophos.Crypto Kw Seed ST DK) (B : Kw → Nat) (s : Sophos.Sys Kw)
    (S : Spec.Slots Kw Index) : Prop where
  counters : ∀ w, s.counters w = Counter.counterOf (S.n w)
  edb : ∀ w a, a < B w → s.edb (Sophos.updateToken c w a) =
    (S.slot w a).map (fun v => (Sophos.mkReq c w a v).index)

theorem counterOf_succ (k : Nat) : Counter.counterOf (k + 1) = some (UInt32.ofNat k) := by
  simp [Counter.counterOf]

theorem counters_put (m : Map Kw UInt32) (S : Spec.Slots Kw V) (w : Kw) (k : Nat)
    (h : ∀ v, m v = Counter.counterOf (S.n v)) (v : Kw) :
    m.put w (UInt32.ofNat k) v = Counter.counterOf ((S.setN w (k + 1)).n v) := by
  by_cases hv : v = w
  · subst hv; simp [Spec.Slots.setN, counterOf_succ]
  · simp [Spec.Slots.setN, hv, Map.put_of_ne, h]

theorem sophosLoop_eq (c : Sophos.Crypto Kw Seed ST DK) (edb : Sophos.Edb) (bad : Nat → Bool)
    (k : DK) (p n : Nat) (st : ST) :
    sophosLoop c edb bad k p n st = (List.range' p n).filterMap
      (fun q => if bad q then none else Sophos.access c edb k (c.eval^[q - p] st)) := by
  induction n generalizing p st with
  | zero => simp [sophosLoop]
  | succ n ih =>
    have hrest : sophosLoop c edb bad k (p + 1) n (c.eval st) =
        (List.range' (p + 1) n).filterMap
          (fun q => if bad q then none else Sophos.access c edb k (c.eval^[q - p] st)) := by
      rw [ih]
      apply List.filterMap_congr
      intro q hq
      rw [List.mem_range'_1] at hq
      have : q - p = (q - (p + 1)) + 1 := by omega
      rw [this, Function.iterate_succ_apply]
    rw [List.range'_succ, List.filterMap_cons, ← hrest, sophosLoop]
    cases hb : bad p
    · simp only [Sophos.genUpdateTokenMasks, get, Bool.not_false, if_true, Nat.sub_self,
        Function.iterate_zero, id_eq, Sophos.access]
      cases edb (c.prf k st false) <;> simp
    · simp [get]

theorem eval_iterate (c : Sophos.Crypto Kw Seed ST DK) (n q : Nat) (hq : q ≤ n) (x : ST) :
    c.eval^[q] (c.inv^[n] x) = c.inv^[n - q] x := by
  induction q with
  | zero => simp
  | succ q ih =>
    rw [Function.iterate_succ_apply', ih (by omega)]
    have : n - q = (n - (q + 1)) + 1 := by omega
    rw [this, Sophos.eval_iterate_inv]

theorem sophos_search (c : Sophos.Crypto Kw Seed ST DK) (g : ST × DK) (B : Kw → Nat)
    (s : Sophos.Sys Kw) (S : Spec.Slots Kw Index) (h : SInv c B s S) (w : Kw) (hn : S.n w ≤ B w)
    (hB : B w < 2 ^ 32) (getOk : Bool) (bad : Nat → Bool) :
    (sophosStep c g s (.search w getOk bad)) =
      (s, (S.step Spec.newestFirst (.search w getOk bad)).2) := by
  simp only [sophosStep, Spec.Slots.step]
  cases getOk
  · simp [Sophos.searchRequest, Counter.get, seen, get, sophosLoop]
  · have hs : Counter.get (seen true s.counters) w = Counter.counterOf (S.n w) := by
      simp [Counter.get, seen, get, h.counters]
    by_cases h0 : S.n w = 0
    · simp [Sophos.searchRequest, hs, h0, Counter.counterOf, sophosLoop]
    · have hc : Counter.counterOf (S.n w) = some (UInt32.ofNat (S.n w - 1)) := by
        simp [Counter.counterOf, h0]
      have h1 : (UInt32.ofNat (S.n w - 1)).toNat = S.n w - 1 := by
        rw [UInt32.toNat_ofNat']; omega
      have h2 : (UInt32.ofNat (S.n w - 1) + 1).toNat = S.n w := by
        rw [UInt32.toNat_add, h1]; simp; omega
      simp only [Sophos.searchRequest, hs, hc, h1, h2, sophosLoop_eq, if_true]
      congr 2
      rw [List.range_eq_range']
      apply List.filterMap_congr
      intro q hq
      rw [List.mem_range'_1] at hq
      cases bad q
      · simp only [Bool.false_eq_true, if_false, Nat.sub_zero]
        rw [eval_iterate c _ _ (by omega)]
        have he := h.edb w (Spec.newestFirst (S.n w) q) (by unfold Spec.newestFirst; omega)
        unfold Sophos.updateToken at he
        simp only [Spec.newestFirst] at he ⊢
        simp only [Sophos.access, Sophos.genUpdateTokenMasks, he]
        cases S.slot w (S.n w - 1 - q) with
        | none => rfl
        | some v => simp [Sophos.mkReq, Sophos.mask_mask]
      · rfl

/-- Filling a slot. -/
theorem sinv_fill (c : Sophos.Crypto Kw Seed ST DK) (B : Kw → Nat)
    (hnc : ∀ w a v b, a < B w → b < B v →
      Sophos.updateToken c w a = Sophos.updateToken c v b → w = v ∧ a = b)
    (edb : Sophos.Edb) (S : Spec.Slots Kw Index)
    (h : ∀ w a, a < B w → edb (Sophos.updateToken c w a) =
      (S.slot w a).map (fun v => (Sophos.mkReq c w a v).index))
    (w : Kw) (a : Nat) (ha : a < B w) (i : Index) (v : Kw) (b : Nat) (hb : b < B v) :
    (edb.put (Sophos.mkReq c w a i).token (Sophos.mkReq c w a i).index)
      (Sophos.updateToken c v b) =
      ((S.fill w a i).slot v b).map (fun x => (Sophos.mkReq c v b x).index) := by
  by_cases he : v = w ∧ b = a
  · obtain ⟨rfl, rfl⟩ := he
    simp [Spec.Slots.fill, Sophos.mkReq]
  · rw [Map.put_of_ne]
    · simp [Spec.Slots.fill, he, h v b hb]
    · intro hc
      exact he (hnc v b w a hb ha hc)

theorem sinv_step (c : Sophos.Crypto Kw Seed ST DK) (g : ST × DK) (B : Kw → Nat)
    (hB2 : ∀ w, B w < 2 ^ 32)
    (hnc : ∀ w a v b, a < B w → b < B v →
      Sophos.updateToken c w a = Sophos.updateToken c v b → w = v ∧ a = b)
    (s : Sophos.Sys Kw) (S : Spec.Slots Kw Index) (h : SInv c B s S) (op : Op Kw Index)
    (hB : ∀ w, S.n w + Spec.attempts w [op] ≤ B w) :
    SInv c B (sophosStep c g s op).1 (S.step Spec.newestFirst op).1 ∧
    (sophosStep c g s op).2 = (S.step Spec.newestFirst op).2 := by
  cases op with
  | search w getOk bad =>
    have hn := hB w
    rw [sophos_search c g B s S h w (by omega) (hB2 w)]
    exact ⟨h, rfl⟩
  | insert w i getOk putRes srvPut =>
    have hn := hB w
    simp only [Spec.attempts, if_true] at hn
    have hg := getAndIncrement_spec getOk putRes s.counters w _ (h.counters w)
    have hk : (if getOk then S.n w else 0) < B w := by split <;> omega
    have hk2 := hB2 w
    simp only [sophosStep, hg, Spec.Slots.step, Sophos.requestFor_spec]
    generalize hK : (if getOk = true then S.n w else 0) = k at hk ⊢
    rw [Nat.mod_eq_of_lt (by omega)]
    cases putRes with
    | failed => exact ⟨⟨h.counters, h.edb⟩, rfl⟩
    | storedButFailed =>
      exact ⟨⟨counters_put s.counters S w k h.counters, h.edb⟩, rfl⟩
    | ok =>
      refine ⟨?_, rfl⟩
      have hc := counters_put s.counters S w k h.counters
      have hf := sinv_fill c B hnc s.edb S h.edb w k hk i
      cases srvPut with
      | failed => exact ⟨hc, h.edb⟩
      | ok => exact ⟨hc, fun v b hb => hf v b hb⟩
      | storedButFailed => exact ⟨hc, fun v b hb => hf v b hb⟩

theorem step_n (pos : Nat → Nat → Nat) (S : Spec.Slots Kw V) (op : Op Kw V) (w : Kw) :
    (S.step pos op).1.n w ≤ S.n w + Spec.attempts w [op] := by
  cases op with
  | search v getOk bad => simp [Spec.Slots.step]
  | insert v i getOk putRes srvPut =>
    simp only [Spec.Slots.step, Spec.attempts]
    have : ∀ k, (if getOk = true then S.n v else 0) = k → k ≤ S.n v := by
      intro k hk; split at hk <;> omega
    generalize hK : (if getOk = true then S.n v else 0) = k at this ⊢
    have := this k rfl
    cases putRes with
    | failed => simp
    | storedButFailed =>
      by_cases h : w = v
      · subst h; simp [Spec.Slots.setN]; omega
      · simp [Spec.Slots.setN, h]
    | ok =>
      by_cases h : w = v
      · subst h; by_cases hs : srvPut = .failed <;> simp [Spec.Slots.setN, Spec.Slots.fill, hs] <;> omega
      · by_cases hs : srvPut = .failed <;> simp [Spec.Slots.setN, Spec.Slots.fill, hs, h]

theorem attempts_cons (w : Kw) (op : Op Kw V) (ops : List (Op Kw V)) :
    Spec.attempts w (op :: ops) = Spec.attempts w [op] + Spec.attempts w ops := by
  cases op <;> simp [Spec.attempts]

theorem sophosRun_refines (c : Sophos.Crypto Kw Seed ST DK) (g : ST × DK) (B : Kw → Nat)
    (hB2 : ∀ w, B w < 2 ^ 32)
    (hnc : ∀ w a v b, a < B w → b < B v →
      Sophos.updateToken c w a = Sophos.updateToken c v b → w = v ∧ a = b)
    (ops : List (Op Kw Index)) (s : Sophos.Sys Kw) (S : Spec.Slots Kw Index) (h : SInv c B s S)
    (hB : ∀ w, S.n w + Spec.attempts w ops ≤ B w) :
    sophosRun c g s ops = S.run Spec.newestFirst ops := by
  induction ops generalizing s S with
  | nil => rfl
  | cons op ops ih =>
    obtain ⟨h1, h2⟩ := sinv_step c g B hB2 hnc s S h op
      (by intro w; have := hB w; rw [attempts_cons] at this; omega)
    rw [sophosRun, Spec.Slots.run, h2, ih _ _ h1]
    intro w
    have := hB w
    rw [attempts_cons] at this
    have := step_n Spec.newestFirst S op w
    omega

/-! ## Diana -/

/-- The system holds what the slots say. -/
structure DInv (c : Diana.Crypto Kw V) (B : Kw → Nat) (s : Diana.Sys Kw V)
    (S : Spec.Slots Kw V) : Prop where
  counters : ∀ w, s.counters w = Counter.counterOf (S.n w)
  edb : ∀ w a, a < B w → s.edb (Diana.updateToken c w a) =
    (S.slot w a).map (fun v => c.xor v (c.mask (c.eval (c.root (c.hash w)) a)))

theorem dianaLoop_eq (c : Diana.Crypto Kw V) (edb : Diana.Edb V) (bad : Nat → Bool)
    (leaves : List (Nat × Diana.Leaf)) :
    dianaLoop c edb bad leaves = leaves.filterMap
      (fun e => if bad e.1 then none else (edb (c.token e.2)).map (fun v => c.xor v (c.mask e.2))) := by
  induction leaves with
  | nil => rfl
  | cons e leaves ih =>
    obtain ⟨p, leaf⟩ := e
    rw [dianaLoop, List.filterMap_cons, ← ih]
    cases hb : bad p
    · simp only [get, Bool.not_false, if_true, Bool.false_eq_true, if_false]
      cases edb (c.token leaf) <;> simp
    · simp [get]

theorem diana_search (c : Diana.Crypto Kw V) (B : Kw → Nat)
    (s : Diana.Sys Kw V) (S : Spec.Slots Kw V) (h : DInv c B s S) (w : Kw) (hn : S.n w ≤ B w)
    (hB : B w < 2 ^ 32) (getOk : Bool) (bad : Nat → Bool) :
    (dianaStep c s (.search w getOk bad)) =
      (s, (S.step Spec.oldestFirst (.search w getOk bad)).2) := by
  simp only [dianaStep, Spec.Slots.step]
  cases getOk
  · simp [Diana.searchRequest, Counter.get, seen, get, dianaSearch]
  · have hs : Counter.get (seen true s.counters) w = Counter.counterOf (S.n w) := by
      simp [Counter.get, seen, get, h.counters]
    by_cases h0 : S.n w = 0
    · simp [Diana.searchRequest, hs, h0, Counter.counterOf, dianaSearch]
    · have hc : Counter.counterOf (S.n w) = some (UInt32.ofNat (S.n w - 1)) := by
        simp [Counter.counterOf, h0]
      have h1 : (UInt32.ofNat (S.n w - 1)).toNat = S.n w - 1 := by
        rw [UInt32.toNat_ofNat']; omega
      have h2 : (UInt32.ofNat (S.n w - 1) + 1).toNat = S.n w := by
        rw [UInt32.toNat_add, h1]; simp; omega
      have h3 : UInt32.ofNat (S.n w - 1) + 1 ≠ 0 := by
        intro hz; rw [hz] at h2; simp at h2; omega
      simp only [Diana.searchRequest, hs, hc, h1, dianaSearch, h3, if_false, if_true]
      rw [c.maxLeaf_constrain _ _ (by omega), Diana.evalRange_eq c _ _ _ _ (by omega) (by omega)
        (Nat.le_refl _)]
      simp only [dianaLoop_eq]
      congr 2
      rw [List.filterMap_map, show S.n w - 1 + 1 - 0 = S.n w by omega, List.range_eq_range']
      apply List.filterMap_congr
      intro q hq
      rw [List.mem_range'_1] at hq
      simp only [Function.comp_apply, Spec.oldestFirst]
      cases bad q
      · simp only [Bool.false_eq_true, if_false]
        have he := h.edb w q (by omega)
        unfold Diana.updateToken at he
        rw [he]
        cases S.slot w q with
        | none => rfl
        | some v => simp [c.xor_xor]
      · rfl

theorem dinv_fill (c : Diana.Crypto Kw V) (B : Kw → Nat) (hnc : Diana.NoCollision c B)
    (edb : Diana.Edb V) (S : Spec.Slots Kw V)
    (h : ∀ w a, a < B w → edb (Diana.updateToken c w a) =
      (S.slot w a).map (fun v => c.xor v (c.mask (c.eval (c.root (c.hash w)) a))))
    (w : Kw) (a : Nat) (ha : a < B w) (i : V) (v : Kw) (b : Nat) (hb : b < B v) :
    (edb.put (Diana.updateToken c w a) (c.xor i (c.mask (c.eval (c.root (c.hash w)) a))))
      (Diana.updateToken c v b) =
      ((S.fill w a i).slot v b).map
        (fun x => c.xor x (c.mask (c.eval (c.root (c.hash v)) b))) := by
  by_cases he : v = w ∧ b = a
  · obtain ⟨rfl, rfl⟩ := he
    simp [Spec.Slots.fill]
  · rw [Map.put_of_ne]
    · simp [Spec.Slots.fill, he, h v b hb]
    · intro hc
      exact he (hnc v b w a hb ha hc)

theorem dinv_step (c : Diana.Crypto Kw V) (B : Kw → Nat)
    (hB2 : ∀ w, B w < 2 ^ 32) (hnc : Diana.NoCollision c B)
    (s : Diana.Sys Kw V) (S : Spec.Slots Kw V) (h : DInv c B s S) (op : Op Kw V)
    (hB : ∀ w, S.n w + Spec.attempts w [op] ≤ B w) :
    DInv c B (dianaStep c s op).1 (S.step Spec.oldestFirst op).1 ∧
    (dianaStep c s op).2 = (S.step Spec.oldestFirst op).2 := by
  cases op with
  | search w getOk bad =>
    have hn := hB w
    rw [diana_search c B s S h w (by omega) (hB2 w)]
    exact ⟨h, rfl⟩
  | insert w i getOk putRes srvPut =>
    have hn := hB w
    simp only [Spec.attempts, if_true] at hn
    have hg := getAndIncrement_spec getOk putRes s.counters w _ (h.counters w)
    have hk : (if getOk then S.n w else 0) < B w := by split <;> omega
    have hk2 := hB2 w
    simp only [dianaStep, hg, Spec.Slots.step, Diana.requestFor]
    generalize hK : (if getOk = true then S.n w else 0) = k at hk ⊢
    have hkn : (UInt32.ofNat k).toNat = k := by rw [UInt32.toNat_ofNat']; omega
    rw [hkn]
    cases putRes with
    | failed => exact ⟨⟨h.counters, h.edb⟩, rfl⟩
    | storedButFailed =>
      exact ⟨⟨counters_put s.counters S w k h.counters, h.edb⟩, rfl⟩
    | ok =>
      refine ⟨?_, rfl⟩
      have hc := counters_put s.counters S w k h.counters
      have hf := dinv_fill c B hnc s.edb S h.edb w k hk i
      cases srvPut with
      | failed => exact ⟨hc, h.edb⟩
      | ok => exact ⟨hc, fun v b hb => hf v b hb⟩
      | storedButFailed => exact ⟨hc, fun v b hb => hf v b hb⟩

theorem dianaRun_refines (c : Diana.Crypto Kw V) (B : Kw → Nat)
    (hB2 : ∀ w, B w < 2 ^ 32) (hnc : Diana.NoCollision c B)
    (ops : List (Op Kw V)) (s : Diana.Sys Kw V) (S : Spec.Slots Kw V) (h : DInv c B s S)
    (hB : ∀ w, S.n w + Spec.attempts w ops ≤ B w) :
    dianaRun c s ops = S.run Spec.oldestFirst ops := by
  induction ops generalizing s S with
  | nil => rfl
  | cons op ops ih =>
    obtain ⟨h1, h2⟩ := dinv_step c B hB2 hnc s S h op
      (by intro w; have := hB w; rw [attempts_cons] at this; omega)
    rw [dianaRun, Spec.Slots.run, h2, ih _ _ h1]
    intro w
    have := hB w
    rw [attempts_cons] at this
    have := step_n Spec.oldestFirst S op w
    omega

end Verif.Faults
