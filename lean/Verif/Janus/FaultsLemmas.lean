import Verif.Janus.FaultsSpec
import Verif.Janus.CrashLemmas
import Verif.Faults.Lemmas

/-! # Lemmas on Janus with failing calls of RocksDB -/

set_option linter.unusedSectionVars false

namespace Verif.Janus.Faults

open Verif
open Verif.Faults.Spec (Slots)
open Verif.Janus.Crash (token_ne nodup_leaves mem_leaves)

variable {PK KS CT Rand V W : Type}

/-! ## One Diana instance at all epochs -/

/-- The counters and the database hold the slots `S`, whose values are stored as `val`. -/
structure SlotInv (c : Diana.Crypto Str V) (K : List Str) (n : Nat) (m : Map Str UInt32)
    (edb : Diana.Edb V) (S : Slots (Str × Nat) W) (val : Str × Nat → W → V) : Prop where
  counter : ∀ w ∈ K, ∀ e, e ≤ n → m (metaNat w e) = Counter.counterOf (S.n (w, e))
  entries : ∀ w ∈ K, ∀ e, e ≤ n → ∀ a, a < n → edb (Diana.updateToken c (metaNat w e) a) =
    (S.slot (w, e) a).map
      (fun x => c.xor (val (w, e) x) (c.mask (c.eval (c.root (c.hash (metaNat w e))) a)))

theorem slotInv_init (c : Diana.Crypto Str V) (K : List Str) (n : Nat) (val : Str × Nat → W → V) :
    SlotInv c K n Map.empty Map.empty Slots.init val := by
  constructor <;> intros <;> simp [Counter.counterOf, Slots.init]

/-- A change of the counter of one meta keyword. -/
theorem slotInv_setN {c : Diana.Crypto Str V} {K : List Str} {n : Nat} (hn : n < 2 ^ 32)
    {m m' : Map Str UInt32} {edb : Diana.Edb V} {S : Slots (Str × Nat) W} {val : Str × Nat → W → V}
    (h : SlotInv c K n m edb S val) {w : Str} {e : Nat} (he : e ≤ n) (k : Nat)
    (hm : m' (metaNat w e) = Counter.counterOf k) (ho : ∀ x, x ≠ metaNat w e → m' x = m x) :
    SlotInv c K n m' edb (S.setN (w, e) k) val := by
  refine ⟨?_, h.entries⟩
  intro v hv f hf
  by_cases hx : (v, f) = (w, e)
  · obtain ⟨rfl, rfl⟩ := Prod.mk.inj hx
    rw [hm]; simp [Slots.setN]
  · rw [ho, h.counter v hv f hf]
    · simp only [Slots.setN, if_neg hx]
    · intro h'
      obtain ⟨rfl, rfl⟩ := metaNat_inj (by omega) (by omega) h'
      exact hx rfl

/-- A value stored in a slot. -/
theorem slotInv_fill {c : Diana.Crypto Str V} {K : List Str} {n : Nat} (hn : n < 2 ^ 32)
    (hnc : Diana.NoCollision c (bound K n)) {m : Map Str UInt32} {edb : Diana.Edb V}
    {S : Slots (Str × Nat) W} {val : Str × Nat → W → V}
    (h : SlotInv c K n m edb S val) {w : Str} (hw : w ∈ K) {e : Nat} (he : e ≤ n) {a : Nat}
    (ha : a < n) (x : W) :
    SlotInv c K n m (edb.put (Diana.updateToken c (metaNat w e) a)
      (c.xor (val (w, e) x) (c.mask (c.eval (c.root (c.hash (metaNat w e))) a))))
      (S.fill (w, e) a x) val := by
  refine ⟨h.counter, ?_⟩
  intro v hv f hf b hb
  by_cases hx : (v, f) = (w, e) ∧ b = a
  · obtain ⟨hx1, rfl⟩ := hx
    obtain ⟨rfl, rfl⟩ := Prod.mk.inj hx1
    rw [Map.put_self]; simp [Slots.fill]
  · rw [Map.put_of_ne, h.entries v hv f hf b hb]
    · simp only [Slots.fill, if_neg hx]
    · intro h'
      obtain ⟨rfl, rfl, rfl⟩ := token_ne c hnc hv hw hf he hn hb ha h'
      exact hx ⟨rfl, rfl⟩

/-- An update at any epoch. -/
theorem slotInv_update {c : Diana.Crypto Str V} {K : List Str} {n : Nat} (hn : n < 2 ^ 32)
    (hnc : Diana.NoCollision c (bound K n)) {m : Map Str UInt32} {edb : Diana.Edb V}
    {S : Slots (Str × Nat) W} {val : Str × Nat → W → V}
    (h : SlotInv c K n m edb S val) {w : Str} (hw : w ∈ K) {e : Nat} (he : e ≤ n)
    (hlen : S.n (w, e) < n) (x : W) (getOk : Bool) (r : Verif.Faults.PutRes) (srv : Bool) :
    ∃ v m', Verif.Faults.getAndIncrement getOk r m (metaNat w e) = (r.isOk, v, m') ∧
      Spec.outOf (S.step Verif.Faults.Spec.oldestFirst (.insert (w, e) x getOk r
        (if srv then .ok else .failed))).2 = (if r.isOk then .acked else .error) ∧
      SlotInv c K n m' (if r.isOk && srv then Diana.serverInsert edb
          (Diana.requestFor c (metaNat w e) (val (w, e) x) v) else edb)
        (S.step Verif.Faults.Spec.oldestFirst (.insert (w, e) x getOk r
          (if srv then .ok else .failed))).1 val := by
  have hg := Verif.Faults.getAndIncrement_spec getOk r m (metaNat w e) _ (h.counter w hw e he)
  have hk : (if getOk then S.n (w, e) else 0) < n := by
    cases getOk
    · simp; omega
    · simpa using hlen
  refine ⟨_, _, hg, ?_, ?_⟩
  · cases r <;> rfl
  · generalize hkk : (if getOk then S.n (w, e) else 0) = k at hk ⊢
    have hk' : (UInt32.ofNat k).toNat = k := by simp [UInt32.toNat_ofNat']; omega
    have hN : SlotInv c K n (m.put (metaNat w e) (UInt32.ofNat k)) edb (S.setN (w, e) (k + 1)) val :=
      slotInv_setN hn h he (k + 1) (by rw [Map.put_self, Verif.Faults.counterOf_succ])
        (fun y hy => Map.put_of_ne _ _ hy)
    cases r with
    | failed => simpa [Verif.Faults.PutRes.isOk, Verif.Faults.put, Slots.step, hkk] using h
    | storedButFailed => simpa [Verif.Faults.PutRes.isOk, Verif.Faults.put, Slots.step, hkk] using hN
    | ok =>
      cases srv with
      | false => simpa [Verif.Faults.PutRes.isOk, Verif.Faults.put, Slots.step, hkk] using hN
      | true =>
        have hF := slotInv_fill hn hnc hN hw he hk x
        simpa [Verif.Faults.PutRes.isOk, Verif.Faults.put, Slots.step, Diana.serverInsert,
          Diana.requestFor, hk', hkk, Diana.updateToken] using hF

/-! ## Deleting searches -/

theorem deleteLoop_spec (c : Diana.Crypto Str V) (bad keep : Nat → Bool) (edb : Diana.Edb V)
    (ls : List (Nat × Diana.Leaf)) (hnd : (ls.map (fun e => c.token e.2)).Nodup) :
    (deleteLoop c bad keep edb ls).1 = ls.filterMap
      (fun e => if bad e.1 then none else (edb (c.token e.2)).map (fun v => c.xor v (c.mask e.2))) ∧
    ∀ t, (deleteLoop c bad keep edb ls).2 t =
      if ∃ e ∈ ls, c.token e.2 = t ∧ bad e.1 = false ∧ keep e.1 = false then none else edb t := by
  induction ls generalizing edb with
  | nil => simp [deleteLoop]
  | cons l ls ih =>
    obtain ⟨p, leaf⟩ := l
    simp only [List.map_cons, List.nodup_cons] at hnd
    have hcong : ∀ edb' : Diana.Edb V, (∀ t, t ≠ c.token leaf → edb' t = edb t) →
        ls.filterMap (fun e => if bad e.1 then none else
          (edb' (c.token e.2)).map (fun v => c.xor v (c.mask e.2))) =
        ls.filterMap (fun e => if bad e.1 then none else
          (edb (c.token e.2)).map (fun v => c.xor v (c.mask e.2))) := by
      intro edb' h'
      apply List.filterMap_congr
      intro e he
      rw [h' (c.token e.2)]
      intro h2
      exact hnd.1 (h2 ▸ List.mem_map.2 ⟨e, he, rfl⟩)
    simp only [deleteLoop, Verif.Faults.get]
    cases hb : bad p with
    | true =>
      obtain ⟨h1, h2⟩ := ih edb hnd.2
      refine ⟨by simp [hb, h1], ?_⟩
      intro t
      have : (∃ e ∈ (p, leaf) :: ls, c.token e.2 = t ∧ bad e.1 = false ∧ keep e.1 = false) ↔
          ∃ e ∈ ls, c.token e.2 = t ∧ bad e.1 = false ∧ keep e.1 = false := by
        simp [hb]
      simp only [this, ← h2]
      simp
    | false =>
      simp only [Bool.not_false, if_true]
      cases hv : edb (c.token leaf) with
      | none =>
        obtain ⟨h1, h2⟩ := ih edb hnd.2
        refine ⟨by simp [hb, hv, h1], ?_⟩
        intro t
        simp only [h2]
        by_cases ht : c.token leaf = t
        · subst ht
          simp [hv]
        · have : (∃ e ∈ (p, leaf) :: ls, c.token e.2 = t ∧ bad e.1 = false ∧ keep e.1 = false) ↔
              ∃ e ∈ ls, c.token e.2 = t ∧ bad e.1 = false ∧ keep e.1 = false := by
            simp [ht]
          simp only [this]
      | some v =>
        cases hk : keep p with
        | true =>
          obtain ⟨h1, h2⟩ := ih edb hnd.2
          refine ⟨by simp [hb, hv, h1], ?_⟩
          intro t
          have : (∃ e ∈ (p, leaf) :: ls, c.token e.2 = t ∧ bad e.1 = false ∧ keep e.1 = false) ↔
              ∃ e ∈ ls, c.token e.2 = t ∧ bad e.1 = false ∧ keep e.1 = false := by
            simp [hk]
          simp only [this, ← h2]
          simp
        | false =>
          obtain ⟨h1, h2⟩ := ih (edb.erase (c.token leaf)) hnd.2
          refine ⟨?_, ?_⟩
          · have := hcong (edb.erase (c.token leaf)) (fun t ht => Map.erase_of_ne _ ht)
            simp [hb, hv, h1, this]
          · intro t
            simp only [Bool.false_eq_true, if_false, h2]
            by_cases ht : c.token leaf = t
            · subst ht
              simp [hb, hk]
            · have : (∃ e ∈ (p, leaf) :: ls, c.token e.2 = t ∧ bad e.1 = false ∧ keep e.1 = false) ↔
                  ∃ e ∈ ls, c.token e.2 = t ∧ bad e.1 = false ∧ keep e.1 = false := by
                simp [ht]
              simp only [this]
              rw [Map.erase_of_ne _ (Ne.symm ht)]

theorem dianaSearch_request (c : Diana.Crypto Str V) (edb : Diana.Edb V) (m : Map Str UInt32)
    (mk : Str) (k : Nat) (hm : m mk = Counter.counterOf k) (hk : k < 2 ^ 32) (bad keep : Nat → Bool) :
    dianaSearch c edb (Diana.searchRequest c m mk) bad keep =
      some (deleteLoop c bad keep edb (Diana.leavesOf c mk k)) := by
  have h := Crash.leaves_request c m mk k hm hk
  unfold Crash.leaves at h
  unfold dianaSearch
  split
  · next h0 =>
    rw [if_pos h0] at h
    rw [← Option.some.inj h]
    rfl
  · next h0 =>
    rw [if_neg h0] at h
    rw [h]
    rfl

/-- A deleting search at any epoch. -/
theorem slotInv_search {c : Diana.Crypto Str V} {K : List Str} {n : Nat} (hn : n < 2 ^ 32)
    (hnc : Diana.NoCollision c (bound K n)) {m : Map Str UInt32} {edb : Diana.Edb V}
    {S : Slots (Str × Nat) W} {val : Str × Nat → W → V}
    (h : SlotInv c K n m edb S val) {w : Str} (hw : w ∈ K) {e : Nat} (he : e ≤ n)
    (hlen : S.n (w, e) ≤ n) (getOk : Bool) (bad keep : Nat → Bool) :
    ∃ edb', dianaSearch c edb
        (Diana.searchRequest c (Verif.Faults.seen getOk m) (metaNat w e)) bad keep =
      some ((Spec.fetch S (w, e) (if getOk then S.n (w, e) else 0) bad).map (val (w, e)), edb') ∧
      (Diana.searchRequest c (Verif.Faults.seen getOk m) (metaNat w e)).addCount =
        UInt32.ofNat (if getOk then S.n (w, e) else 0) ∧
      SlotInv c K n m edb'
        (Spec.clear S (w, e) (if getOk then S.n (w, e) else 0) bad keep) val := by
  have hc : Verif.Faults.seen getOk m (metaNat w e) =
      Counter.counterOf (if getOk then S.n (w, e) else 0) := by
    cases getOk
    · simp [Verif.Faults.seen, Verif.Faults.get, Counter.counterOf]
    · simp [Verif.Faults.seen, Verif.Faults.get, h.counter w hw e he]
  have hk : (if getOk then S.n (w, e) else 0) ≤ n := by
    cases getOk
    · simp
    · simpa using hlen
  generalize (if getOk then S.n (w, e) else 0) = k at hc hk
  have hnd := nodup_leaves c hnc hw he hk
  obtain ⟨h1, h2⟩ := deleteLoop_spec c bad keep edb _ hnd
  refine ⟨(deleteLoop c bad keep edb (Diana.leavesOf c (metaNat w e) k)).2, ?_,
    addCount_slots c _ _ _ hc (by omega), ?_⟩
  · rw [dianaSearch_request c edb _ _ k hc (by omega)]
    congr 1
    refine Prod.ext ?_ rfl
    rw [h1, Diana.leavesOf, List.filterMap_map, Spec.fetch, List.map_filterMap]
    apply List.filterMap_congr
    intro a ha
    rw [List.mem_range] at ha
    simp only [Function.comp_apply]
    have := h.entries w hw e he a (by omega)
    rw [show c.token (c.eval (c.root (c.hash (metaNat w e))) a) =
      Diana.updateToken c (metaNat w e) a from rfl, this]
    cases bad a
    · cases S.slot (w, e) a with
      | none => rfl
      | some v => simp [c.xor_xor]
    · rfl
  · refine ⟨h.counter, ?_⟩
    intro v hv f hf a ha
    rw [h2]
    have hiff : (∃ l ∈ Diana.leavesOf c (metaNat w e) k,
        c.token l.2 = Diana.updateToken c (metaNat v f) a ∧ bad l.1 = false ∧ keep l.1 = false) ↔
        ((v, f) = (w, e) ∧ a < k ∧ bad a = false ∧ keep a = false) := by
      constructor
      · rintro ⟨l, hl, ht, hb, hk'⟩
        simp only [Diana.leavesOf, List.mem_map, List.mem_range] at hl
        obtain ⟨b, hb1, rfl⟩ := hl
        obtain ⟨rfl, rfl, rfl⟩ := token_ne c hnc hw hv he hf hn (by omega) ha ht
        exact ⟨rfl, hb1, hb, hk'⟩
      · rintro ⟨hx, ha', hb, hk'⟩
        obtain ⟨rfl, rfl⟩ := Prod.mk.inj hx
        refine ⟨(a, c.eval (c.root (c.hash (metaNat v f))) a), ?_, rfl, hb, hk'⟩
        simp only [Diana.leavesOf, List.mem_map, List.mem_range]
        exact ⟨a, ha', rfl⟩
    simp only [hiff, Spec.clear]
    split
    · rfl
    · exact h.entries v hv f hf a ha

/-! ## Decryption -/

theorem shares_proper {T : Type} (P : Nat → T → KS) (t : Index → T) (l : List (Nat × Index)) (k : Nat)
    (h : l.map (·.1) = List.range' (k + 1) l.length) :
    l.map (fun x => P x.1 (t x.2)) =
      ((l.map (fun x => t x.2)).zipIdx k).map (fun e => P (e.2 + 1) e.1) := by
  induction l generalizing k with
  | nil => rfl
  | cons x l ih =>
    simp only [List.map_cons, List.length_cons, List.range'_succ, List.cons.injEq] at h
    simp only [List.map_cons, List.zipIdx_cons, List.cons.injEq]
    exact ⟨by rw [h.1], ih (k + 1) h.2⟩

theorem decrypt_proper (c : Crypto PK KS CT Rand) (laws : PunctLaws c) {D : List Index} {w : Str}
    (hinj : ∀ i ∈ D, ∀ j ∈ D, docTag c w i = docTag c w j → i = j) (pk : PK) (rem : List Index)
    (hrem : ∀ i ∈ rem, i ∈ D) (hlen : rem.length < 2 ^ 32) (ins : List (Index × Rand))
    (hins : ∀ d ∈ ins, d.1 ∈ D) :
    decryptAll c (properShares c pk (rem.map (docTag c w)))
        (ins.map (fun d => c.encrypt pk d.2 d.1 (docTag c w d.1))) =
      ((ins.map (·.1)).filter (fun i => !rem.contains i)).map (fun i => (i, docTag c w i)) := by
  unfold decryptAll
  induction ins with
  | nil => rfl
  | cons d ins ih =>
    have hd := hins d (by simp)
    have ih' := ih (fun e' h' => hins e' (by simp [h']))
    rw [List.map_cons, List.filterMap_cons, List.map_cons, List.filter_cons, c.ctTag_encrypt, ih']
    by_cases hm : rem.contains d.1 = true
    · have ht : docTag c w d.1 ∈ rem.map (docTag c w) := by
        rw [← List.contains_iff_mem, tag_mem c hinj rem hrem _ hd]; exact hm
      rw [laws.refuses _ _ _ _ _ (by simpa using hlen) ht]
      simp only [Option.map_none, hm, Bool.not_true, Bool.false_eq_true, if_false]
    · have ht : docTag c w d.1 ∉ rem.map (docTag c w) := by
        rw [← List.contains_iff_mem, tag_mem c hinj rem hrem _ hd]; exact hm
      rw [laws.decrypts _ _ _ _ _ (by simpa using hlen) ht]
      rw [Bool.not_eq_true] at hm
      simp only [Option.map_some, hm, Bool.not_false, if_true, List.map_cons]

/-! ## The refinement -/

/-- How an insertion is stored. -/
def insVal (c : Crypto PK KS CT Rand) (k : Str × Nat) (x : Index × Rand) : CT :=
  c.encrypt (c.derive (metaNat k.1 k.2)) x.2 x.1 (docTag c k.1 x.1)

/-- How a puncture is stored. -/
def delVal (c : Crypto PK KS CT Rand) (k : Str × Nat) (x : Nat × Index) : KS :=
  c.incPuncture (c.derive (metaNat k.1 k.2)) (UInt32.ofNat x.1) (docTag c k.1 x.2)

/-- The system and the machine after `t` operations. -/
structure Inv (c : Crypto PK KS CT Rand) (K : List Str) (D : List Index) (n t : Nat) (s : Sys KS CT)
    (M : Spec.Machine Rand) : Prop where
  searchCtr : ∀ w ∈ K, Janus.searchCounter s.client w = UInt32.ofNat (M.epoch w)
  ins : SlotInv c.ins K n s.client.insCtr s.server.insEdb M.ins (insVal c)
  del : SlotInv c.del K n s.client.delCtr s.server.delEdb M.del (delVal c)
  cache : ∀ w ∈ K, readCache s.server.cache (c.kwToken w) =
    .ok ((M.cache w).map (fun i => (i, docTag c w i)))
  cacheDocs : ∀ w ∈ K, ∀ i ∈ M.cache w, i ∈ D
  insDocs : ∀ k p x, M.ins.slot k p = some x → x.1 ∈ D
  delDocs : ∀ k p x, M.del.slot k p = some x → x.2 ∈ D
  epochLe : ∀ w, M.epoch w ≤ t
  insLe : ∀ k, M.ins.n k ≤ t
  delLe : ∀ k, M.del.n k ≤ t

theorem inv_init (c : Crypto PK KS CT Rand) (K : List Str) (D : List Index) (n : Nat) :
    Inv c K D n 0 Sys.init Spec.Machine.init := by
  refine ⟨?_, slotInv_init _ _ _ _, slotInv_init _ _ _ _, ?_, ?_, ?_, ?_, ?_, ?_, ?_⟩
  · intros; rfl
  · intros; rfl
  all_goals intros; simp_all [Spec.Machine.init, Slots.init]

theorem meta_eq (c : Crypto PK KS CT Rand) {K D n t} {s : Sys KS CT} {M : Spec.Machine Rand}
    (h : Inv c K D n t s M) (ht : t < 2 ^ 32) (ok : Bool) {w : Str} (hw : w ∈ K) :
    searchCounter ok s.client w = UInt32.ofNat (M.epochOf ok w) ∧
    metaKeyword w (searchCounter ok s.client w) = metaNat w (M.epochOf ok w) ∧
    M.epochOf ok w ≤ t := by
  have h1 : searchCounter ok s.client w = UInt32.ofNat (M.epochOf ok w) := by
    cases ok
    · simp [searchCounter, Spec.Machine.epochOf]
    · simp [searchCounter, Spec.Machine.epochOf, h.searchCtr w hw]
  have h2 : M.epochOf ok w ≤ t := by
    have := h.epochLe w
    cases ok
    · simp [Spec.Machine.epochOf]
    · simpa [Spec.Machine.epochOf] using this
  refine ⟨h1, ?_, h2⟩
  rw [h1, metaKeyword, metaNat]
  congr 2
  simp [UInt32.toNat_ofNat']; omega

/-- The slots change in one place at most. -/
theorem step_slots (S : Slots (Str × Nat) W) (k : Str × Nat) (x : W) (g : Bool)
    (r : Verif.Faults.PutRes) (q : Verif.Faults.PutRes) {t : Nat} (hn : ∀ k, S.n k ≤ t) :
    (∀ k', (S.step Verif.Faults.Spec.oldestFirst (.insert k x g r q)).1.n k' ≤ t + 1) ∧
    (∀ k' p y, (S.step Verif.Faults.Spec.oldestFirst (.insert k x g r q)).1.slot k' p = some y →
      y = x ∨ S.slot k' p = some y) := by
  have hk : (if g then S.n k else 0) ≤ t := by
    cases g
    · simp
    · simpa using hn k
  generalize hkk : (if g then S.n k else 0) = j at hk
  constructor
  · intro k'
    have := hn k'
    cases r with
    | failed => simp only [Slots.step]; omega
    | storedButFailed => simp only [Slots.step, hkk, Slots.setN]; (split <;> omega)
    | ok =>
      simp only [Slots.step, hkk]
      split <;> simp only [Slots.setN, Slots.fill] <;> (split <;> omega)
  · intro k' p y hy
    cases r with
    | failed => exact Or.inr hy
    | storedButFailed => exact Or.inr hy
    | ok =>
      simp only [Slots.step, hkk] at hy
      by_cases hq : q = .failed
      · rw [if_pos hq] at hy; exact Or.inr hy
      · rw [if_neg hq] at hy
        simp only [Slots.fill, Slots.setN] at hy
        by_cases hx : k' = k ∧ p = j
        · rw [if_pos hx] at hy; exact Or.inl (Option.some.inj hy).symm
        · rw [if_neg hx] at hy; exact Or.inr hy

theorem clear_slot (S : Slots (Str × Nat) W) (k : Str × Nat) (n : Nat) (bad keep : Nat → Bool)
    {k' : Str × Nat} {p : Nat} {y : W} (h : (Spec.clear S k n bad keep).slot k' p = some y) :
    S.slot k' p = some y := by
  simp only [Spec.clear] at h
  split at h
  · exact absurd h (by simp)
  · exact h

theorem mem_fetch {S : Slots (Str × Nat) W} {k : Str × Nat} {n : Nat} {bad : Nat → Bool} {y : W}
    (h : y ∈ Spec.fetch S k n bad) : ∃ p, S.slot k p = some y := by
  simp only [Spec.fetch, List.mem_filterMap] at h
  obtain ⟨p, -, hp⟩ := h
  split at hp
  · exact absurd hp (by simp)
  · exact ⟨p, hp⟩

/-- One operation. -/
theorem step_refines (c : Crypto PK KS CT Rand) (laws : PunctLaws c) {K D n t} (hn : n < 2 ^ 32)
    (hnc : NoCollision c K D n) {s : Sys KS CT} {M : Spec.Machine Rand} (h : Inv c K D n t s M)
    (ht : t + 1 ≤ n) (op : Op Rand) (hK : Spec.Op.kw op ∈ K) (hD : ∀ i ∈ Spec.Op.docs op, i ∈ D)
    (hk : M.keyOk op = true) :
    ∃ s', step c s op = .ok (s', (M.step op).2) ∧ Inv c K D n (t + 1) s' (M.step op).1 := by
  cases op with
  | insert w i r f =>
    have hw : w ∈ K := hK
    have hi : i ∈ D := hD i (by simp [Spec.Op.docs])
    obtain ⟨-, hmk, hle⟩ := meta_eq c h (by omega) f.scGet hw
    obtain ⟨v, m', hg, ho, hI⟩ := slotInv_update hn hnc.ins h.ins hw (e := M.epochOf f.scGet w)
      (by omega) (by have := h.insLe (w, M.epochOf f.scGet w); omega) (i, r) f.getOk f.putRes f.srvPut
    obtain ⟨hN, hS⟩ := step_slots M.ins (w, M.epochOf f.scGet w) (i, r) f.getOk f.putRes
      (if f.srvPut then .ok else .failed) h.insLe
    have hfin : ∀ s' : Sys KS CT, s'.client.searchCtr = s.client.searchCtr →
        s'.client.insCtr = m' → s'.client.delCtr = s.client.delCtr →
        s'.server.insEdb = (if f.putRes.isOk && f.srvPut then Diana.serverInsert s.server.insEdb
          (Diana.requestFor c.ins (metaNat w (M.epochOf f.scGet w))
            (insVal c (w, M.epochOf f.scGet w) (i, r)) v) else s.server.insEdb) →
        s'.server.delEdb = s.server.delEdb → s'.server.cache = s.server.cache →
        Inv c K D n (t + 1) s' (M.step (.insert w i r f)).1 := by
      intro s' h1 h2 h3 h4 h5 h6
      refine ⟨?_, ?_, ?_, ?_, h.cacheDocs, ?_, h.delDocs, ?_, hN, ?_⟩
      · intro v hv
        have := h.searchCtr v hv
        unfold Janus.searchCounter at this ⊢
        rw [h1]; exact this
      · rw [h2, h4]; exact hI
      · rw [h3, h5]; exact h.del
      · rw [h6]; exact h.cache
      · intro k p x hx
        rcases hS k p x hx with rfl | hx
        · exact hi
        · exact h.insDocs k p x hx
      · intro v; exact Nat.le_succ_of_le (h.epochLe v)
      · intro v; exact Nat.le_succ_of_le (h.delLe v)
    have hout : (M.step (.insert w i r f)).2 = if f.putRes.isOk then .acked else .error := ho
    rw [hout]
    simp only [step, insertionRequest, hmk, hg]
    cases hr : f.putRes.isOk with
    | true =>
      refine ⟨_, rfl, hfin _ rfl rfl rfl ?_ ?_ ?_⟩
      · cases f.srvPut <;> simp [hr, insert, insVal]
      · cases f.srvPut <;> simp [insert]
      · cases f.srvPut <;> simp [insert]
    | false =>
      exact ⟨_, rfl, hfin _ rfl rfl rfl (by simp [hr]) rfl rfl⟩
  | remove w i f =>
    have hw : w ∈ K := hK
    have hi : i ∈ D := hD i (by simp [Spec.Op.docs])
    obtain ⟨-, hmk, hle⟩ := meta_eq c h (by omega) f.scGet hw
    have hdn := h.delLe (w, M.epochOf f.scGet w)
    obtain ⟨v, m', hg, ho, hI⟩ := slotInv_update hn hnc.del h.del hw (e := M.epochOf f.scGet w)
      (by omega) (by omega) (Spec.punctureNumber f.numGet (M.del.n (w, M.epochOf f.scGet w)), i)
      f.getOk f.putRes f.srvPut
    obtain ⟨hN, hS⟩ := step_slots M.del (w, M.epochOf f.scGet w)
      (Spec.punctureNumber f.numGet (M.del.n (w, M.epochOf f.scGet w)), i) f.getOk f.putRes
      (if f.srvPut then .ok else .failed) h.delLe
    have hnum : Diana.getMatchCount (Verif.Faults.seen f.numGet s.client.delCtr)
        (metaNat w (M.epochOf f.scGet w)) + 1 =
        UInt32.ofNat (Spec.punctureNumber f.numGet (M.del.n (w, M.epochOf f.scGet w))) := by
      have hc := h.del.counter w hw (M.epochOf f.scGet w) (by omega)
      generalize M.del.n (w, M.epochOf f.scGet w) = j at hc hdn
      cases f.numGet with
      | false =>
        simp [Diana.getMatchCount, Counter.get, Verif.Faults.seen, Verif.Faults.get,
          Spec.punctureNumber]
      | true =>
        simp only [Diana.getMatchCount, Counter.get, Verif.Faults.seen, Verif.Faults.get, if_true, hc,
          Counter.counterOf, Spec.punctureNumber, true_and]
        by_cases h0 : j = 0
        · simp [h0]
        · simp only [h0, if_false, ne_eq, not_false_eq_true, if_true]
          have : j - 1 + 1 = j := by omega
          conv => rhs; rw [← this, UInt32.ofNat_add]
          rfl
    have hfin : ∀ s' : Sys KS CT, s'.client.searchCtr = s.client.searchCtr →
        s'.client.delCtr = m' → s'.client.insCtr = s.client.insCtr →
        s'.server.delEdb = (if f.putRes.isOk && f.srvPut then Diana.serverInsert s.server.delEdb
          (Diana.requestFor c.del (metaNat w (M.epochOf f.scGet w))
            (delVal c (w, M.epochOf f.scGet w)
              (Spec.punctureNumber f.numGet (M.del.n (w, M.epochOf f.scGet w)), i)) v)
          else s.server.delEdb) →
        s'.server.insEdb = s.server.insEdb → s'.server.cache = s.server.cache →
        Inv c K D n (t + 1) s' (M.step (.remove w i f)).1 := by
      intro s' h1 h2 h3 h4 h5 h6
      refine ⟨?_, ?_, ?_, ?_, h.cacheDocs, h.insDocs, ?_, ?_, ?_, hN⟩
      · intro v hv
        have := h.searchCtr v hv
        unfold Janus.searchCounter at this ⊢
        rw [h1]; exact this
      · rw [h3, h5]; exact h.ins
      · rw [h2, h4]; exact hI
      · rw [h6]; exact h.cache
      · intro k p x hx
        rcases hS k p x hx with rfl | hx
        · exact hi
        · exact h.delDocs k p x hx
      · intro v; exact Nat.le_succ_of_le (h.epochLe v)
      · intro v; exact Nat.le_succ_of_le (h.insLe v)
    have hout : (M.step (.remove w i f)).2 = if f.putRes.isOk then .acked else .error := ho
    rw [hout]
    simp only [step, removalRequest, hmk, hg, hnum]
    cases hr : f.putRes.isOk with
    | true =>
      refine ⟨_, rfl, hfin _ rfl rfl rfl ?_ ?_ ?_⟩
      · cases f.srvPut <;> simp [hr, remove, delVal]
      · cases f.srvPut <;> simp [remove]
      · cases f.srvPut <;> simp [remove]
    | false =>
      exact ⟨_, rfl, hfin _ rfl rfl rfl (by simp [hr]) rfl rfl⟩
  | search w f =>
    have hw : w ∈ K := hK
    obtain ⟨hsc, hmk, hle⟩ := meta_eq c h (by omega) f.scGet hw
    obtain ⟨insEdb, hi1, hi2, hi3⟩ := slotInv_search hn hnc.ins h.ins hw (e := M.epochOf f.scGet w)
      (by omega) (by have := h.insLe (w, M.epochOf f.scGet w); omega) f.insGet f.badIns f.keepIns
    obtain ⟨delEdb, hd1, hd2, hd3⟩ := slotInv_search hn hnc.del h.del hw (e := M.epochOf f.scGet w)
      (by omega) (by have := h.delLe (w, M.epochOf f.scGet w); omega) f.delGet f.badDel f.keepDel
    rw [show (if f.insGet = true then M.ins.n (w, M.epochOf f.scGet w) else 0) = (M.counts w f).1
      from rfl] at hi1 hi2 hi3
    rw [show (if f.delGet = true then M.del.n (w, M.epochOf f.scGet w) else 0) = (M.counts w f).2
      from rfl] at hd1 hd2 hd3
    rw [show Spec.fetch M.ins (w, M.epochOf f.scGet w) (M.counts w f).1 f.badIns = (M.fetched w f).1
      from rfl] at hi1
    rw [show Spec.fetch M.del (w, M.epochOf f.scGet w) (M.counts w f).2 f.badDel = (M.fetched w f).2
      from rfl] at hd1
    have hni : (M.counts w f).1 ≤ t := by
      have := h.insLe (w, M.epochOf f.scGet w)
      simp only [Spec.Machine.counts]; split <;> omega
    have hnd : (M.counts w f).2 ≤ t := by
      have := h.delLe (w, M.epochOf f.scGet w)
      simp only [Spec.Machine.counts]; split <;> omega
    have hinj := hnc.tags w hw
    -- the removed documents
    have hremD : ∀ i ∈ (M.fetched w f).2.map (·.2), i ∈ D := by
      intro i hi
      obtain ⟨x, hx, rfl⟩ := List.mem_map.mp hi
      obtain ⟨p, hp⟩ := mem_fetch hx
      exact h.delDocs _ p x hp
    have hinsD : ∀ x ∈ (M.fetched w f).1, x.1 ∈ D := by
      intro x hx
      obtain ⟨p, hp⟩ := mem_fetch hx
      exact h.insDocs _ p x hp
    have htags : ((M.fetched w f).2.map (delVal c (w, M.epochOf f.scGet w))).map c.ksTag =
        ((M.fetched w f).2.map (·.2)).map (docTag c w) := by
      rw [List.map_map, List.map_map]
      apply List.map_congr_left
      intro x _
      simp [delVal, c.ksTag_incPuncture]
    -- the cache
    have hcache : (if f.cacheGet = true then readCache s.server.cache (c.kwToken w) else .ok []) =
        .ok ((if f.cacheGet then M.cache w else []).map (fun i => (i, docTag c w i))) := by
      cases f.cacheGet
      · rfl
      · exact h.cache w hw
    have hcD : ∀ i ∈ (if f.cacheGet then M.cache w else []), i ∈ D := by
      cases f.cacheGet
      · simp
      · exact h.cacheDocs w hw
    have hfilter : ∀ l : List Index, (∀ i ∈ l, i ∈ D) →
        filterCache (((M.fetched w f).2.map (·.2)).map (docTag c w))
          (l.map (fun i => (i, docTag c w i))) =
        (l.filter (fun i => !((M.fetched w f).2.map (·.2)).contains i)).map
          (fun i => (i, docTag c w i)) := by
      intro l hl
      unfold filterCache
      rw [List.filter_map]
      congr 1
      apply List.filter_congr
      intro i hi
      simp only [Function.comp_apply]
      rw [tag_mem c hinj _ hremD i (hl i hi)]
    -- the new results
    have hfresh : decryptAll c
        (c.initialKeyshare (c.derive (metaNat w (M.epochOf f.scGet w)))
          (UInt32.ofNat (M.counts w f).2) ::
          (M.fetched w f).2.map (delVal c (w, M.epochOf f.scGet w)))
        ((M.fetched w f).1.map (insVal c (w, M.epochOf f.scGet w))) =
        (((M.fetched w f).1.map (·.1)).filter
          (fun i => !((M.fetched w f).2.map (·.2)).contains i)).map (fun i => (i, docTag c w i)) := by
      simp only [Spec.Machine.keyOk, Bool.or_eq_true, Bool.and_eq_true, decide_eq_true_iff,
        List.isEmpty_iff] at hk
      rcases hk with hk | ⟨hk1, hk2⟩
      · simp [hk, decryptAll]
      · rw [← decrypt_proper c laws hinj (c.derive (metaNat w (M.epochOf f.scGet w))) _ hremD
          (by simp; omega) _ hinsD]
        have hsh := shares_proper (fun k tg => c.incPuncture
          (c.derive (metaNat w (M.epochOf f.scGet w))) (UInt32.ofNat k) tg) (docTag c w)
          (M.fetched w f).2 0 (by rw [hk2, hk1])
        unfold properShares
        rw [List.length_map, List.length_map, hk1, List.map_map]
        congr 2
    -- assemble
    have hsearch : step c s (.search w f) = .ok
        (⟨(searchRequest c s.client w f).2, ⟨insEdb, delEdb,
            if f.cachePut then writeCache s.server.cache (c.kwToken w)
              ((M.found w f).map (fun i => (i, docTag c w i))) else s.server.cache⟩⟩,
          .results (M.found w f)) := by
      have hfound : (M.found w f).map (fun i => (i, docTag c w i)) =
          filterCache (((M.fetched w f).2.map (·.2)).map (docTag c w))
            ((if f.cacheGet then M.cache w else []).map (fun i => (i, docTag c w i))) ++
          (((M.fetched w f).1.map (·.1)).filter
            (fun i => !((M.fetched w f).2.map (·.2)).contains i)).map
              (fun i => (i, docTag c w i)) := by
        rw [hfilter _ hcD, ← List.map_append, ← List.filter_append]
        rfl
      have hfst : ∀ l : List Index, (l.map (fun i => (i, docTag c w i))).map (·.1) = l := by
        intro l; simp [Function.comp_def]
      have hcr := h.cache w hw
      cases hcg : f.cacheGet with
      | false =>
        simp only [hcg, Bool.false_eq_true, if_false] at hfound
        simp only [step, search, searchRequest, hmk, hi1, hd1, hd2, ofOption]
        simp only [bind, Except.bind, pure, Except.pure, htags, hfresh, hcg, Bool.false_eq_true,
          if_false]
        rw [← List.map_append, show ([] : List (Index × Tag)) =
          ([] : List Index).map (fun i => (i, docTag c w i)) from rfl, ← hfound, hfst]
      | true =>
        simp only [hcg, if_true] at hfound
        simp only [step, search, searchRequest, hmk, hi1, hd1, hd2, ofOption, hcr]
        simp only [bind, Except.bind, pure, Except.pure, htags, hfresh, hcg, if_true]
        rw [← List.map_append, ← hfound, hfst]
    refine ⟨_, hsearch, ?_⟩
    have hrm : ∀ (S : Slots (Str × Nat) (Index × Rand)) (m : Map Str UInt32) (edb),
        SlotInv c.ins K n m edb S (insVal c) →
        SlotInv c.ins K n (Diana.removeKeyword m (metaNat w (M.epochOf f.scGet w))) edb
          (S.setN (w, M.epochOf f.scGet w) 0) (insVal c) := fun S m edb hS =>
      slotInv_setN hn hS (by omega) 0 (by simp [Diana.removeKeyword, Counter.removeKey, Counter.counterOf])
        (fun x hx => by simp [Diana.removeKeyword, Counter.removeKey, Map.erase_of_ne _ hx])
    have hrmd : ∀ (S : Slots (Str × Nat) (Nat × Index)) (m : Map Str UInt32) (edb),
        SlotInv c.del K n m edb S (delVal c) →
        SlotInv c.del K n (Diana.removeKeyword m (metaNat w (M.epochOf f.scGet w))) edb
          (S.setN (w, M.epochOf f.scGet w) 0) (delVal c) := fun S m edb hS =>
      slotInv_setN hn hS (by omega) 0 (by simp [Diana.removeKeyword, Counter.removeKey, Counter.counterOf])
        (fun x hx => by simp [Diana.removeKeyword, Counter.removeKey, Map.erase_of_ne _ hx])
    have hp1 := ofNat_pos (n := (M.counts w f).1) (by omega)
    have hp2 := ofNat_pos (n := (M.counts w f).2) (by omega)
    refine ⟨?_, ?_, ?_, ?_, ?_, ?_, ?_, ?_, ?_, ?_⟩
    · intro v hv
      have hold := h.searchCtr v hv
      have hcond : ((decide (UInt32.ofNat (M.counts w f).1 > 0) ||
          decide (UInt32.ofNat (M.counts w f).2 > 0)) && f.scPut) = true ↔
          ((0 < (M.counts w f).1 ∨ 0 < (M.counts w f).2) ∧ f.scPut = true) := by
        simp only [Bool.and_eq_true, Bool.or_eq_true, decide_eq_true_iff, hp1, hp2]
      unfold Janus.searchCounter Counter.get at hold ⊢
      simp only [searchRequest, hmk, hi2, hd2, Spec.Machine.step]
      rw [hsc]
      by_cases hc1 : (0 < (M.counts w f).1 ∨ 0 < (M.counts w f).2) ∧ f.scPut = true
      · rw [if_pos (hcond.2 hc1)]
        by_cases hv' : v = w
        · subst hv'
          rw [if_pos ⟨rfl, hc1⟩, UInt32.ofNat_add]
          simp [Counter.set]
        · rw [if_neg (fun hh => hv' hh.1), ← hold]
          simp only [Counter.set, Map.put_of_ne _ _ hv']
      · rw [if_neg (fun hh => hc1 (hcond.1 hh)), if_neg (fun hh => hc1 hh.2), ← hold]
    · have hcond : (decide (UInt32.ofNat (M.counts w f).1 > 0) && f.insDel) = true ↔
          (0 < (M.counts w f).1 ∧ f.insDel = true) := by
        simp only [Bool.and_eq_true, decide_eq_true_iff, hp1]
      simp only [searchRequest, hmk, hi2, Spec.Machine.step, hcond]
      split
      · exact hrm _ _ _ hi3
      · exact hi3
    · have hcond : (decide (UInt32.ofNat (M.counts w f).2 > 0) && f.delDel) = true ↔
          (0 < (M.counts w f).2 ∧ f.delDel = true) := by
        simp only [Bool.and_eq_true, decide_eq_true_iff, hp2]
      simp only [searchRequest, hmk, hd2, Spec.Machine.step, hcond]
      split
      · exact hrmd _ _ _ hd3
      · exact hd3
    · intro v hv
      have hold := h.cache v hv
      simp only [Spec.Machine.step]
      by_cases hp : f.cachePut = true
      · by_cases hv' : v = w
        · subst hv'
          rw [if_pos hp, if_pos ⟨rfl, hp⟩, readCache_writeCache]
        · rw [if_pos hp, if_neg (fun hh => hv' hh.1), readCache_writeCache_ne, hold]
          exact fun he => hv' (hnc.kw v hv w hw he)
      · rw [if_neg hp, if_neg (fun hh => hp hh.2), hold]
    · intro v hv i hi
      simp only [Spec.Machine.step] at hi
      by_cases hp : v = w ∧ f.cachePut = true
      · rw [if_pos hp] at hi
        simp only [Spec.Machine.found, List.mem_filter, List.mem_append] at hi
        rcases hi.1 with hi' | hi'
        · exact hcD i hi'
        · obtain ⟨x, hx, rfl⟩ := List.mem_map.mp hi'
          exact hinsD x hx
      · rw [if_neg hp] at hi
        exact h.cacheDocs v hv i hi
    · intro k p x hx
      refine h.insDocs k p x (clear_slot M.ins (w, M.epochOf f.scGet w) (M.counts w f).1 f.badIns
        f.keepIns ?_)
      simp only [Spec.Machine.step] at hx
      split at hx <;> exact hx
    · intro k p x hx
      refine h.delDocs k p x (clear_slot M.del (w, M.epochOf f.scGet w) (M.counts w f).2 f.badDel
        f.keepDel ?_)
      simp only [Spec.Machine.step] at hx
      split at hx <;> exact hx
    · intro v
      have := h.epochLe v
      simp only [Spec.Machine.step]
      split <;> omega
    · intro k
      have := h.insLe k
      simp only [Spec.Machine.step, Spec.clear, Slots.setN]
      split
      · show (if k = (w, M.epochOf f.scGet w) then 0 else M.ins.n k) ≤ t + 1
        split <;> omega
      · show M.ins.n k ≤ t + 1
        omega
    · intro k
      have := h.delLe k
      simp only [Spec.Machine.step, Spec.clear, Slots.setN]
      split
      · show (if k = (w, M.epochOf f.scGet w) then 0 else M.del.n k) ≤ t + 1
        split <;> omega
      · show M.del.n k ≤ t + 1
        omega

theorem run_refines (c : Crypto PK KS CT Rand) (laws : PunctLaws c) {K D n} (hn : n < 2 ^ 32)
    (hnc : NoCollision c K D n) (ops : List (Op Rand)) (t : Nat) {s : Sys KS CT}
    {M : Spec.Machine Rand} (h : Inv c K D n t s M) (ht : t + ops.length ≤ n)
    (hK : ∀ op ∈ ops, Spec.Op.kw op ∈ K) (hD : ∀ op ∈ ops, ∀ i ∈ Spec.Op.docs op, i ∈ D)
    (hk : M.keysOk ops = true) :
    ∃ s', run c s ops = .ok (s', M.run ops) := by
  induction ops generalizing t s M with
  | nil => exact ⟨s, rfl⟩
  | cons op ops ih =>
    simp only [List.length_cons] at ht
    simp only [Spec.Machine.keysOk, Bool.and_eq_true] at hk
    obtain ⟨s1, h1, h2⟩ := step_refines c laws hn hnc h (by omega) op (hK op (by simp))
      (hD op (by simp)) hk.1
    obtain ⟨s2, h3⟩ := ih (t + 1) h2 (by omega) (fun o ho => hK o (by simp [ho]))
      (fun o ho => hD o (by simp [ho])) hk.2
    exact ⟨s2, by simp only [run, h1, h3, Spec.Machine.run]⟩

end Verif.Janus.Faults
