import Verif.Janus.Spec
import Verif.Diana.Lemmas
import Verif.Utils.ListStoreProps

/-! # Helper lemmas for Janus -/

set_option linter.unusedSectionVars false

namespace Verif.Janus

open Verif

variable {PK KS CT Rand : Type}

/-! ## Strings -/

theorem hexDigit_inj {a b : Nat} (ha : a < 16) (hb : b < 16) (h : hexDigit a = hexDigit b) :
    a = b := by
  have key : ∀ a : Fin 16, ∀ b : Fin 16, hexDigit a.val = hexDigit b.val → a = b := by decide
  exact congrArg Fin.val (key ⟨a, ha⟩ ⟨b, hb⟩ h)

@[simp] theorem hexFixed_length (k n : Nat) : (hexFixed k n).length = k := by
  induction k generalizing n with
  | zero => rfl
  | succ k ih => simp [hexFixed, ih]

theorem hexFixed_inj {k a b : Nat} (ha : a < 16 ^ k) (hb : b < 16 ^ k)
    (h : hexFixed k a = hexFixed k b) : a = b := by
  induction k generalizing a b with
  | zero => simp at ha hb; omega
  | succ k ih =>
    rw [Nat.pow_succ] at ha hb
    simp only [hexFixed] at h
    have h' := List.append_inj' h rfl
    have h1 := ih (Nat.div_lt_of_lt_mul (by omega)) (Nat.div_lt_of_lt_mul (by omega)) h'.1
    have h2 := hexDigit_inj (Nat.mod_lt _ (by omega)) (Nat.mod_lt _ (by omega))
      (List.cons.inj h'.2).1
    omega

/-- Meta keyword of epoch `e`. -/
def metaNat (w : Str) (e : Nat) : Str := hexFixed 8 e ++ w

theorem metaNat_inj {v w : Str} {a b : Nat} (ha : a < 2 ^ 32) (hb : b < 2 ^ 32)
    (h : metaNat v a = metaNat w b) : v = w ∧ a = b := by
  have := List.append_inj h (by simp)
  exact ⟨this.2, hexFixed_inj (by omega) (by omega) this.1⟩

theorem mem_metas (K : List Str) (n : Nat) (w : Str) (e : Nat) (hw : w ∈ K) (he : e ≤ n) :
    metaNat w e ∈ metas K n := by
  unfold metas
  rw [List.mem_flatMap]
  exact ⟨w, hw, List.mem_map.mpr ⟨e, List.mem_range.mpr (by omega), rfl⟩⟩

theorem bound_meta (K : List Str) (n : Nat) (w : Str) (e : Nat) (hw : w ∈ K) (he : e ≤ n) :
    bound K n (metaNat w e) = n := if_pos (mem_metas K n w e hw he)

theorem bound_le (K : List Str) (n : Nat) (mk : Str) : bound K n mk ≤ n := by
  unfold bound; split <;> omega

/-! ## A deleting search followed by the client forgetting the keyword -/

theorem slots_self {Kw V : Type} [DecidableEq Kw] (S : Kw → List (Option V)) (w : Kw) (l)
    (h : S w = l) : Diana.setSlots S w l = S := by
  funext v
  unfold Diana.setSlots
  by_cases hv : v = w
  · rw [if_pos hv, hv, h]
  · rw [if_neg hv]

theorem addCount_slots {Kw V : Type} [DecidableEq Kw] (c : Diana.Crypto Kw V)
    (m : Map Kw UInt32) (w : Kw) (n : Nat) (hm : m w = Counter.counterOf n) (hn : n < 2 ^ 32) :
    (Diana.searchRequest c m w).addCount = UInt32.ofNat n := by
  unfold Diana.searchRequest Counter.get
  rw [hm]
  unfold Counter.counterOf
  by_cases h0 : n = 0
  · subst h0; rfl
  · simp only [h0, if_false]
    apply UInt32.toNat_inj.mp
    rw [UInt32.toNat_add]
    simp [UInt32.toNat_ofNat']
    omega

theorem ofNat_pos {n : Nat} (hn : n < 2 ^ 32) : (UInt32.ofNat n > 0) ↔ 0 < n := by
  show (0 : UInt32) < UInt32.ofNat n ↔ _
  rw [UInt32.lt_iff_toNat_lt]
  simp [UInt32.toNat_ofNat', Nat.mod_eq_of_lt hn]

theorem diana_searchForget {Kw V : Type} [DecidableEq Kw] (c : Diana.Crypto Kw V) (B : Kw → Nat)
    (hB2 : ∀ w, B w < 2 ^ 32) (hnc : Diana.NoCollision c B) (m : Map Kw UInt32) (edb : Diana.Edb V)
    (S : Kw → List (Option V)) (h : Diana.SlotInv c B ⟨m, edb⟩ S) (w : Kw)
    (hB : (S w).length ≤ B w) :
    ∃ edb', Diana.search c edb (Diana.searchRequest c m w) true =
        some ((S w).filterMap id, edb') ∧
      (Diana.searchRequest c m w).addCount = UInt32.ofNat (S w).length ∧
      Diana.SlotInv c B
        ⟨if (Diana.searchRequest c m w).addCount > 0 then Diana.removeKeyword m w else m, edb'⟩
        (Diana.setSlots S w []) := by
  have hn : (S w).length < 2 ^ 32 := by have := hB2 w; omega
  have hadd := addCount_slots c m w _ (h.counters w) hn
  refine ⟨(Diana.searchLoop c true edb (Diana.leavesOf c w (S w).length)).2, ?_, hadd, ?_⟩
  · rw [Diana.search_request c edb m w _ (h.counters w) hn]
    have h1 := (Diana.searchLoop_delete c edb _ (Diana.nodup_tokens c B hnc w _ hB)).1
    have h2 := Diana.results_slots c B _ S h w hB
    rw [← h2, ← h1]
  · have hd := Diana.slotInv_delete c B hnc _ S h w hB
    rw [hadd]
    by_cases h0 : 0 < (S w).length
    · rw [if_pos ((ofNat_pos hn).mpr h0)]
      exact Diana.slotInv_forget c B _ S w _ hd
    · have h0' : S w = [] := List.eq_nil_of_length_eq_zero (by omega)
      rw [if_neg (fun h => h0 ((ofNat_pos hn).mp h))]
      rw [slots_self S w [] h0']
      have : Diana.setSlots S w (List.replicate (S w).length none) = S := by
        apply slots_self; rw [h0']; rfl
      rw [this] at hd
      exact hd

/-! ## Exact behaviour, epoch by epoch -/

/-- What the system knows about a keyword: number of the epoch, insertions and removals of the
epoch, cached results. -/
structure Ep (Rand : Type) where
  epoch : Nat
  ins : List (Index × Rand)
  rem : List Index
  cache : List (Index × Tag)

def Ep.init : Ep Rand := ⟨0, [], [], []⟩

/-- Puncture number actually used by the removal number `k` (counted from 0) of an epoch. -/
def punctureNumber (k : Nat) : Nat := if k = 0 then 1 else k

/-- Key shares stored for the removals `rem` of epoch `e`. -/
def usedShares (c : Crypto PK KS CT Rand) (w : Str) (e : Nat) (rem : List Index) : List KS :=
  rem.zipIdx.map (fun d =>
    c.incPuncture (c.derive (metaNat w e)) (UInt32.ofNat (punctureNumber d.2)) (docTag c w d.1))

/-- Ciphertexts stored for the insertions of epoch `e`. -/
def storedCts (c : Crypto PK KS CT Rand) (w : Str) (e : Nat) (ins : List (Index × Rand)) : List CT :=
  ins.map (fun d => c.encrypt (c.derive (metaNat w e)) d.2 d.1 (docTag c w d.1))

/-- The punctured key used at the search of epoch `e`. -/
def searchKey (c : Crypto PK KS CT Rand) (w : Str) (e : Nat) (rem : List Index) : List KS :=
  c.initialKeyshare (c.derive (metaNat w e)) (UInt32.ofNat rem.length) :: usedShares c w e rem

/-- Cache after a search. -/
def Ep.newCache (c : Crypto PK KS CT Rand) (w : Str) (E : Ep Rand) : List (Index × Tag) :=
  filterCache (E.rem.map (docTag c w)) E.cache ++
    decryptAll c (searchKey c w E.epoch E.rem) (storedCts c w E.epoch E.ins)

/-- Effect of a search. -/
def Ep.search (c : Crypto PK KS CT Rand) (w : Str) (E : Ep Rand) : Ep Rand :=
  { epoch := if E.ins.length > 0 ∨ E.rem.length > 0 then E.epoch + 1 else E.epoch
    ins := [], rem := [], cache := E.newCache c w }

/-- Replace the state of one keyword. -/
def setEp (E : Str → Ep Rand) (w : Str) (e : Ep Rand) : Str → Ep Rand :=
  fun v => if v = w then e else E v

/-- Execution epoch by epoch. -/
def epRun (c : Crypto PK KS CT Rand) : (Str → Ep Rand) → List (Op Rand) →
    (Str → Ep Rand) × List (List Index)
  | E, [] => (E, [])
  | E, .insert w i r :: ops => epRun c (setEp E w { E w with ins := (E w).ins ++ [(i, r)] }) ops
  | E, .remove w i :: ops => epRun c (setEp E w { E w with rem := (E w).rem ++ [i] }) ops
  | E, .search w :: ops =>
    let r := epRun c (setEp E w ((E w).search c w)) ops
    (r.1, ((E w).newCache c w).map (·.1) :: r.2)

/-- Relation between the system and the epochs of the keywords; at most `BI` insertions and `BD` removals are made under a meta
keyword. -/
structure InvAt (c : Crypto PK KS CT Rand) (K : List Str) (BI BD : Str → Nat) (s : Sys KS CT)
    (E : Str → Ep Rand) (SI : Str → List (Option CT)) (SD : Str → List (Option KS)) : Prop where
  searchCtr : ∀ w, s.client.searchCtr w =
    if (E w).epoch = 0 then none else some (UInt32.ofNat (E w).epoch)
  ins : Diana.SlotInv c.ins BI ⟨s.client.insCtr, s.server.insEdb⟩ SI
  del : Diana.SlotInv c.del BD ⟨s.client.delCtr, s.server.delEdb⟩ SD
  insSlots : ∀ w, SI (metaNat w (E w).epoch) = (storedCts c w (E w).epoch (E w).ins).map some
  delSlots : ∀ w, SD (metaNat w (E w).epoch) = (usedShares c w (E w).epoch (E w).rem).map some
  insFresh : ∀ w e, (E w).epoch < e → e < 2 ^ 32 → SI (metaNat w e) = []
  delFresh : ∀ w e, (E w).epoch < e → e < 2 ^ 32 → SD (metaNat w e) = []
  cache : ∀ w ∈ K, readCache s.server.cache (c.kwToken w) = .ok (E w).cache

theorem inv_init (c : Crypto PK KS CT Rand) (K : List Str) (BI BD : Str → Nat) :
    InvAt c K BI BD Sys.init (fun _ => Ep.init) (fun _ => []) (fun _ => []) := by
  constructor
  · intro w; rfl
  · exact Diana.slotInv_init _ _
  · exact Diana.slotInv_init _ _
  · intro w; rfl
  · intro w; rfl
  · intros; rfl
  · intros; rfl
  · intro w _; rfl

theorem searchCounter_eq (c : Crypto PK KS CT Rand) {K BI BD} {s : Sys KS CT} {E : Str → Ep Rand}
    {SI SD} (h : InvAt c K BI BD s E SI SD) (w : Str) :
    searchCounter s.client w = UInt32.ofNat (E w).epoch := by
  unfold searchCounter Counter.get
  rw [h.searchCtr w]
  by_cases h0 : (E w).epoch = 0
  · simp [h0]
  · simp [h0]

theorem metaKeyword_eq (c : Crypto PK KS CT Rand) {K BI BD} {s : Sys KS CT} {E : Str → Ep Rand}
    {SI SD} (h : InvAt c K BI BD s E SI SD) (w : Str) (he : (E w).epoch < 2 ^ 32) :
    metaKeyword w (searchCounter s.client w) = metaNat w (E w).epoch := by
  rw [searchCounter_eq c h, metaKeyword, metaNat]
  congr 2
  simp [UInt32.toNat_ofNat']; omega

theorem setSlots_ne {Kw V : Type} [DecidableEq Kw] (S : Kw → List (Option V)) {w v : Kw} (l)
    (h : v ≠ w) : Diana.setSlots S w l v = S v := if_neg h

theorem setSlots_self {Kw V : Type} [DecidableEq Kw] (S : Kw → List (Option V)) (w : Kw) (l) :
    Diana.setSlots S w l w = l := if_pos rfl

theorem setEp_self (E : Str → Ep Rand) (w : Str) (e : Ep Rand) : setEp E w e w = e := if_pos rfl

theorem setEp_ne (E : Str → Ep Rand) {w v : Str} (e : Ep Rand) (h : v ≠ w) : setEp E w e v = E v :=
  if_neg h

theorem storedCts_append (c : Crypto PK KS CT Rand) (w : Str) (e : Nat) (l : List (Index × Rand))
    (i : Index) (r : Rand) : storedCts c w e (l ++ [(i, r)]) =
      storedCts c w e l ++ [c.encrypt (c.derive (metaNat w e)) r i (docTag c w i)] := by
  simp [storedCts]

theorem usedShares_append (c : Crypto PK KS CT Rand) (w : Str) (e : Nat) (l : List Index)
    (i : Index) : usedShares c w e (l ++ [i]) = usedShares c w e l ++
      [c.incPuncture (c.derive (metaNat w e)) (UInt32.ofNat (punctureNumber l.length))
        (docTag c w i)] := by
  simp [usedShares, List.zipIdx_append]

@[simp] theorem storedCts_length (c : Crypto PK KS CT Rand) (w : Str) (e : Nat)
    (l : List (Index × Rand)) : (storedCts c w e l).length = l.length := by simp [storedCts]

@[simp] theorem usedShares_length (c : Crypto PK KS CT Rand) (w : Str) (e : Nat) (l : List Index) :
    (usedShares c w e l).length = l.length := by simp [usedShares]

theorem usedShares_tags (c : Crypto PK KS CT Rand) (w : Str) (e : Nat) (l : List Index) :
    (usedShares c w e l).map c.ksTag = l.map (docTag c w) := by
  unfold usedShares
  rw [List.map_map]
  have : (fun d : Index × Nat => docTag c w d.1) = docTag c w ∘ Prod.fst := rfl
  simp only [Function.comp_def, c.ksTag_incPuncture]
  rw [this, ← List.map_map, List.zipIdx_map_fst]

/-! ### Steps -/

theorem inv_insert (c : Crypto PK KS CT Rand) {K BI BD} {s : Sys KS CT} {E : Str → Ep Rand} {SI SD}
    (hnc : Diana.NoCollision c.ins BI) (h : InvAt c K BI BD s E SI SD) (hB2 : ∀ mk, BI mk < 2 ^ 32)
    (he : ∀ v, (E v).epoch < 2 ^ 32) (w : Str) (i : Index) (r : Rand)
    (hlen : (E w).ins.length < BI (metaNat w (E w).epoch)) :
    InvAt c K BI BD
      { client := (insertionRequest c s.client w i r).2,
        server := insert s.server (insertionRequest c s.client w i r).1 }
      (setEp E w { E w with ins := (E w).ins ++ [(i, r)] })
      (Diana.setSlots SI (metaNat w (E w).epoch) (SI (metaNat w (E w).epoch) ++
        [some (c.encrypt (c.derive (metaNat w (E w).epoch)) r i (docTag c w i))])) SD := by
  have hmk := metaKeyword_eq c h w (he w)
  have hl : (SI (metaNat w (E w).epoch)).length = (E w).ins.length := by rw [h.insSlots w]; simp
  have hI := Diana.slotInv_insert c.ins BI hnc _ SI h.ins (metaNat w (E w).epoch)
    (c.encrypt (c.derive (metaNat w (E w).epoch)) r i (docTag c w i))
    (by rw [hl]; exact hlen) (hB2 _)
  refine ⟨?_, ?_, ?_, ?_, ?_, ?_, ?_, ?_⟩
  · intro v
    have := h.searchCtr v
    by_cases hv : v = w
    · subst hv; rw [setEp_self]; exact this
    · rw [setEp_ne _ _ hv]; exact this
  · simp only [insertionRequest, hmk, insert]; exact hI
  · exact h.del
  · intro v
    by_cases hv : v = w
    · subst hv
      rw [setEp_self, setSlots_self, h.insSlots v, storedCts_append, List.map_append]
      rfl
    · rw [setEp_ne _ _ hv, setSlots_ne, h.insSlots v]
      exact fun hm => hv (metaNat_inj (he v) (he w) hm).1
  · intro v
    by_cases hv : v = w
    · subst hv; rw [setEp_self]; exact h.delSlots v
    · rw [setEp_ne _ _ hv]; exact h.delSlots v
  · intro v e h1 h2
    have h1' : (E v).epoch < e := by
      by_cases hv : v = w
      · subst hv; rw [setEp_self] at h1; exact h1
      · rw [setEp_ne _ _ hv] at h1; exact h1
    rw [setSlots_ne, h.insFresh v e h1' h2]
    intro hm
    obtain ⟨rfl, hm2⟩ := metaNat_inj h2 (he w) hm
    omega
  · intro v e h1 h2
    have h1' : (E v).epoch < e := by
      by_cases hv : v = w
      · subst hv; rw [setEp_self] at h1; exact h1
      · rw [setEp_ne _ _ hv] at h1; exact h1
    exact h.delFresh v e h1' h2
  · intro v hv
    have := h.cache v hv
    by_cases hvw : v = w
    · subst hvw; rw [setEp_self]; exact this
    · rw [setEp_ne _ _ hvw]; exact this

/-- The removal share actually computed. -/
theorem removalShare_eq (c : Crypto PK KS CT Rand) {K BI BD} {s : Sys KS CT} {E : Str → Ep Rand}
    {SI SD} (h : InvAt c K BI BD s E SI SD) (he : ∀ v, (E v).epoch < 2 ^ 32) (w : Str) (i : Index) :
    removalShare c s.client w i = c.incPuncture (c.derive (metaNat w (E w).epoch))
      (UInt32.ofNat (punctureNumber (E w).rem.length)) (docTag c w i) := by
  have hmk := metaKeyword_eq c h w (he w)
  unfold removalShare
  simp only [hmk]
  congr 1
  have hctr := h.del.counters (metaNat w (E w).epoch)
  rw [h.delSlots w] at hctr
  simp only [List.length_map, usedShares_length] at hctr
  unfold Diana.getMatchCount Counter.get
  rw [hctr]
  unfold Counter.counterOf punctureNumber
  by_cases h0 : (E w).rem.length = 0
  · simp [h0]
  · simp only [h0, if_false]
    have : (E w).rem.length - 1 + 1 = (E w).rem.length := by omega
    conv => rhs; rw [← this, UInt32.ofNat_add]
    rfl

theorem inv_remove (c : Crypto PK KS CT Rand) {K BI BD} {s : Sys KS CT} {E : Str → Ep Rand} {SI SD}
    (hnc : Diana.NoCollision c.del BD) (h : InvAt c K BI BD s E SI SD) (hB2 : ∀ mk, BD mk < 2 ^ 32)
    (he : ∀ v, (E v).epoch < 2 ^ 32) (w : Str) (i : Index)
    (hlen : (E w).rem.length < BD (metaNat w (E w).epoch)) :
    InvAt c K BI BD
      { client := (removalRequest c s.client w i).2,
        server := remove s.server (removalRequest c s.client w i).1 }
      (setEp E w { E w with rem := (E w).rem ++ [i] }) SI
      (Diana.setSlots SD (metaNat w (E w).epoch) (SD (metaNat w (E w).epoch) ++ [some (removalShare c s.client w i)])) := by
  have hmk := metaKeyword_eq c h w (he w)
  have hl : (SD (metaNat w (E w).epoch)).length = (E w).rem.length := by rw [h.delSlots w]; simp
  have hI := Diana.slotInv_insert c.del BD hnc _ SD h.del (metaNat w (E w).epoch)
    (removalShare c s.client w i)
    (by rw [hl]; exact hlen) (hB2 _)
  refine ⟨?_, ?_, ?_, ?_, ?_, ?_, ?_, ?_⟩
  · intro v
    have := h.searchCtr v
    by_cases hv : v = w
    · subst hv; rw [setEp_self]; exact this
    · rw [setEp_ne _ _ hv]; exact this
  · exact h.ins
  · simp only [removalRequest, hmk, remove]; exact hI
  · intro v
    by_cases hv : v = w
    · subst hv; rw [setEp_self]; exact h.insSlots v
    · rw [setEp_ne _ _ hv]; exact h.insSlots v
  · intro v
    by_cases hv : v = w
    · subst hv
      rw [setEp_self, setSlots_self, h.delSlots v, usedShares_append, List.map_append,
        removalShare_eq c h he]
      rfl
    · rw [setEp_ne _ _ hv, setSlots_ne, h.delSlots v]
      exact fun hm => hv (metaNat_inj (he v) (he w) hm).1
  · intro v e h1 h2
    have h1' : (E v).epoch < e := by
      by_cases hv : v = w
      · subst hv; rw [setEp_self] at h1; exact h1
      · rw [setEp_ne _ _ hv] at h1; exact h1
    exact h.insFresh v e h1' h2
  · intro v e h1 h2
    have h1' : (E v).epoch < e := by
      by_cases hv : v = w
      · subst hv; rw [setEp_self] at h1; exact h1
      · rw [setEp_ne _ _ hv] at h1; exact h1
    rw [setSlots_ne, h.delFresh v e h1' h2]
    intro hm
    obtain ⟨rfl, hm2⟩ := metaNat_inj h2 (he w) hm
    omega
  · intro v hv
    have := h.cache v hv
    by_cases hvw : v = w
    · subst hvw; rw [setEp_self]; exact this
    · rw [setEp_ne _ _ hvw]; exact this

theorem readCache_writeCache (m : Map (Vector UInt8 16) (List UInt8)) (k : Vector UInt8 16)
    (l : List (Index × Tag)) : readCache (writeCache m k l) k = .ok l := by
  unfold readCache writeCache
  rw [ListStore.C41_janus_cache]

theorem readCache_writeCache_ne (m : Map (Vector UInt8 16) (List UInt8)) {k k' : Vector UInt8 16}
    (l : List (Index × Tag)) (h : k' ≠ k) : readCache (writeCache m k l) k' = readCache m k' := by
  unfold readCache writeCache
  rw [(ListStore.C41_roundtrip _ ListStore.janus_lawful m k l).2 k' h]

theorem filterMap_some {α : Type} (l : List α) : (l.map some).filterMap id = l := by
  simp

theorem inv_search (c : Crypto PK KS CT Rand) {K BI BD} {s : Sys KS CT} {E : Str → Ep Rand} {SI SD}
    (hni : Diana.NoCollision c.ins BI) (hnd : Diana.NoCollision c.del BD)
    (hkw : ∀ v ∈ K, ∀ w ∈ K, c.kwToken v = c.kwToken w → v = w)
    (h : InvAt c K BI BD s E SI SD) (hBI : ∀ mk, BI mk < 2 ^ 32) (hBD : ∀ mk, BD mk < 2 ^ 32)
    (he : ∀ v, (E v).epoch + 1 < 2 ^ 32) (w : Str)
    (hw : w ∈ K) (hli : (E w).ins.length ≤ BI (metaNat w (E w).epoch))
    (hlr : (E w).rem.length ≤ BD (metaNat w (E w).epoch)) :
    (searchRequest c s.client w).1.del.addCount = UInt32.ofNat (E w).rem.length ∧
    (searchRequest c s.client w).1.firstKeyShare =
      c.initialKeyshare (c.derive (metaNat w (E w).epoch)) (UInt32.ofNat (E w).rem.length) ∧
    ∃ srv, search c s.server (searchRequest c s.client w).1 =
        .ok (((E w).newCache c w).map (·.1), srv) ∧
      InvAt c K BI BD { client := (searchRequest c s.client w).2, server := srv }
        (setEp E w ((E w).search c w)) (Diana.setSlots SI (metaNat w (E w).epoch) []) (Diana.setSlots SD (metaNat w (E w).epoch) []) := by
  have he' : ∀ v, (E v).epoch < 2 ^ 32 := fun v => by have := he v; omega
  have hli' := hBI (metaNat w (E w).epoch)
  have hlr' := hBD (metaNat w (E w).epoch)
  have hmk := metaKeyword_eq c h w (he' w)
  have hlI : (SI (metaNat w (E w).epoch)).length = (E w).ins.length := by rw [h.insSlots w]; simp
  have hlD : (SD (metaNat w (E w).epoch)).length = (E w).rem.length := by rw [h.delSlots w]; simp
  obtain ⟨iedb, i1, i2, i3⟩ := diana_searchForget c.ins _ hBI hni _ _ SI h.ins
    (metaNat w (E w).epoch) (by rw [hlI]; exact hli)
  obtain ⟨dedb, d1, d2, d3⟩ := diana_searchForget c.del _ hBD hnd _ _ SD h.del
    (metaNat w (E w).epoch) (by rw [hlD]; exact hlr)
  rw [hlI] at i2
  rw [hlD] at d2
  rw [h.insSlots w, filterMap_some] at i1
  rw [h.delSlots w, filterMap_some] at d1
  have hcache := h.cache w hw
  have hadd : (searchRequest c s.client w).1.del.addCount = UInt32.ofNat (E w).rem.length := by
    simp only [searchRequest, hmk]; exact d2
  have hfirst : (searchRequest c s.client w).1.firstKeyShare =
      c.initialKeyshare (c.derive (metaNat w (E w).epoch)) (UInt32.ofNat (E w).rem.length) := by
    simp only [searchRequest, hmk, d2]
  refine ⟨hadd, hfirst,
    { insEdb := iedb, delEdb := dedb,
      cache := writeCache s.server.cache (c.kwToken w) ((E w).newCache c w) },
    ?_, ?_⟩
  · unfold search
    rw [hfirst]
    have e1 : (searchRequest c s.client w).1.ins =
        Diana.searchRequest c.ins s.client.insCtr (metaNat w (E w).epoch) := by
      simp only [searchRequest, hmk]
    have e2 : (searchRequest c s.client w).1.del =
        Diana.searchRequest c.del s.client.delCtr (metaNat w (E w).epoch) := by
      simp only [searchRequest, hmk]
    have e3 : (searchRequest c s.client w).1.kwToken = c.kwToken w := rfl
    rw [e1, e2, e3, i1, d1]
    simp only [ofOption, bind, Except.bind, hcache, usedShares_tags, pure, Except.pure,
      Ep.newCache, searchKey, List.map_append]
  · have hpos : ((decide ((Diana.searchRequest c.ins s.client.insCtr
          (metaNat w (E w).epoch)).addCount > 0) ||
        decide ((Diana.searchRequest c.del s.client.delCtr
          (metaNat w (E w).epoch)).addCount > 0)) = true) ↔
        ((E w).ins.length > 0 ∨ (E w).rem.length > 0) := by
      rw [i2, d2, Bool.or_eq_true, decide_eq_true_iff, decide_eq_true_iff,
        ofNat_pos (by omega), ofNat_pos (by omega)]
    refine ⟨?_, ?_, ?_, ?_, ?_, ?_, ?_, ?_⟩
    · intro v
      simp only [searchRequest, hmk]
      rw [searchCounter_eq c h w]
      by_cases hact : (E w).ins.length > 0 ∨ (E w).rem.length > 0
      · rw [if_pos (hpos.mpr hact)]
        by_cases hv : v = w
        · subst hv
          rw [setEp_self]
          simp only [Ep.search, if_pos hact, Counter.set, Map.put_self, Nat.succ_ne_zero, if_false, UInt32.ofNat_add]
          rfl
        · rw [setEp_ne _ _ hv, Counter.set, Map.put_of_ne _ _ hv, h.searchCtr v]
      · rw [if_neg (fun hh => hact (hpos.mp hh))]
        by_cases hv : v = w
        · subst hv
          rw [setEp_self, h.searchCtr v]
          simp only [Ep.search, if_neg hact]
        · rw [setEp_ne _ _ hv, h.searchCtr v]
    · simp only [searchRequest, hmk]; exact i3
    · simp only [searchRequest, hmk]; exact d3
    · intro v
      by_cases hv : v = w
      · subst hv
        rw [setEp_self]
        show _ = []
        by_cases hact : (E v).ins.length > 0 ∨ (E v).rem.length > 0
        · simp only [Ep.search, if_pos hact]
          rw [setSlots_ne, h.insFresh v _ (by omega) (he v)]
          intro hm; have := (metaNat_inj (he v) (he' v) hm).2; omega
        · simp only [Ep.search, if_neg hact]
          rw [setSlots_self]
      · rw [setEp_ne _ _ hv, setSlots_ne, h.insSlots v]
        exact fun hm => hv (metaNat_inj (he' v) (he' w) hm).1
    · intro v
      by_cases hv : v = w
      · subst hv
        rw [setEp_self]
        show _ = []
        by_cases hact : (E v).ins.length > 0 ∨ (E v).rem.length > 0
        · simp only [Ep.search, if_pos hact]
          rw [setSlots_ne, h.delFresh v _ (by omega) (he v)]
          intro hm; have := (metaNat_inj (he v) (he' v) hm).2; omega
        · simp only [Ep.search, if_neg hact]
          rw [setSlots_self]
      · rw [setEp_ne _ _ hv, setSlots_ne, h.delSlots v]
        exact fun hm => hv (metaNat_inj (he' v) (he' w) hm).1
    · intro v e h1 h2
      have h1' : (E v).epoch < e := by
        by_cases hv : v = w
        · subst hv; rw [setEp_self] at h1; simp only [Ep.search] at h1; split at h1 <;> omega
        · rw [setEp_ne _ _ hv] at h1; exact h1
      rw [setSlots_ne, h.insFresh v e h1' h2]
      intro hm
      obtain ⟨rfl, hm2⟩ := metaNat_inj h2 (he' w) hm
      omega
    · intro v e h1 h2
      have h1' : (E v).epoch < e := by
        by_cases hv : v = w
        · subst hv; rw [setEp_self] at h1; simp only [Ep.search] at h1; split at h1 <;> omega
        · rw [setEp_ne _ _ hv] at h1; exact h1
      rw [setSlots_ne, h.delFresh v e h1' h2]
      intro hm
      obtain ⟨rfl, hm2⟩ := metaNat_inj h2 (he' w) hm
      omega
    · intro v hv
      show readCache (writeCache s.server.cache (c.kwToken w) _) (c.kwToken v) = _
      by_cases hvw : v = w
      · subst hvw; rw [setEp_self, readCache_writeCache]; rfl
      · rw [setEp_ne _ _ hvw, readCache_writeCache_ne _ _ (fun hk => hvw (hkw v hv w hw hk)),
          h.cache v hv]

/-! ### Runs -/

/-- The number of the epoch and whether there were updates in it -/
def epochs (E : Str → Ep Rand) : Str → Nat × Bool :=
  fun w => ((E w).epoch, decide ((E w).ins.length > 0 ∨ (E w).rem.length > 0))

theorem setEp_apply (E : Str → Ep Rand) (w v : Str) (e : Ep Rand) : setEp E w e v = if v = w then e else E v := rfl

theorem epochs_insert (E : Str → Ep Rand) (w : Str) (x : Index × Rand) :
    epochs (setEp E w { E w with ins := (E w).ins ++ [x] }) = Spec.setEpoch (epochs E) w ((epochs E w).1, true) := by
  funext v
  simp only [epochs, Spec.setEpoch, setEp_apply]
  by_cases hv : v = w
  · simp [hv]
  · simp [hv]

theorem epochs_remove (E : Str → Ep Rand) (w : Str) (x : Index) :
    epochs (setEp E w { E w with rem := (E w).rem ++ [x] }) = Spec.setEpoch (epochs E) w ((epochs E w).1, true) := by
  funext v
  simp only [epochs, Spec.setEpoch, setEp_apply]
  by_cases hv : v = w
  · simp [hv]
  · simp [hv]

theorem epochs_search (c : Crypto PK KS CT Rand) (E : Str → Ep Rand) (w : Str) :
    epochs (setEp E w ((E w).search c w)) =
      Spec.setEpoch (epochs E) w ((epochs E w).1 + if (epochs E w).2 then 1 else 0, false) := by
  funext v
  simp only [epochs, Spec.setEpoch, setEp_apply]
  by_cases hv : v = w
  · simp only [hv, if_true, Ep.search, List.length_nil]
    by_cases h : (E w).ins.length > 0 ∨ (E w).rem.length > 0
    · simp [h]
    · simp [h]
  · simp [hv]

/-- The system behaves exactly as described epoch by epoch. -/
theorem run_epochs (c : Crypto PK KS CT Rand) (K : List Str) (n : Nat) (BI BD : Str → Nat) (hn : n + 1 < 2 ^ 32)
    (hBI : ∀ mk, BI mk ≤ n) (hBD : ∀ mk, BD mk ≤ n)
    (hni : Diana.NoCollision c.ins BI) (hnd : Diana.NoCollision c.del BD)
    (hkw : ∀ v ∈ K, ∀ w ∈ K, c.kwToken v = c.kwToken w → v = w)
    (ops : List (Op Rand)) (hK : ∀ op ∈ ops, Spec.Op.kw op ∈ K)
    (s : Sys KS CT) (E : Str → Ep Rand) (SI SD) (h : InvAt c K BI BD s E SI SD)
    (hE : ∀ w, (E w).epoch + ops.length ≤ n)
    (hI : ∀ mk, (SI mk).length + (Spec.insertMetas (epochs E) ops).count mk ≤ BI mk)
    (hD : ∀ mk, (SD mk).length + (Spec.removeMetas (epochs E) ops).count mk ≤ BD mk) :
    ∃ s' SI' SD', run c s ops = .ok (s', (epRun c E ops).2) ∧
      InvAt c K BI BD s' (epRun c E ops).1 SI' SD' ∧
      ∀ w, ((epRun c E ops).1 w).epoch ≤ n ∧
        ((epRun c E ops).1 w).ins.length ≤ BI (metaNat w ((epRun c E ops).1 w).epoch) ∧
        ((epRun c E ops).1 w).rem.length ≤ BD (metaNat w ((epRun c E ops).1 w).epoch) := by
  have hBI2 : ∀ mk, BI mk < 2 ^ 32 := fun mk => by have := hBI mk; omega
  have hBD2 : ∀ mk, BD mk < 2 ^ 32 := fun mk => by have := hBD mk; omega
  induction ops generalizing s E SI SD with
  | nil =>
    refine ⟨s, SI, SD, rfl, h, fun w => ⟨by have := hE w; simp at this; exact this, ?_, ?_⟩⟩
    · have h1 := hI (metaNat w (E w).epoch)
      rw [h.insSlots w] at h1
      simp [Spec.insertMetas] at h1
      exact h1
    · have h1 := hD (metaNat w (E w).epoch)
      rw [h.delSlots w] at h1
      simp [Spec.removeMetas] at h1
      exact h1
  | cons op ops ih =>
    have hK' : ∀ op ∈ ops, Spec.Op.kw op ∈ K := fun o ho => hK o (by simp [ho])
    have he : ∀ v, (E v).epoch < 2 ^ 32 := fun v => by have := hE v; omega
    have hlen : (op :: ops).length = ops.length + 1 := rfl
    rw [hlen] at hE
    cases op with
    | insert w i r =>
      have hw : w ∈ K := hK (.insert w i r) (by simp)
      have hlI : (SI (metaNat w (E w).epoch)).length = (E w).ins.length := by rw [h.insSlots w]; simp
      simp only [Spec.insertMetas, Spec.removeMetas] at hI hD
      have h1 := hI (metaNat w (E w).epoch)
      rw [show hexFixed 8 (epochs E w).1 ++ w = metaNat w (E w).epoch from rfl] at hI h1
      rw [List.count_cons_self, hlI] at h1
      have h' := inv_insert c hni h hBI2 he w i r (by omega)
      obtain ⟨s', SI'', SD'', hr, hi, hb⟩ := ih hK' _ _ _ _ h' (by
        intro v
        have := hE v
        by_cases hv : v = w
        · subst hv; rw [setEp_self]; simp; omega
        · rw [setEp_ne _ _ hv]; omega) (by
        intro mk
        have := hI mk
        rw [epochs_insert]
        by_cases hm : mk = metaNat w (E w).epoch
        · subst hm; rw [setSlots_self]; rw [List.count_cons_self] at this; simp; omega
        · rw [setSlots_ne _ _ hm]; rw [List.count_cons_of_ne (Ne.symm hm)] at this; exact this) (by
        intro mk
        rw [epochs_insert]
        exact hD mk)
      refine ⟨s', SI'', SD'', ?_, hi, hb⟩
      simp only [run, step, hr, epRun, Option.toList_none, List.nil_append]
    | remove w i =>
      have hw : w ∈ K := hK (.remove w i) (by simp)
      have hlD : (SD (metaNat w (E w).epoch)).length = (E w).rem.length := by rw [h.delSlots w]; simp
      simp only [Spec.insertMetas, Spec.removeMetas] at hI hD
      have h1 := hD (metaNat w (E w).epoch)
      rw [show hexFixed 8 (epochs E w).1 ++ w = metaNat w (E w).epoch from rfl] at hD h1
      rw [List.count_cons_self, hlD] at h1
      have h' := inv_remove c hnd h hBD2 he w i (by omega)
      obtain ⟨s', SI'', SD'', hr, hi, hb⟩ := ih hK' _ _ _ _ h' (by
        intro v
        have := hE v
        by_cases hv : v = w
        · subst hv; rw [setEp_self]; simp; omega
        · rw [setEp_ne _ _ hv]; omega) (by
        intro mk
        rw [epochs_remove]
        exact hI mk) (by
        intro mk
        have := hD mk
        rw [epochs_remove]
        by_cases hm : mk = metaNat w (E w).epoch
        · subst hm; rw [setSlots_self]; rw [List.count_cons_self] at this; simp; omega
        · rw [setSlots_ne _ _ hm]; rw [List.count_cons_of_ne (Ne.symm hm)] at this; exact this)
      refine ⟨s', SI'', SD'', ?_, hi, hb⟩
      simp only [run, step, hr, epRun, Option.toList_none, List.nil_append]
    | search w =>
      have hw : w ∈ K := hK (.search w) (by simp)
      have hlI : (SI (metaNat w (E w).epoch)).length = (E w).ins.length := by rw [h.insSlots w]; simp
      have hlD : (SD (metaNat w (E w).epoch)).length = (E w).rem.length := by rw [h.delSlots w]; simp
      simp only [Spec.insertMetas, Spec.removeMetas] at hI hD
      obtain ⟨-, -, srv, hs, h'⟩ := inv_search c hni hnd hkw h hBI2 hBD2
        (by intro v; have := hE v; omega) w hw (by have := hI (metaNat w (E w).epoch); omega)
        (by have := hD (metaNat w (E w).epoch); omega)
      obtain ⟨s', SI'', SD'', hr, hi, hb⟩ := ih hK' _ _ _ _ h' (by
        intro v
        have := hE v
        by_cases hv : v = w
        · subst hv; rw [setEp_self]; simp only [Ep.search]; split <;> omega
        · rw [setEp_ne _ _ hv]; omega) (by
        intro mk
        have := hI mk
        rw [epochs_search]
        by_cases hm : mk = metaNat w (E w).epoch
        · subst hm; rw [setSlots_self]; simp only [List.length_nil]; omega
        · rw [setSlots_ne _ _ hm]; exact this) (by
        intro mk
        have := hD mk
        rw [epochs_search]
        by_cases hm : mk = metaNat w (E w).epoch
        · subst hm; rw [setSlots_self]; simp only [List.length_nil]; omega
        · rw [setSlots_ne _ _ hm]; exact this)
      refine ⟨s', SI'', SD'', ?_, hi, hb⟩
      simp only [run, step, hs, hr, epRun, Option.toList_some, List.singleton_append]

end Verif.Janus
