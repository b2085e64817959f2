import Verif.Janus.CrashSpec
import Verif.Janus.Refine

/-! # Lemmas on Janus with interruptions -/

set_option linter.unusedSectionVars false

namespace Verif.Janus.Crash

open Verif

variable {PK KS CT Rand V : Type}

/-! ## One Diana instance, seen at the current and later epochs only -/

/-- The counters and the database at the current epochs hold the slots `S`; nothing is stored at later
epochs.  Nothing is said about past epochs. -/
structure Live (c : Diana.Crypto Str V) (K : List Str) (n : Nat) (m : Map Str UInt32)
    (edb : Diana.Edb V) (ep : Str → Nat) (S : Str → List (Option V)) : Prop where
  counter : ∀ w ∈ K, m (metaNat w (ep w)) = Counter.counterOf (S w).length
  counterFresh : ∀ w ∈ K, ∀ e, ep w < e → e ≤ n → m (metaNat w e) = none
  entries : ∀ w ∈ K, ∀ a, a < n → edb (Diana.updateToken c (metaNat w (ep w)) a) =
    ((S w)[a]?).join.map (fun v => c.xor v (c.mask (c.eval (c.root (c.hash (metaNat w (ep w)))) a)))
  entriesFresh : ∀ w ∈ K, ∀ e, ep w < e → e ≤ n → ∀ a, a < n →
    edb (Diana.updateToken c (metaNat w e) a) = none

theorem live_init (c : Diana.Crypto Str V) (K : List Str) (n : Nat) :
    Live c K n Map.empty Map.empty (fun _ => 0) (fun _ => []) := by
  constructor <;> intros <;> simp [Counter.counterOf]

/-- Tokens of different live positions differ. -/
theorem token_ne (c : Diana.Crypto Str V) {K : List Str} {n : Nat}
    (hnc : Diana.NoCollision c (bound K n)) {v w : Str} {e f a b : Nat} (hv : v ∈ K) (hw : w ∈ K)
    (he : e ≤ n) (hf : f ≤ n) (hn : n < 2 ^ 32) (ha : a < n) (hb : b < n)
    (h : Diana.updateToken c (metaNat v e) a = Diana.updateToken c (metaNat w f) b) :
    v = w ∧ e = f ∧ a = b := by
  have h1 := hnc (metaNat v e) a (metaNat w f) b (by rw [bound_meta K n v e hv he]; exact ha)
    (by rw [bound_meta K n w f hw hf]; exact hb) h
  have h2 := metaNat_inj (by omega) (by omega) h1.1
  exact ⟨h2.1, h2.2, h1.2⟩

/-- An insertion request at the current epoch, delivered or not. -/
theorem live_update (c : Diana.Crypto Str V) {K : List Str} {n : Nat} (hn : n < 2 ^ 32)
    (hnc : Diana.NoCollision c (bound K n)) {m : Map Str UInt32} {edb : Diana.Edb V}
    {ep : Str → Nat} {S : Str → List (Option V)} (h : Live c K n m edb ep S)
    (hep : ∀ v ∈ K, ep v ≤ n) {w : Str} (hw : w ∈ K) (hlen : (S w).length < n) (i : V) (d : Bool) :
    Live c K n (Diana.insertionRequest c m (metaNat w (ep w)) i).2
      (if d then Diana.serverInsert edb (Diana.insertionRequest c m (metaNat w (ep w)) i).1 else edb)
      ep (Diana.setSlots S w (S w ++ [if d then some i else none])) := by
  have hg := Counter.getAndIncrement_spec m (metaNat w (ep w)) _ (h.counter w hw)
  have hlen' : (UInt32.ofNat (S w).length).toNat = (S w).length := by
    simp [UInt32.toNat_ofNat']; omega
  have hm : (Diana.insertionRequest c m (metaNat w (ep w)) i).2 =
      m.put (metaNat w (ep w)) (UInt32.ofNat (S w).length) := by
    simp only [Diana.insertionRequest, hg]
  have hreq : (Diana.insertionRequest c m (metaNat w (ep w)) i).1 =
      ⟨Diana.updateToken c (metaNat w (ep w)) (S w).length,
        c.xor i (c.mask (c.eval (c.root (c.hash (metaNat w (ep w)))) (S w).length))⟩ := by
    simp only [Diana.insertionRequest, hg, Diana.requestFor, hlen', Diana.updateToken]
  rw [hm, hreq]
  refine ⟨?_, ?_, ?_, ?_⟩
  · intro v hv
    by_cases hvw : v = w
    · subst hvw
      rw [Map.put_self, setSlots_self]
      simp [Counter.counterOf]
    · rw [Map.put_of_ne, setSlots_ne _ _ hvw, h.counter v hv]
      intro e
      exact hvw (metaNat_inj (by have := hep v hv; omega) (by have := hep w hw; omega) e).1
  · intro v hv e h1 h2
    rw [Map.put_of_ne, h.counterFresh v hv e h1 h2]
    intro he
    obtain ⟨rfl, h3⟩ := metaNat_inj (by omega) (by have := hep w hw; omega) he
    omega
  · intro v hv a ha
    by_cases hvw : v = w
    · subst hvw
      rw [setSlots_self]
      by_cases hal : a = (S v).length
      · subst hal
        rw [List.getElem?_append_right (Nat.le_refl _), Nat.sub_self]
        cases d with
        | true => simp [Diana.serverInsert]
        | false => simp [h.entries v hv _ ha]
      · have h2 : (S v ++ [if d then some i else none])[a]?.join = ((S v)[a]?).join := by
          by_cases hlt : a < (S v).length
          · rw [List.getElem?_append_left hlt]
          · rw [List.getElem?_eq_none (by simp; omega), List.getElem?_eq_none (by omega)]
        rw [h2, ← h.entries v hv a ha]
        cases d with
        | true =>
          simp only [if_true, Diana.serverInsert]
          refine Map.put_of_ne _ _ ?_
          intro he
          exact hal (token_ne c hnc hv hv (hep v hv) (hep v hv) hn ha hlen he).2.2
        | false => simp
    · rw [setSlots_ne _ _ hvw, ← h.entries v hv a ha]
      cases d with
      | true =>
        simp only [if_true, Diana.serverInsert]
        refine Map.put_of_ne _ _ ?_
        intro he
        exact hvw (token_ne c hnc hv hw (hep v hv) (hep w hw) hn ha hlen he).1
      | false => simp
  · intro v hv e h1 h2 a ha
    have h3 := h.entriesFresh v hv e h1 h2 a ha
    cases d with
    | true =>
      simp only [if_true, Diana.serverInsert]
      rw [Map.put_of_ne, h3]
      intro he
      obtain ⟨rfl, h4, -⟩ := token_ne c hnc hv hw h2 (hep w hw) hn ha hlen he
      omega
    | false => simpa using h3

/-- The keyword passes to the next epoch: whatever happens to the counter and the entries of the past
epoch does not matter. -/
theorem live_advance (c : Diana.Crypto Str V) {K : List Str} {n : Nat} (hn : n < 2 ^ 32)
    (hnc : Diana.NoCollision c (bound K n)) {m m' : Map Str UInt32} {edb edb' : Diana.Edb V}
    {ep : Str → Nat} {S : Str → List (Option V)} (h : Live c K n m edb ep S)
    (hep : ∀ v ∈ K, ep v ≤ n) {w : Str} (hw : w ∈ K) (hwn : ep w + 1 ≤ n)
    (hm : ∀ k, k ≠ metaNat w (ep w) → m' k = m k)
    (he : ∀ t, (∀ a, a < n → t ≠ Diana.updateToken c (metaNat w (ep w)) a) → edb' t = edb t) :
    Live c K n m' edb' (fun v => if v = w then ep w + 1 else ep v) (Diana.setSlots S w []) := by
  refine ⟨?_, ?_, ?_, ?_⟩
  · intro v hv
    by_cases hvw : v = w
    · subst hvw
      simp only [if_true, setSlots_self]
      rw [hm, h.counterFresh v hv _ (by omega) hwn]
      · rfl
      · intro e; have := (metaNat_inj (by omega) (by omega) e).2; omega
    · simp only [hvw, if_false]
      rw [hm, setSlots_ne _ _ hvw, h.counter v hv]
      intro e
      exact hvw (metaNat_inj (by have := hep v hv; omega) (by omega) e).1
  · intro v hv e h1 h2
    have h1' : ep v < e := by
      by_cases hvw : v = w
      · subst hvw; simp only [if_true] at h1; omega
      · simp only [hvw, if_false] at h1; exact h1
    rw [hm, h.counterFresh v hv e h1' h2]
    intro he
    obtain ⟨rfl, h3⟩ := metaNat_inj (by omega) (by omega) he
    omega
  · intro v hv a ha
    by_cases hvw : v = w
    · subst hvw
      simp only [if_true, setSlots_self]
      rw [he, h.entriesFresh v hv _ (by omega) hwn a ha]
      · simp
      · intro b hb e
        have := (token_ne c hnc hv hv hwn (hep v hv) hn ha hb e).2.1
        omega
    · simp only [hvw, if_false]
      rw [he, setSlots_ne _ _ hvw, h.entries v hv a ha]
      intro b hb e
      exact hvw (token_ne c hnc hv hw (hep v hv) (hep w hw) hn ha hb e).1
  · intro v hv e h1 h2 a ha
    have h1' : ep v < e := by
      by_cases hvw : v = w
      · subst hvw; simp only [if_true] at h1; omega
      · simp only [hvw, if_false] at h1; exact h1
    rw [he, h.entriesFresh v hv e h1' h2 a ha]
    intro b hb e'
    obtain ⟨rfl, h4, -⟩ := token_ne c hnc hv hw h2 (hep w hw) hn ha hb e'
    omega

/-- The search of the current epoch of a keyword. -/
theorem live_results (c : Diana.Crypto Str V) {K : List Str} {n : Nat}
    {m : Map Str UInt32} {edb : Diana.Edb V} {ep : Str → Nat} {S : Str → List (Option V)}
    (h : Live c K n m edb ep S) {w : Str} (hw : w ∈ K) (hlen : (S w).length ≤ n) :
    (Diana.leavesOf c (metaNat w (ep w)) (S w).length).filterMap
      (fun e => Diana.lookup c edb e.2) = (S w).filterMap id := by
  rw [Diana.leavesOf, List.filterMap_map, ← Diana.filterMap_slots]
  apply List.filterMap_congr
  intro a ha
  rw [List.mem_range] at ha
  have := h.entries w hw a (by omega)
  simp only [Function.comp_apply, Diana.lookup]
  rw [show c.token (c.eval (c.root (c.hash (metaNat w (ep w)))) a) =
    Diana.updateToken c (metaNat w (ep w)) a from rfl, this]
  cases ((S w)[a]?).join with
  | none => rfl
  | some v => simp [c.xor_xor]

theorem nodup_leaves (c : Diana.Crypto Str V) {K : List Str} {n : Nat}
    (hnc : Diana.NoCollision c (bound K n)) {w : Str} (hw : w ∈ K) {e k : Nat} (he : e ≤ n)
    (hk : k ≤ n) :
    ((Diana.leavesOf c (metaNat w e) k).map (fun e => c.token e.2)).Nodup :=
  Diana.nodup_tokens c _ hnc _ _ (by rw [bound_meta K n w e hw he]; exact hk)

/-- A token of one of the leaves of the epoch. -/
theorem mem_leaves (c : Diana.Crypto Str V) {mk : Str} {k n : Nat} (hk : k ≤ n) {t : Diana.Token}
    (ht : ∀ a, a < n → t ≠ Diana.updateToken c mk a) :
    t ∉ (Diana.leavesOf c mk k).map (fun e => c.token e.2) := by
  rw [Diana.tokens_leavesOf]
  intro h
  obtain ⟨a, ha, rfl⟩ := List.mem_map.1 h
  exact ht a (by have := List.mem_range.1 ha; omega) rfl

/-- Some deletions among the leaves. -/
theorem deleteSome_other (c : Diana.Crypto Str V) (k : Nat) (edb : Diana.Edb V)
    (ls : List (Nat × Diana.Leaf)) {t : Diana.Token}
    (ht : t ∉ ls.map (fun e => c.token e.2)) : (deleteSome c k edb ls).2 t = edb t := by
  induction ls generalizing k edb with
  | nil => simp [deleteSome]
  | cons l ls ih =>
    obtain ⟨i, leaf⟩ := l
    simp only [List.map_cons, List.mem_cons, not_or] at ht
    cases k with
    | zero => rfl
    | succ k =>
      simp only [deleteSome]
      cases edb (c.token leaf) with
      | none => exact ih _ _ ht.2
      | some v => rw [ih _ _ ht.2]; exact Map.erase_of_ne _ ht.1

/-- With enough deletions allowed, the database is that of a search that ends. -/
theorem deleteSome_all (c : Diana.Crypto Str V) (k : Nat) (edb : Diana.Edb V)
    (ls : List (Nat × Diana.Leaf)) (hk : ls.length ≤ k) :
    (deleteSome c k edb ls).2 = (Diana.searchLoop c true edb ls).2 := by
  induction ls generalizing k edb with
  | nil => simp [deleteSome, Diana.searchLoop]
  | cons l ls ih =>
    obtain ⟨i, leaf⟩ := l
    simp only [List.length_cons] at hk
    cases k with
    | zero => omega
    | succ k =>
      simp only [deleteSome, Diana.searchLoop, Diana.getUnmask, Diana.retrieveEntry]
      cases edb (c.token leaf) with
      | none => exact ih _ _ (by omega)
      | some v => exact ih _ _ (by omega)

theorem leaves_request (c : Diana.Crypto Str V) (m : Map Str UInt32) (mk : Str) (k : Nat)
    (hm : m mk = Counter.counterOf k) (hk : k < 2 ^ 32) :
    leaves c (Diana.searchRequest c m mk) = some (Diana.leavesOf c mk k) := by
  unfold leaves
  by_cases h0 : k = 0
  · subst h0
    have : Diana.searchRequest c m mk = ⟨Vector.replicate 32 0, c.emptyCK, 0⟩ := by
      simp [Diana.searchRequest, Counter.get, hm, Counter.counterOf]
    rw [this]
    rfl
  · have ha := addCount_slots c m mk k hm hk
    have hr : (Diana.searchRequest c m mk).rcprf = c.constrain (c.root (c.hash mk)) 0 (k - 1) := by
      simp only [Diana.searchRequest, Counter.get, hm, Counter.counterOf, h0, if_false]
      congr 1
      simp [UInt32.toNat_ofNat']; omega
    have hne : (Diana.searchRequest c m mk).addCount ≠ 0 := by
      rw [ha]
      intro e
      have := congrArg UInt32.toNat e
      simp [UInt32.toNat_ofNat'] at this
      omega
    rw [if_neg hne, hr, c.maxLeaf_constrain _ _ (by omega),
      Diana.evalRange_eq c _ _ _ _ (by omega) (by omega) (Nat.le_refl _)]
    simp only [Diana.leavesOf, List.range_eq_range']
    congr 3
    omega

theorem Live.congr {c : Diana.Crypto Str V} {K : List Str} {n : Nat} {m : Map Str UInt32}
    {edb : Diana.Edb V} {ep ep' : Str → Nat} {S S' : Str → List (Option V)}
    (h : Live c K n m edb ep S) (hep : ∀ w ∈ K, ep' w = ep w) (hS : ∀ w ∈ K, S' w = S w) :
    Live c K n m edb ep' S' := by
  refine ⟨?_, ?_, ?_, ?_⟩
  · intro w hw; rw [hep w hw, hS w hw]; exact h.counter w hw
  · intro w hw; rw [hep w hw]; exact h.counterFresh w hw
  · intro w hw; rw [hep w hw, hS w hw]; exact h.entries w hw
  · intro w hw; rw [hep w hw]; exact h.entriesFresh w hw

/-- A deleting search of the current epoch, and the same search again. -/
theorem live_search (c : Diana.Crypto Str V) {K : List Str} {n : Nat} (hn : n < 2 ^ 32)
    (hnc : Diana.NoCollision c (bound K n)) {m : Map Str UInt32} {edb : Diana.Edb V}
    {ep : Str → Nat} {S : Str → List (Option V)} (h : Live c K n m edb ep S) {w : Str}
    (hw : w ∈ K) (hep : ep w ≤ n) (hlen : (S w).length ≤ n) :
    ∃ edb', Diana.search c edb (Diana.searchRequest c m (metaNat w (ep w))) true =
        some ((S w).filterMap id, edb') ∧
      Diana.search c edb' (Diana.searchRequest c m (metaNat w (ep w))) true = some ([], edb') ∧
      ∀ t, (∀ a, a < (S w).length → t ≠ Diana.updateToken c (metaNat w (ep w)) a) →
        edb' t = edb t := by
  have hnd := nodup_leaves c hnc hw hep hlen
  have h1 := Diana.searchLoop_delete c edb _ hnd
  have hreq := fun edb => Diana.search_request c edb m (metaNat w (ep w)) _ (h.counter w hw)
    (by omega) true
  refine ⟨(Diana.searchLoop c true edb (Diana.leavesOf c (metaNat w (ep w)) (S w).length)).2,
    ?_, ?_, ?_⟩
  · rw [hreq, ← live_results c h hw hlen, ← h1.1]
  · have h2 := Diana.searchLoop_delete c
      (Diana.searchLoop c true edb (Diana.leavesOf c (metaNat w (ep w)) (S w).length)).2 _ hnd
    rw [hreq]
    congr 1
    refine Prod.ext ?_ ?_
    · rw [h2.1]
      refine List.filterMap_eq_nil_iff.2 ?_
      intro e he
      unfold Diana.lookup
      rw [h1.2, if_pos (List.mem_map.2 ⟨e, he, rfl⟩)]
      rfl
    · funext t
      rw [h2.2, h1.2]
      by_cases ht : t ∈ (Diana.leavesOf c (metaNat w (ep w)) (S w).length).map
        (fun e => c.token e.2)
      · rw [if_pos ht, if_pos ht]
      · rw [if_neg ht]
  · intro t ht
    rw [h1.2, if_neg (mem_leaves c (Nat.le_refl _) ht)]

/-! ## The keywords -/

/-- What the system knows about a keyword: number of the epoch, insertions and removals of the epoch
(`none`: not delivered), cached results. -/
structure CEp (Rand : Type) where
  epoch : Nat
  ins : List (Option (Index × Rand))
  rem : List (Option Index)
  cache : List (Index × Tag)

def CEp.init : CEp Rand := ⟨0, [], [], []⟩

def ctSlots (c : Crypto PK KS CT Rand) (w : Str) (e : Nat) (ins : List (Option (Index × Rand))) :
    List (Option CT) :=
  ins.map (Option.map (fun d => c.encrypt (c.derive (metaNat w e)) d.2 d.1 (docTag c w d.1)))

def shareSlots (c : Crypto PK KS CT Rand) (w : Str) (e : Nat) (rem : List (Option Index)) :
    List (Option KS) :=
  rem.zipIdx.map (fun d => d.1.map (fun i =>
    c.incPuncture (c.derive (metaNat w e)) (UInt32.ofNat (punctureNumber d.2)) (docTag c w i)))

def CEp.active (E : CEp Rand) : Prop := 0 < E.ins.length ∨ 0 < E.rem.length

instance (E : CEp Rand) : Decidable E.active := inferInstanceAs (Decidable (_ ∨ _))

/-- The cache after a search. -/
def CEp.newCache (c : Crypto PK KS CT Rand) (w : Str) (E : CEp Rand) : List (Index × Tag) :=
  filterCache ((E.rem.filterMap id).map (docTag c w)) E.cache ++
    decryptAll c (c.initialKeyshare (c.derive (metaNat w E.epoch)) (UInt32.ofNat E.rem.length) ::
      (shareSlots c w E.epoch E.rem).filterMap id) ((ctSlots c w E.epoch E.ins).filterMap id)

/-- The keyword after a search has started and left `cache`. -/
def CEp.next (E : CEp Rand) (cache : List (Index × Tag)) : CEp Rand :=
  ⟨if E.active then E.epoch + 1 else E.epoch, [], [], cache⟩

def setC (E : Str → CEp Rand) (w : Str) (e : CEp Rand) : Str → CEp Rand :=
  fun v => if v = w then e else E v

@[simp] theorem setC_self (E : Str → CEp Rand) (w : Str) (e : CEp Rand) : setC E w e w = e := if_pos rfl

theorem setC_ne (E : Str → CEp Rand) {w v : Str} (e : CEp Rand) (h : v ≠ w) : setC E w e v = E v :=
  if_neg h

@[simp] theorem ctSlots_length (c : Crypto PK KS CT Rand) (w : Str) (e : Nat)
    (l : List (Option (Index × Rand))) : (ctSlots c w e l).length = l.length := by simp [ctSlots]

@[simp] theorem shareSlots_length (c : Crypto PK KS CT Rand) (w : Str) (e : Nat)
    (l : List (Option Index)) : (shareSlots c w e l).length = l.length := by simp [shareSlots]

theorem shareSlots_tags (c : Crypto PK KS CT Rand) (w : Str) (e : Nat) (l : List (Option Index)) :
    ((shareSlots c w e l).filterMap id).map c.ksTag = (l.filterMap id).map (docTag c w) := by
  unfold shareSlots
  suffices h : ∀ k, (((l.zipIdx k).map (fun d => d.1.map (fun i =>
      c.incPuncture (c.derive (metaNat w e)) (UInt32.ofNat (punctureNumber d.2))
        (docTag c w i)))).filterMap id).map c.ksTag = (l.filterMap id).map (docTag c w) from h 0
  induction l with
  | nil => intro k; rfl
  | cons o l ih =>
    intro k
    cases o with
    | none => simpa using ih (k + 1)
    | some i => simpa [c.ksTag_incPuncture] using ih (k + 1)

/-- Relation between the system and the epochs of the keywords. -/
structure CInv (c : Crypto PK KS CT Rand) (K : List Str) (n : Nat) (s : Sys KS CT)
    (E : Str → CEp Rand) : Prop where
  searchCtr : ∀ w ∈ K, s.client.searchCtr w =
    if (E w).epoch = 0 then none else some (UInt32.ofNat (E w).epoch)
  ins : Live c.ins K n s.client.insCtr s.server.insEdb (fun w => (E w).epoch)
    (fun w => ctSlots c w (E w).epoch (E w).ins)
  del : Live c.del K n s.client.delCtr s.server.delEdb (fun w => (E w).epoch)
    (fun w => shareSlots c w (E w).epoch (E w).rem)
  cache : ∀ w ∈ K, readCache s.server.cache (c.kwToken w) = .ok (E w).cache

theorem cinv_init (c : Crypto PK KS CT Rand) (K : List Str) (n : Nat) :
    CInv c K n Sys.init (fun _ => (CEp.init : CEp Rand)) := by
  refine ⟨fun w _ => rfl, ?_, ?_, fun w _ => rfl⟩
  · exact live_init c.ins K n
  · exact live_init c.del K n

theorem cinv_meta (c : Crypto PK KS CT Rand) {K n} {s : Sys KS CT} {E : Str → CEp Rand}
    (h : CInv c K n s E) {w : Str} (hw : w ∈ K) (he : (E w).epoch < 2 ^ 32) :
    searchCounter s.client w = UInt32.ofNat (E w).epoch ∧
      metaKeyword w (searchCounter s.client w) = metaNat w (E w).epoch := by
  have h1 : searchCounter s.client w = UInt32.ofNat (E w).epoch := by
    unfold searchCounter Counter.get
    rw [h.searchCtr w hw]
    by_cases h0 : (E w).epoch = 0
    · simp [h0]
    · simp [h0]
  refine ⟨h1, ?_⟩
  rw [h1, metaKeyword, metaNat]
  congr 2
  simp [UInt32.toNat_ofNat']; omega

/-! ## Steps -/

theorem cinv_insert (c : Crypto PK KS CT Rand) {K n} {s : Sys KS CT} {E : Str → CEp Rand}
    (hn : n < 2 ^ 32) (hni : Diana.NoCollision c.ins (bound K n)) (h : CInv c K n s E)
    (hep : ∀ v ∈ K, (E v).epoch ≤ n) {w : Str} (hw : w ∈ K) (hlen : (E w).ins.length < n)
    (i : Index) (r : Rand) (d : Bool) :
    CInv c K n
      { client := (insertionRequest c s.client w i r).2,
        server := if d then insert s.server (insertionRequest c s.client w i r).1 else s.server }
      (setC E w { E w with ins := (E w).ins ++ [if d then some (i, r) else none] }) := by
  have hmk := (cinv_meta c h hw (by have := hep w hw; omega)).2
  have hl := live_update c.ins hn hni h.ins hep hw (by simpa using hlen)
    (c.encrypt (c.derive (metaNat w (E w).epoch)) r i (docTag c w i)) d
  have hE : ∀ v, (setC E w { E w with ins := (E w).ins ++ [if d then some (i, r) else none] } v).epoch
      = (E v).epoch ∧
      (setC E w { E w with ins := (E w).ins ++ [if d then some (i, r) else none] } v).rem = (E v).rem ∧
      (setC E w { E w with ins := (E w).ins ++ [if d then some (i, r) else none] } v).cache =
        (E v).cache := by
    intro v
    by_cases hv : v = w
    · subst hv; simp
    · rw [setC_ne _ _ hv]; simp
  refine ⟨?_, ?_, ?_, ?_⟩
  · intro v hv
    rw [(hE v).1]
    exact h.searchCtr v hv
  · have h1 : (insertionRequest c s.client w i r).2.insCtr =
        (Diana.insertionRequest c.ins s.client.insCtr (metaNat w (E w).epoch)
          (c.encrypt (c.derive (metaNat w (E w).epoch)) r i (docTag c w i))).2 := by
      simp only [insertionRequest, hmk]
    have h2 : (if d then insert s.server (insertionRequest c s.client w i r).1
        else s.server).insEdb = (if d then Diana.serverInsert s.server.insEdb
          (Diana.insertionRequest c.ins s.client.insCtr (metaNat w (E w).epoch)
          (c.encrypt (c.derive (metaNat w (E w).epoch)) r i (docTag c w i))).1
          else s.server.insEdb) := by
      cases d
      · rfl
      · simp only [insertionRequest, hmk, insert, if_true]
    dsimp only
    rw [h1, h2]
    refine hl.congr (fun v _ => (hE v).1) ?_
    intro v hv
    by_cases hvw : v = w
    · subst hvw
      rw [setC_self, setSlots_self]
      cases d <;> simp [ctSlots]
    · rw [setC_ne _ _ hvw, setSlots_ne _ _ hvw]
  · have h1 : (insertionRequest c s.client w i r).2.delCtr = s.client.delCtr := rfl
    have h2 : (if d then insert s.server (insertionRequest c s.client w i r).1
        else s.server).delEdb = s.server.delEdb := by cases d <;> rfl
    dsimp only
    rw [h1, h2]
    refine h.del.congr (fun v _ => (hE v).1) ?_
    intro v hv
    rw [(hE v).1, (hE v).2.1]
  · intro v hv
    rw [(hE v).2.2, ← h.cache v hv]
    cases d <;> rfl

theorem cinv_share (c : Crypto PK KS CT Rand) {K n} {s : Sys KS CT} {E : Str → CEp Rand}
    (h : CInv c K n s E) {w : Str} (hw : w ∈ K) (he : (E w).epoch < 2 ^ 32) (i : Index) :
    removalShare c s.client w i = c.incPuncture (c.derive (metaNat w (E w).epoch))
      (UInt32.ofNat (punctureNumber (E w).rem.length)) (docTag c w i) := by
  have hmk := (cinv_meta c h hw he).2
  unfold removalShare
  simp only [hmk]
  congr 1
  have hctr := h.del.counter w hw
  simp only [shareSlots_length] at hctr
  unfold Diana.getMatchCount Counter.get
  rw [hctr]
  unfold Counter.counterOf punctureNumber
  by_cases h0 : (E w).rem.length = 0
  · simp [h0]
  · simp only [h0, if_false]
    have : (E w).rem.length - 1 + 1 = (E w).rem.length := by omega
    conv => rhs; rw [← this, UInt32.ofNat_add]
    rfl

theorem cinv_remove (c : Crypto PK KS CT Rand) {K n} {s : Sys KS CT} {E : Str → CEp Rand}
    (hn : n < 2 ^ 32) (hnd : Diana.NoCollision c.del (bound K n)) (h : CInv c K n s E)
    (hep : ∀ v ∈ K, (E v).epoch ≤ n) {w : Str} (hw : w ∈ K) (hlen : (E w).rem.length < n)
    (i : Index) (d : Bool) :
    CInv c K n
      { client := (removalRequest c s.client w i).2,
        server := if d then remove s.server (removalRequest c s.client w i).1 else s.server }
      (setC E w { E w with rem := (E w).rem ++ [if d then some i else none] }) := by
  have hew : (E w).epoch < 2 ^ 32 := by have := hep w hw; omega
  have hmk := (cinv_meta c h hw hew).2
  have hl := live_update c.del hn hnd h.del hep hw (by simpa using hlen)
    (removalShare c s.client w i) d
  have hE : ∀ v, (setC E w { E w with rem := (E w).rem ++ [if d then some i else none] } v).epoch
      = (E v).epoch ∧
      (setC E w { E w with rem := (E w).rem ++ [if d then some i else none] } v).ins = (E v).ins ∧
      (setC E w { E w with rem := (E w).rem ++ [if d then some i else none] } v).cache =
        (E v).cache := by
    intro v
    by_cases hv : v = w
    · subst hv; simp
    · rw [setC_ne _ _ hv]; simp
  refine ⟨?_, ?_, ?_, ?_⟩
  · intro v hv
    rw [(hE v).1]
    exact h.searchCtr v hv
  · have h1 : (removalRequest c s.client w i).2.insCtr = s.client.insCtr := rfl
    have h2 : (if d then remove s.server (removalRequest c s.client w i).1
        else s.server).insEdb = s.server.insEdb := by cases d <;> rfl
    dsimp only
    rw [h1, h2]
    refine h.ins.congr (fun v _ => (hE v).1) ?_
    intro v hv
    rw [(hE v).1, (hE v).2.1]
  · have h1 : (removalRequest c s.client w i).2.delCtr =
        (Diana.insertionRequest c.del s.client.delCtr (metaNat w (E w).epoch)
          (removalShare c s.client w i)).2 := by
      simp only [removalRequest, hmk]
    have h2 : (if d then remove s.server (removalRequest c s.client w i).1
        else s.server).delEdb = (if d then Diana.serverInsert s.server.delEdb
          (Diana.insertionRequest c.del s.client.delCtr (metaNat w (E w).epoch)
          (removalShare c s.client w i)).1 else s.server.delEdb) := by
      cases d
      · rfl
      · simp only [removalRequest, hmk, remove, if_true]
    dsimp only
    rw [h1, h2]
    refine hl.congr (fun v _ => (hE v).1) ?_
    intro v hv
    by_cases hvw : v = w
    · subst hvw
      rw [setC_self, setSlots_self, cinv_share c h hw hew]
      cases d <;> simp [shareSlots, List.zipIdx_append]
    · rw [setC_ne _ _ hvw, setSlots_ne _ _ hvw]
  · intro v hv
    rw [(hE v).2.2, ← h.cache v hv]
    cases d <;> rfl

/-- Whatever a search that has started at the client leaves, it is described by the next epoch. -/
theorem cinv_advance (c : Crypto PK KS CT Rand) {K n} {s s' : Sys KS CT} {E : Str → CEp Rand}
    (hn : n + 1 < 2 ^ 32) (hni : Diana.NoCollision c.ins (bound K n))
    (hnd : Diana.NoCollision c.del (bound K n))
    (hkw : ∀ v ∈ K, ∀ w ∈ K, c.kwToken v = c.kwToken w → v = w) (h : CInv c K n s E)
    (hep : ∀ v ∈ K, (E v).epoch ≤ n) {w : Str} (hw : w ∈ K) (hwn : (E w).epoch + 1 ≤ n)
    (hli : (E w).ins.length ≤ n) (hlr : (E w).rem.length ≤ n) (cache : List (Index × Tag))
    (hidle : ¬ (E w).active → s'.client = s.client)
    (hctr : (E w).active → s'.client.searchCtr =
      Counter.set s.client.searchCtr w (searchCounter s.client w + 1))
    (hic : ∀ k, k ≠ metaNat w (E w).epoch → s'.client.insCtr k = s.client.insCtr k)
    (hdc : ∀ k, k ≠ metaNat w (E w).epoch → s'.client.delCtr k = s.client.delCtr k)
    (hie : ∀ t, (∀ a, a < (E w).ins.length →
      t ≠ Diana.updateToken c.ins (metaNat w (E w).epoch) a) → s'.server.insEdb t = s.server.insEdb t)
    (hde : ∀ t, (∀ a, a < (E w).rem.length →
      t ≠ Diana.updateToken c.del (metaNat w (E w).epoch) a) → s'.server.delEdb t = s.server.delEdb t)
    (hcw : readCache s'.server.cache (c.kwToken w) = .ok cache)
    (hco : ∀ k, k ≠ c.kwToken w → readCache s'.server.cache k = readCache s.server.cache k) :
    CInv c K n s' (setC E w ((E w).next cache)) := by
  have hcache : ∀ v ∈ K, readCache s'.server.cache (c.kwToken v) =
      .ok (setC E w ((E w).next cache) v).cache := by
    intro v hv
    by_cases hvw : v = w
    · subst hvw; rw [setC_self]; exact hcw
    · rw [setC_ne _ _ hvw, ← h.cache v hv]
      exact hco _ (fun e => hvw (hkw v hv w hw e))
  by_cases hact : (E w).active
  · have hx : (E w).next cache = ⟨(E w).epoch + 1, [], [], cache⟩ := by
      simp only [CEp.next, if_pos hact]
    have hle : ∀ v, (setC E w ((E w).next cache) v).epoch =
        if v = w then (E w).epoch + 1 else (E v).epoch := by
      intro v
      by_cases hvw : v = w
      · subst hvw; rw [setC_self, hx, if_pos rfl]
      · rw [setC_ne _ _ hvw, if_neg hvw]
    refine ⟨?_, ?_, ?_, hcache⟩
    · intro v hv
      rw [hctr hact, (cinv_meta c h hw (by omega)).1]
      by_cases hvw : v = w
      · subst hvw
        rw [setC_self, hx]
        simp only [Counter.set, Map.put_self, Nat.succ_ne_zero, if_false, UInt32.ofNat_add]
        rfl
      · rw [setC_ne _ _ hvw, Counter.set, Map.put_of_ne _ _ hvw, h.searchCtr v hv]
    · refine (live_advance c.ins (by omega) hni h.ins hep hw hwn hic
        (fun t ht => hie t (fun a ha => ht a (by omega)))).congr (fun v _ => hle v) ?_
      intro v hv
      by_cases hvw : v = w
      · subst hvw; rw [setC_self, setSlots_self, hx]; rfl
      · rw [setC_ne _ _ hvw, setSlots_ne _ _ hvw]
    · refine (live_advance c.del (by omega) hnd h.del hep hw hwn hdc
        (fun t ht => hde t (fun a ha => ht a (by omega)))).congr (fun v _ => hle v) ?_
      intro v hv
      by_cases hvw : v = w
      · subst hvw; rw [setC_self, setSlots_self, hx]; rfl
      · rw [setC_ne _ _ hvw, setSlots_ne _ _ hvw]
  · have hi0 : (E w).ins = [] := by
      cases hh : (E w).ins with
      | nil => rfl
      | cons a l => exact absurd (Or.inl (by simp [hh])) hact
    have hr0 : (E w).rem = [] := by
      cases hh : (E w).rem with
      | nil => rfl
      | cons a l => exact absurd (Or.inr (by simp [hh])) hact
    have hx : (E w).next cache = ⟨(E w).epoch, [], [], cache⟩ := by
      simp only [CEp.next, if_neg hact]
    have hle : ∀ v, (setC E w ((E w).next cache) v).epoch = (E v).epoch ∧
        (setC E w ((E w).next cache) v).ins = (E v).ins ∧
        (setC E w ((E w).next cache) v).rem = (E v).rem := by
      intro v
      by_cases hvw : v = w
      · subst hvw; rw [setC_self, hx]; exact ⟨rfl, hi0.symm, hr0.symm⟩
      · rw [setC_ne _ _ hvw]; exact ⟨rfl, rfl, rfl⟩
    have e1 : s'.server.insEdb = s.server.insEdb := by
      funext t; exact hie t (fun a ha => by rw [hi0] at ha; simp at ha)
    have e2 : s'.server.delEdb = s.server.delEdb := by
      funext t; exact hde t (fun a ha => by rw [hr0] at ha; simp at ha)
    refine ⟨?_, ?_, ?_, hcache⟩
    · intro v hv
      rw [hidle hact, (hle v).1, h.searchCtr v hv]
    · rw [hidle hact, e1]
      refine h.ins.congr (fun v _ => (hle v).1) (fun v _ => ?_)
      rw [(hle v).1, (hle v).2.1]
    · rw [hidle hact, e2]
      refine h.del.congr (fun v _ => (hle v).1) (fun v _ => ?_)
      rw [(hle v).1, (hle v).2.2]

/-- The two counts of a search request. -/
theorem cinv_counts (c : Crypto PK KS CT Rand) {K n} {s : Sys KS CT} {E : Str → CEp Rand}
    (hn : n < 2 ^ 32) (h : CInv c K n s E) {w : Str} (hw : w ∈ K)
    (hli : (E w).ins.length ≤ n) (hlr : (E w).rem.length ≤ n) :
    (((Diana.searchRequest c.ins s.client.insCtr (metaNat w (E w).epoch)).addCount > 0) ↔
      0 < (E w).ins.length) ∧
    (((Diana.searchRequest c.del s.client.delCtr (metaNat w (E w).epoch)).addCount > 0) ↔
      0 < (E w).rem.length) ∧
    (Diana.searchRequest c.del s.client.delCtr (metaNat w (E w).epoch)).addCount =
      UInt32.ofNat (E w).rem.length := by
  have h1 := h.ins.counter w hw
  have h2 := h.del.counter w hw
  simp only [ctSlots_length] at h1
  simp only [shareSlots_length] at h2
  refine ⟨?_, ?_, ?_⟩
  · rw [addCount_slots c.ins _ _ _ h1 (by omega), ofNat_pos (by omega)]
  · rw [addCount_slots c.del _ _ _ h2 (by omega), ofNat_pos (by omega)]
  · rw [addCount_slots c.del _ _ _ h2 (by omega)]

/-- The client after a search request, or after the first of its writes. -/
theorem client_stopped (c : Crypto PK KS CT Rand) {K n} {s : Sys KS CT} {E : Str → CEp Rand}
    (hn : n < 2 ^ 32) (h : CInv c K n s E) {w : Str} (hw : w ∈ K) (he : (E w).epoch < 2 ^ 32)
    (hli : (E w).ins.length ≤ n) (hlr : (E w).rem.length ≤ n) (k : Nat) :
    (¬ (E w).active → clientStopped c s.client w (k + 1) = s.client) ∧
    ((E w).active → (clientStopped c s.client w (k + 1)).searchCtr =
      Counter.set s.client.searchCtr w (searchCounter s.client w + 1)) ∧
    (∀ x, x ≠ metaNat w (E w).epoch →
      (clientStopped c s.client w (k + 1)).insCtr x = s.client.insCtr x) ∧
    (∀ x, x ≠ metaNat w (E w).epoch →
      (clientStopped c s.client w (k + 1)).delCtr x = s.client.delCtr x) := by
  obtain ⟨c1, c2, -⟩ := cinv_counts c hn h hw hli hlr
  have hmk := (cinv_meta c h hw he).2
  unfold clientStopped clientWrites
  simp only [hmk, c1, c2, Bool.or_eq_true, decide_eq_true_eq]
  by_cases hi : 0 < (E w).ins.length <;> by_cases hr : 0 < (E w).rem.length <;>
    rcases k with _ | _ | k <;>
    simp +contextual [hi, hr, CEp.active, Diana.removeKeyword, Counter.removeKey, Map.erase_apply]

/-- A complete search request makes all the writes. -/
theorem clientStopped_all (c : Crypto PK KS CT Rand) (cl : Client) (w : Str) (k : Nat) :
    clientStopped c cl w (k + 3) = (searchRequest c cl w).2 := by
  unfold clientStopped clientWrites searchRequest
  dsimp only
  split <;> split <;> split <;> simp_all

/-- A completed search, and the same request processed again. -/
theorem cinv_search (c : Crypto PK KS CT Rand) {K n} {s : Sys KS CT} {E : Str → CEp Rand}
    (hn : n + 1 < 2 ^ 32) (hni : Diana.NoCollision c.ins (bound K n))
    (hnd : Diana.NoCollision c.del (bound K n))
    (hkw : ∀ v ∈ K, ∀ w ∈ K, c.kwToken v = c.kwToken w → v = w) (h : CInv c K n s E)
    (hep : ∀ v ∈ K, (E v).epoch ≤ n) {w : Str} (hw : w ∈ K) (hwn : (E w).epoch + 1 ≤ n)
    (hli : (E w).ins.length ≤ n) (hlr : (E w).rem.length ≤ n) :
    ∃ srv srv', search c s.server (searchRequest c s.client w).1 =
        .ok (((E w).newCache c w).map (·.1), srv) ∧
      search c srv (searchRequest c s.client w).1 = .ok (((E w).newCache c w).map (·.1), srv') ∧
      CInv c K n ⟨(searchRequest c s.client w).2, srv⟩ (setC E w ((E w).next ((E w).newCache c w))) ∧
      CInv c K n ⟨(searchRequest c s.client w).2, srv'⟩
        (setC E w ((E w).next ((E w).newCache c w))) := by
  have hmk := (cinv_meta c h hw (by omega)).2
  obtain ⟨-, -, c3⟩ := cinv_counts c (by omega) h hw hli hlr
  obtain ⟨i', i1, i2, i3⟩ := live_search c.ins (by omega) hni h.ins hw (hep w hw) (by simpa using hli)
  obtain ⟨d', d1, d2, d3⟩ := live_search c.del (by omega) hnd h.del hw (hep w hw) (by simpa using hlr)
  simp only [ctSlots_length] at i3
  simp only [shareSlots_length] at d3
  have e1 : (searchRequest c s.client w).1.ins =
      Diana.searchRequest c.ins s.client.insCtr (metaNat w (E w).epoch) := by
    simp only [searchRequest, hmk]
  have e2 : (searchRequest c s.client w).1.del =
      Diana.searchRequest c.del s.client.delCtr (metaNat w (E w).epoch) := by
    simp only [searchRequest, hmk]
  have e3 : (searchRequest c s.client w).1.kwToken = c.kwToken w := rfl
  have e4 : (searchRequest c s.client w).1.firstKeyShare =
      c.initialKeyshare (c.derive (metaNat w (E w).epoch)) (UInt32.ofNat (E w).rem.length) := by
    simp only [searchRequest, hmk, c3]
  have hcl := client_stopped c (by omega) h hw (by omega) hli hlr 2
  rw [clientStopped_all c s.client w 0] at hcl
  have hs1 : search c s.server (searchRequest c s.client w).1 =
      .ok (((E w).newCache c w).map (·.1),
        ⟨i', d', writeCache s.server.cache (c.kwToken w) ((E w).newCache c w)⟩) := by
    unfold search
    rw [e1, e2, e3, e4, i1, d1]
    simp only [ofOption, bind, Except.bind, h.cache w hw, shareSlots_tags, pure, Except.pure,
      CEp.newCache, List.map_append]
  have hs2 : search c ⟨i', d', writeCache s.server.cache (c.kwToken w) ((E w).newCache c w)⟩
        (searchRequest c s.client w).1 =
      .ok (((E w).newCache c w).map (·.1),
        ⟨i', d', writeCache (writeCache s.server.cache (c.kwToken w) ((E w).newCache c w))
          (c.kwToken w) ((E w).newCache c w)⟩) := by
    unfold search
    rw [e1, e2, e3, e4]
    dsimp only
    rw [i2, d2]
    simp [ofOption, bind, Except.bind, readCache_writeCache, pure, Except.pure, filterCache,
      decryptAll]
  refine ⟨_, _, hs1, hs2, ?_, ?_⟩
  · exact cinv_advance c hn hni hnd hkw h hep hw hwn hli hlr _ hcl.1 hcl.2.1 hcl.2.2.1 hcl.2.2.2
      i3 d3 (readCache_writeCache _ _ _) (fun k hk => readCache_writeCache_ne _ _ hk)
  · exact cinv_advance c hn hni hnd hkw h hep hw hwn hli hlr _ hcl.1 hcl.2.1 hcl.2.2.1 hcl.2.2.2
      i3 d3 (readCache_writeCache _ _ _)
      (fun k hk => by
        dsimp only
        rw [readCache_writeCache_ne _ _ hk, readCache_writeCache_ne _ _ hk])

/-- A search interrupted once the client has made its first write. -/
theorem cinv_interrupted (c : Crypto PK KS CT Rand) {K n} {s : Sys KS CT} {E : Str → CEp Rand}
    (hn : n + 1 < 2 ^ 32) (hni : Diana.NoCollision c.ins (bound K n))
    (hnd : Diana.NoCollision c.del (bound K n))
    (hkw : ∀ v ∈ K, ∀ w ∈ K, c.kwToken v = c.kwToken w → v = w) (h : CInv c K n s E)
    (hep : ∀ v ∈ K, (E v).epoch ≤ n) {w : Str} (hw : w ∈ K) (hwn : (E w).epoch + 1 ≤ n)
    (hli : (E w).ins.length ≤ n) (hlr : (E w).rem.length ≤ n) :
    (∀ k, CInv c K n ⟨clientStopped c s.client w (k + 1), s.server⟩
      (setC E w ((E w).next (E w).cache))) ∧
    CInv c K n ⟨(searchRequest c s.client w).2, s.server⟩ (setC E w ((E w).next (E w).cache)) ∧
    ∀ k, ∃ srv, serverStopped c s.server (searchRequest c s.client w).1 k = .ok srv ∧
      CInv c K n ⟨(searchRequest c s.client w).2, srv⟩ (setC E w ((E w).next (E w).cache)) := by
  have hst : ∀ k, CInv c K n ⟨clientStopped c s.client w (k + 1), s.server⟩
      (setC E w ((E w).next (E w).cache)) := by
    intro k
    have hcl := client_stopped c (by omega) h hw (by omega) hli hlr k
    exact cinv_advance c hn hni hnd hkw h hep hw hwn hli hlr _ hcl.1 hcl.2.1 hcl.2.2.1 hcl.2.2.2
      (fun _ _ => rfl) (fun _ _ => rfl) (h.cache w hw) (fun _ _ => rfl)
  refine ⟨hst, ?_, ?_⟩
  · rw [← clientStopped_all c s.client w 0]; exact hst 2
  · intro k
    have hmk := (cinv_meta c h hw (by omega)).2
    have h1 := h.ins.counter w hw
    have h2 := h.del.counter w hw
    simp only [ctSlots_length] at h1
    simp only [shareSlots_length] at h2
    have e1 : (searchRequest c s.client w).1.ins =
        Diana.searchRequest c.ins s.client.insCtr (metaNat w (E w).epoch) := by
      simp only [searchRequest, hmk]
    have e2 : (searchRequest c s.client w).1.del =
        Diana.searchRequest c.del s.client.delCtr (metaNat w (E w).epoch) := by
      simp only [searchRequest, hmk]
    have hcl := client_stopped c (by omega) h hw (by omega) hli hlr 2
    rw [clientStopped_all c s.client w 0] at hcl
    unfold serverStopped
    rw [e1, e2, leaves_request c.ins _ _ _ h1 (by omega), leaves_request c.del _ _ _ h2 (by omega)]
    refine ⟨_, rfl, ?_⟩
    exact cinv_advance c hn hni hnd hkw h hep hw hwn hli hlr _ hcl.1 hcl.2.1 hcl.2.2.1 hcl.2.2.2
      (fun t ht => deleteSome_other c.ins _ _ _ (mem_leaves c.ins (Nat.le_refl _) ht))
      (fun t ht => deleteSome_other c.del _ _ _ (mem_leaves c.del (Nat.le_refl _) ht))
      (h.cache w hw) (fun _ _ => rfl)

end Verif.Janus.Crash
