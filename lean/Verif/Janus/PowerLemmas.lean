import Verif.Janus.PowerSpec
import Verif.Janus.FaultsHonest

/-! # Lemmas on Janus and loss of power -/

set_option linter.unusedSectionVars false

namespace Verif.Janus.Power

open Verif
open Verif.Power (Db)
open Verif.Faults.Spec (Slots)
open Verif.Janus.Crash (token_ne)

variable {PK KS CT Rand V W : Type} {α β : Type}

/-! ## Databases -/

/-- Two databases whose contents are related, now and after any loss -/
structure DbRel (R : α → β → Prop) (d : Db α) (e : Db β) : Prop where
  states : List.Forall₂ R d.states e.states
  first : R d.first e.first

theorem DbRel.cur {R : α → β → Prop} {d : Db α} {e : Db β} (h : DbRel R d e) : R d.cur e.cur := by
  obtain ⟨l, x⟩ := d
  obtain ⟨l', y⟩ := e
  cases h.states with
  | nil => exact h.first
  | cons h1 _ => exact h1

theorem DbRel.write {R : α → β → Prop} {d : Db α} {e : Db β} (h : DbRel R d e) {x : α} {y : β}
    (hx : R x y) : DbRel R (d.write x) (e.write y) :=
  ⟨.cons hx h.states, h.first⟩

theorem forall₂_drop {R : α → β → Prop} {l : List α} {l' : List β} (h : List.Forall₂ R l l') (k : Nat) :
    List.Forall₂ R (l.drop k) (l'.drop k) := by
  induction h generalizing k with
  | nil => simp
  | cons h1 _ ih =>
    cases k with
    | zero => exact .cons h1 (ih 0)
    | succ k => simpa using ih k

theorem DbRel.lose {R : α → β → Prop} {d : Db α} {e : Db β} (h : DbRel R d e) (k : Nat) :
    DbRel R (d.lose k) (e.lose k) :=
  ⟨forall₂_drop h.states k, h.first⟩

theorem DbRel.flush {R : α → β → Prop} {d : Db α} {e : Db β} (h : DbRel R d e) :
    DbRel R (flush d) (flush e) :=
  ⟨.nil, h.cur⟩

theorem DbRel.writes {R : α → β → Prop} {l : List α} {l' : List β} (hl : List.Forall₂ R l l')
    {d : Db α} {e : Db β} (h : DbRel R d e) : DbRel R (writes d l) (writes e l') := by
  induction hl generalizing d e with
  | nil => exact h
  | cons h1 _ ih => exact ih (h.write h1)

theorem DbRel.mono {R R' : α → β → Prop} (hR : ∀ x y, R x y → R' x y) {d : Db α} {e : Db β}
    (h : DbRel R d e) : DbRel R' d e :=
  ⟨h.states.imp hR, hR _ _ h.first⟩

/-- A content after several writes is the last one. -/
theorem writes_cur (d : Db α) (l : List α) : (writes d l).cur = (l.getLast?).getD d.cur := by
  induction l generalizing d with
  | nil => rfl
  | cons x l ih =>
    simp only [writes, List.foldl_cons] at ih ⊢
    rw [ih (d.write x)]
    cases l with
    | nil => rfl
    | cons y l => simp [List.getLast?_cons]

/-! ## Deleting searches -/

theorem searchLoop_eq (c : Diana.Crypto Str V) (edb : Diana.Edb V) (l : List (Nat × Diana.Leaf)) :
    Diana.searchLoop c true edb l = Faults.deleteLoop c (fun _ => false) (fun _ => false) edb l := by
  induction l generalizing edb with
  | nil => rfl
  | cons x l ih =>
    obtain ⟨p, leaf⟩ := x
    simp only [Diana.searchLoop, Diana.getUnmask, Diana.retrieveEntry, Faults.deleteLoop, Verif.Faults.get]
    cases h : edb (c.token leaf) with
    | none => simp [ih]
    | some v => simp [ih]

/-- The last content is the one that `DianaServer::search` leaves. -/
theorem deletions_last (c : Diana.Crypto Str V) (edb : Diana.Edb V) (l : List (Nat × Diana.Leaf)) :
    (deletions c edb l).getLast?.getD edb = (Diana.searchLoop c true edb l).2 := by
  induction l generalizing edb with
  | nil => rfl
  | cons x l ih =>
    obtain ⟨p, leaf⟩ := x
    simp only [deletions, Diana.searchLoop, Diana.getUnmask, Diana.retrieveEntry]
    cases h : edb (c.token leaf) with
    | none => simpa [h] using ih edb
    | some v =>
      have := ih (edb.erase (c.token leaf))
      simp only [List.getLast?_cons, Option.getD_some, if_true] at this ⊢
      exact this

/-- The content after the writes of a search is the one that `DianaServer::search` leaves. -/
theorem searchWrites_cur (c : Diana.Crypto Str V) (d : Db (Diana.Edb V)) (req : Diana.SearchReq c)
    {res : List V} {edb : Diana.Edb V} (h : Diana.search c d.cur req true = some (res, edb)) :
    (writes d (searchWrites c d.cur req)).cur = edb := by
  rw [writes_cur]
  unfold searchWrites Crash.leaves
  unfold Diana.search at h
  by_cases h0 : req.addCount = 0
  · rw [if_pos h0] at h ⊢
    exact congrArg Prod.snd (Option.some.inj h)
  · rw [if_neg h0] at h ⊢
    cases hl : Diana.evalRange c req.rcprf 0 (c.maxLeaf req.rcprf) with
    | none => rw [hl] at h; exact absurd h (by simp)
    | some l =>
      rw [hl] at h
      simp only [deletions_last]
      exact congrArg Prod.snd (Option.some.inj h)

theorem dianaSearch_eq (c : Diana.Crypto Str V) (edb : Diana.Edb V) (req : Diana.SearchReq c) :
    Diana.search c edb req true =
      Faults.dianaSearch c edb req (fun _ => false) (fun _ => false) := by
  unfold Diana.search Faults.dianaSearch
  simp only [searchLoop_eq]

/-- Nothing fails. -/
def fine : Faults.SearchF :=
  ⟨true, true, true, true, true, true, fun _ => false, fun _ => false, fun _ => false, fun _ => false,
    true, true⟩

theorem search_eq (c : Crypto PK KS CT Rand) (srv : Server KS CT) (req : SearchReq c) :
    search c srv req = Faults.search c srv req fine := by
  unfold search Faults.search
  simp only [dianaSearch_eq, fine, if_true]

theorem searchRequest_eq (c : Crypto PK KS CT Rand) (cl : Client) (w : Str) :
    searchRequest c cl w = Faults.searchRequest c cl w fine := by
  unfold searchRequest Faults.searchRequest
  have hs : ∀ m : Map Str UInt32, Verif.Faults.seen true m = m := by
    intro m; funext x; simp [Verif.Faults.seen, Verif.Faults.get]
  simp [fine, Faults.searchCounter, hs]

/-! ## Relations between the databases and the machine -/

/-- The search counters -/
def ScRel (K : List Str) (t : Nat) (m : Map Str UInt32) (f : Str → Nat) : Prop :=
  (∀ w ∈ K, searchCounter ⟨m, Map.empty, Map.empty⟩ w = UInt32.ofNat (f w)) ∧ ∀ w, f w ≤ t

/-- The counters of a Diana client -/
def CtrRel (K : List Str) (n t : Nat) (m : Map Str UInt32) (f : Str × Nat → Nat) : Prop :=
  (∀ w ∈ K, ∀ e, e ≤ n → m (metaNat w e) = Counter.counterOf (f (w, e))) ∧ ∀ k, f k ≤ t

/-- The entries of a Diana server -/
def EdbRel (c : Diana.Crypto Str V) (K : List Str) (n : Nat) (val : Str × Nat → W → V) (P : W → Prop)
    (edb : Diana.Edb V) (S : Str × Nat → Nat → Option W) : Prop :=
  (∀ w ∈ K, ∀ e, e ≤ n → ∀ a, a < n → edb (Diana.updateToken c (metaNat w e) a) =
    (S (w, e) a).map
      (fun x => c.xor (val (w, e) x) (c.mask (c.eval (c.root (c.hash (metaNat w e))) a)))) ∧
  ∀ k p x, S k p = some x → P x

/-- The cache -/
def CacheRel (c : Crypto PK KS CT Rand) (K : List Str) (D : List Index)
    (m : Map (Vector UInt8 16) (List UInt8)) (f : Str → List Index) : Prop :=
  (∀ w ∈ K, readCache m (c.kwToken w) = .ok ((f w).map (fun i => (i, docTag c w i)))) ∧
  ∀ w ∈ K, ∀ i ∈ f w, i ∈ D

/-- All the databases after `t` events -/
structure Inv (c : Crypto PK KS CT Rand) (K : List Str) (D : List Index) (n t : Nat) (s : Sys KS CT)
    (M : Spec.Machine Rand) : Prop where
  epoch : DbRel (ScRel K t) s.searchCtr M.epoch
  insN : DbRel (CtrRel K n t) s.insCtr M.insN
  delN : DbRel (CtrRel K n t) s.delCtr M.delN
  ins : DbRel (EdbRel c.ins K n (Faults.insVal c) (fun x => x.1 ∈ D)) s.insEdb M.ins
  del : DbRel (EdbRel c.del K n (Faults.delVal c) (fun x => x.2 ∈ D)) s.delEdb M.del
  cache : DbRel (CacheRel c K D) s.cache M.cache

theorem inv_init (c : Crypto PK KS CT Rand) (K : List Str) (D : List Index) (n : Nat) :
    Inv c K D n 0 Sys.init Spec.Machine.init := by
  refine ⟨⟨.nil, ?_, ?_⟩, ⟨.nil, ?_, ?_⟩, ⟨.nil, ?_, ?_⟩, ⟨.nil, ?_, ?_⟩, ⟨.nil, ?_, ?_⟩, ⟨.nil, ?_, ?_⟩⟩ <;>
    intros <;> first | rfl | simp_all [Spec.Machine.init]

theorem ScRel.mono {K : List Str} {t t' : Nat} (h : t ≤ t') (m : Map Str UInt32) (f : Str → Nat) :
    ScRel K t m f → ScRel K t' m f :=
  fun hs => ⟨hs.1, fun w => Nat.le_trans (hs.2 w) h⟩

theorem CtrRel.mono {K : List Str} {n t t' : Nat} (h : t ≤ t') (m : Map Str UInt32) (f : Str × Nat → Nat) :
    CtrRel K n t m f → CtrRel K n t' m f :=
  fun hs => ⟨hs.1, fun w => Nat.le_trans (hs.2 w) h⟩

/-- The machine of C64 for the current contents -/
def machine (M : Spec.Machine Rand) : Faults.Spec.Machine Rand :=
  ⟨M.epoch.cur, ⟨M.insN.cur, M.ins.cur⟩, ⟨M.delN.cur, M.del.cur⟩, M.cache.cur⟩

theorem Inv.faults {c : Crypto PK KS CT Rand} {K D n t} {s : Sys KS CT} {M : Spec.Machine Rand}
    (h : Inv c K D n t s M) : Faults.Inv c K D n t ⟨s.client, s.server⟩ (machine M) :=
  ⟨h.epoch.cur.1, ⟨h.insN.cur.1, h.ins.cur.1⟩, ⟨h.delN.cur.1, h.del.cur.1⟩, h.cache.cur.1, h.cache.cur.2,
    h.ins.cur.2, h.del.cur.2, h.epoch.cur.2, h.insN.cur.2, h.delN.cur.2⟩

/-- A change of the counter of one meta keyword -/
theorem ctrRel_set {K : List Str} {n t : Nat} (hn : n < 2 ^ 32) {m m' : Map Str UInt32}
    {f : Str × Nat → Nat} (h : CtrRel K n t m f) {w : Str} {e : Nat} (he : e ≤ n) (k : Nat) (hk : k ≤ t + 1)
    (hm : m' (metaNat w e) = Counter.counterOf k) (ho : ∀ x, x ≠ metaNat w e → m' x = m x) :
    CtrRel K n (t + 1) m' (Spec.set f (w, e) k) := by
  refine ⟨?_, ?_⟩
  · intro v hv g hg
    by_cases hx : (v, g) = (w, e)
    · obtain ⟨rfl, rfl⟩ := Prod.mk.inj hx
      rw [hm]; simp [Spec.set]
    · rw [ho, h.1 v hv g hg]
      · simp only [Spec.set, if_neg hx]
      · intro h'
        obtain ⟨rfl, rfl⟩ := metaNat_inj (by omega) (by omega) h'
        exact hx rfl
  · intro k'
    have := h.2 k'
    simp only [Spec.set]
    split <;> omega

/-- A change of one slot -/
theorem edbRel_set {c : Diana.Crypto Str V} {K : List Str} {n : Nat} (hn : n < 2 ^ 32)
    (hnc : Diana.NoCollision c (bound K n)) {val : Str × Nat → W → V} {P : W → Prop}
    {edb edb' : Diana.Edb V} {S : Str × Nat → Nat → Option W} (h : EdbRel c K n val P edb S)
    {w : Str} (hw : w ∈ K) {e : Nat} (he : e ≤ n) {a : Nat} (ha : a < n) (x : Option W)
    (hx : ∀ y, x = some y → P y)
    (h1 : edb' (Diana.updateToken c (metaNat w e) a) = x.map
      (fun x => c.xor (val (w, e) x) (c.mask (c.eval (c.root (c.hash (metaNat w e))) a))))
    (h2 : ∀ t, t ≠ Diana.updateToken c (metaNat w e) a → edb' t = edb t) :
    EdbRel c K n val P edb' (Spec.setSlot S (w, e) a x) := by
  refine ⟨?_, ?_⟩
  · intro v hv f hf b hb
    by_cases hx : (v, f) = (w, e) ∧ b = a
    · obtain ⟨hx1, rfl⟩ := hx
      obtain ⟨rfl, rfl⟩ := Prod.mk.inj hx1
      rw [h1]; simp [Spec.setSlot]
    · rw [h2, h.1 v hv f hf b hb]
      · simp only [Spec.setSlot, if_neg hx]
      · intro h'
        obtain ⟨rfl, rfl, rfl⟩ := token_ne c hnc hv hw hf he hn hb ha h'
        exact hx ⟨rfl, rfl⟩
  · intro k p y hy
    simp only [Spec.setSlot] at hy
    split at hy
    · exact hx y hy
    · exact h.2 k p y hy

/-- The writes of a deleting search -/
theorem edbRel_deletions {c : Diana.Crypto Str V} {K : List Str} {n : Nat} (hn : n < 2 ^ 32)
    (hnc : Diana.NoCollision c (bound K n)) {val : Str × Nat → W → V} {P : W → Prop}
    {w : Str} (hw : w ∈ K) {e : Nat} (he : e ≤ n) (ps : List Nat) (hps : ∀ p ∈ ps, p < n)
    {edb : Diana.Edb V} {S : Str × Nat → Nat → Option W} (h : EdbRel c K n val P edb S) :
    List.Forall₂ (EdbRel c K n val P)
      (deletions c edb (ps.map (fun p => (p, c.eval (c.root (c.hash (metaNat w e))) p))))
      (Spec.empties (w, e) S ps) := by
  induction ps generalizing edb S with
  | nil => exact .nil
  | cons p ps ih =>
    have hp := hps p (by simp)
    have hent := h.1 w hw e he p hp
    simp only [List.map_cons, deletions, Spec.empties]
    rw [show c.token (c.eval (c.root (c.hash (metaNat w e))) p) = Diana.updateToken c (metaNat w e) p
      from rfl, hent]
    cases hS : S (w, e) p with
    | none => exact ih (fun q hq => hps q (by simp [hq])) h
    | some x =>
      have h' : EdbRel c K n val P (edb.erase (Diana.updateToken c (metaNat w e) p))
          (Spec.setSlot S (w, e) p none) :=
        edbRel_set hn hnc h hw he hp none (by simp) (by simp) (fun t ht => Map.erase_of_ne _ ht)
      exact .cons h' (ih (fun q hq => hps q (by simp [hq])) h')

theorem edbRel_search {c : Diana.Crypto Str V} {K : List Str} {n : Nat} (hn : n < 2 ^ 32)
    (hnc : Diana.NoCollision c (bound K n)) {val : Str × Nat → W → V} {P : W → Prop}
    {w : Str} (hw : w ∈ K) {e : Nat} (he : e ≤ n) {m : Map Str UInt32} {f : Str × Nat → Nat} {t : Nat}
    (hm : CtrRel K n t m f) (ht : t ≤ n) {edb : Diana.Edb V} {S : Str × Nat → Nat → Option W}
    (h : EdbRel c K n val P edb S) :
    List.Forall₂ (EdbRel c K n val P)
      (searchWrites c edb (Diana.searchRequest c m (metaNat w e)))
      (Spec.empties (w, e) S (List.range (f (w, e)))) := by
  have hle := hm.2 (w, e)
  unfold searchWrites
  rw [Crash.leaves_request c m _ _ (hm.1 w hw e he) (by omega)]
  exact edbRel_deletions hn hnc hw he _ (fun p hp => by rw [List.mem_range] at hp; omega) h

/-! ## One event -/

theorem Inv.mono {c : Crypto PK KS CT Rand} {K D n t t'} {s : Sys KS CT} {M : Spec.Machine Rand}
    (h : Inv c K D n t s M) (ht : t ≤ t') : Inv c K D n t' s M :=
  { h with
    epoch := h.epoch.mono (ScRel.mono ht)
    insN := h.insN.mono (CtrRel.mono ht)
    delN := h.delN.mono (CtrRel.mono ht) }

theorem meta_cur {c : Crypto PK KS CT Rand} {K D n t} {s : Sys KS CT} {M : Spec.Machine Rand}
    (h : Inv c K D n t s M) (ht : t < 2 ^ 32) {w : Str} (hw : w ∈ K) :
    searchCounter s.client w = UInt32.ofNat (M.epoch.cur w) ∧
    metaKeyword w (searchCounter s.client w) = metaNat w (M.epoch.cur w) ∧ M.epoch.cur w ≤ t :=
  Faults.meta_eq c h.faults ht true hw

theorem nextValue_cur {m : Map Str UInt32} {w : Str} {k : Nat} (h : m w = Counter.counterOf k) :
    Counter.nextValue (Counter.get m w) = UInt32.ofNat k := by
  rw [Counter.get, h, Counter.nextValue_counterOf]

theorem inv_clientSearch {c : Crypto PK KS CT Rand} {K D n t} (hn : n < 2 ^ 32) {s : Sys KS CT}
    {M : Spec.Machine Rand} (h : Inv c K D n t s M) (ht : t + 1 ≤ n) {w : Str} (hw : w ∈ K) :
    Inv c K D n (t + 1) (clientSearch c s w) (M.clientSearch w) := by
  obtain ⟨hsc, hmk, hle⟩ := meta_cur h (by omega) hw
  have hi := h.insN.cur
  have hd := h.delN.cur
  have hil := hi.2 (M.key w)
  have hdl := hd.2 (M.key w)
  have hai : (Diana.searchRequest c.ins s.client.insCtr (metaNat w (M.epoch.cur w))).addCount =
      UInt32.ofNat (M.insN.cur (M.key w)) :=
    addCount_slots c.ins _ _ _ (hi.1 w hw (M.epoch.cur w) (by omega)) (by show M.insN.cur (M.key w) < _; omega)
  have had : (Diana.searchRequest c.del s.client.delCtr (metaNat w (M.epoch.cur w))).addCount =
      UInt32.ofNat (M.delN.cur (M.key w)) :=
    addCount_slots c.del _ _ _ (hd.1 w hw (M.epoch.cur w) (by omega)) (by show M.delN.cur (M.key w) < _; omega)
  have hp1 := ofNat_pos (n := M.insN.cur (M.key w)) (by omega)
  have hp2 := ofNat_pos (n := M.delN.cur (M.key w)) (by omega)
  have h' := h.mono (Nat.le_succ t)
  have hrm : ∀ (m : Map Str UInt32) (f : Str × Nat → Nat), CtrRel K n t m f →
      CtrRel K n (t + 1) (Diana.removeKeyword m (metaNat w (M.epoch.cur w)))
        (Spec.set f (w, M.epoch.cur w) 0) := fun m f hf =>
    ctrRel_set hn hf (by omega) 0 (by omega) (by simp [Diana.removeKeyword, Counter.removeKey, Counter.counterOf])
      (fun x hx => by simp [Diana.removeKeyword, Counter.removeKey, Map.erase_of_ne _ hx])
  unfold clientSearch Spec.Machine.clientSearch
  simp only [searchRequest, hmk, hai, had, hp1, hp2, Bool.or_eq_true, decide_eq_true_iff]
  refine ⟨?_, ?_, ?_, h'.ins, h'.del, h'.cache⟩
  · dsimp only
    split
    · next hc =>
      refine h'.epoch.write ⟨?_, ?_⟩
      · intro v hv
        have hold := h.epoch.cur.1 v hv
        rw [hsc]
        unfold searchCounter Counter.get at hold ⊢
        dsimp only at hold ⊢
        by_cases hv' : v = w
        · subst hv'
          simp only [Spec.set, if_true, UInt32.ofNat_add, Counter.set, Map.put_self]
          rfl
        · simp only [Spec.set, if_neg hv', Counter.set, Map.put_of_ne _ _ hv']
          exact hold
      · intro v
        have := h.epoch.cur.2 v
        simp only [Spec.set]
        split <;> omega
    · exact h'.epoch
  · dsimp only
    split
    · exact h'.insN.write (hrm _ _ hi)
    · exact h'.insN
  · dsimp only
    split
    · exact h'.delN.write (hrm _ _ hd)
    · exact h'.delN

theorem step_refines (c : Crypto PK KS CT Rand) (laws : PunctLaws c) {K D n t} (hn : n < 2 ^ 32)
    (hnc : NoCollision c K D n) {s : Sys KS CT} {M : Spec.Machine Rand} (h : Inv c K D n t s M)
    (ht : t + 1 ≤ n) (op : Op Rand) (hK : ∀ w ∈ Spec.Op.kws op, w ∈ K) (hD : ∀ i ∈ Spec.Op.docs op, i ∈ D)
    (hk : M.keyOk op = true) :
    ∃ s', step c s op = .ok (s', (M.step op).2) ∧ Inv c K D n (t + 1) s' (M.step op).1 := by
  have h' := h.mono (Nat.le_succ t)
  cases op with
  | insert w i r d =>
    have hw : w ∈ K := hK w (by simp [Spec.Op.kws])
    have hi : i ∈ D := hD i (by simp [Spec.Op.docs])
    obtain ⟨-, hmk, hle⟩ := meta_cur h (by omega) hw
    have hc := h.insN.cur.1 w hw (M.epoch.cur w) (by omega)
    have hl := h.insN.cur.2 (w, M.epoch.cur w)
    have hg := nextValue_cur hc
    refine ⟨_, rfl, ?_⟩
    simp only [Sys.client]
    simp only [Sys.client] at hmk
    rw [hmk, hg]
    refine ⟨h'.epoch, h'.insN.write ?_, h'.delN, ?_, h'.del, h'.cache⟩
    · exact ctrRel_set hn h.insN.cur (by omega) _ (by simp only [Spec.Machine.key]; omega)
        (by rw [Map.put_self, ← Verif.Faults.counterOf_succ]; rfl) (fun y hy => Map.put_of_ne _ _ hy)
    · cases d with
      | false => exact h'.ins
      | true =>
        refine h'.ins.write (edbRel_set hn hnc.ins h.ins.cur hw (by omega) (by
          show M.insN.cur (w, M.epoch.cur w) < n; omega) _ (by simpa using hi) ?_ ?_)
        · have hk' : (UInt32.ofNat (M.insN.cur (w, M.epoch.cur w))).toNat =
              M.insN.cur (w, M.epoch.cur w) := by simp [UInt32.toNat_ofNat']; omega
          simp only [insert, Diana.serverInsert, Diana.requestFor, hk', Spec.Machine.key]
          exact Map.put_self _ _ _
        · have hk' : (UInt32.ofNat (M.insN.cur (w, M.epoch.cur w))).toNat =
              M.insN.cur (w, M.epoch.cur w) := by simp [UInt32.toNat_ofNat']; omega
          intro y hy
          simp only [insert, Diana.serverInsert, Diana.requestFor, hk']
          exact Map.put_of_ne _ _ hy
  | remove w i d =>
    have hw : w ∈ K := hK w (by simp [Spec.Op.kws])
    have hi : i ∈ D := hD i (by simp [Spec.Op.docs])
    obtain ⟨-, hmk, hle⟩ := meta_cur h (by omega) hw
    have hc := h.delN.cur.1 w hw (M.epoch.cur w) (by omega)
    have hl := h.delN.cur.2 (w, M.epoch.cur w)
    have hg := nextValue_cur hc
    have hnum : Diana.getMatchCount s.delCtr.cur (metaNat w (M.epoch.cur w)) + 1 =
        UInt32.ofNat (if M.delN.cur (w, M.epoch.cur w) = 0 then 1 else M.delN.cur (w, M.epoch.cur w)) := by
      generalize M.delN.cur (w, M.epoch.cur w) = j at hc
      simp only [Diana.getMatchCount, Counter.get, hc, Counter.counterOf]
      by_cases h0 : j = 0
      · simp [h0]
      · simp only [h0, if_false]
        have : j - 1 + 1 = j := by omega
        conv => rhs; rw [← this, UInt32.ofNat_add]
        rfl
    refine ⟨_, rfl, ?_⟩
    simp only [removalShare, Sys.client]
    simp only [Sys.client] at hmk
    rw [hmk, hg]
    refine ⟨h'.epoch, h'.insN, h'.delN.write ?_, h'.ins, ?_, h'.cache⟩
    · exact ctrRel_set hn h.delN.cur (by omega) _ (by simp only [Spec.Machine.key]; omega)
        (by rw [Map.put_self, ← Verif.Faults.counterOf_succ]; rfl) (fun y hy => Map.put_of_ne _ _ hy)
    · cases d with
      | false => exact h'.del
      | true =>
        have hk' : (UInt32.ofNat (M.delN.cur (w, M.epoch.cur w))).toNat =
            M.delN.cur (w, M.epoch.cur w) := by simp [UInt32.toNat_ofNat']; omega
        refine h'.del.write (edbRel_set hn hnc.del h.del.cur hw (by omega) (by
          show M.delN.cur (w, M.epoch.cur w) < n; omega) _ (by simpa using hi) ?_ ?_)
        · simp only [remove, Diana.serverInsert, Diana.requestFor, hk', Spec.Machine.key, hnum]
          exact Map.put_self _ _ _
        · intro y hy
          simp only [remove, Diana.serverInsert, Diana.requestFor, hk']
          exact Map.put_of_ne _ _ hy
  | search w d =>
    have hw : w ∈ K := hK w (by simp [Spec.Op.kws])
    obtain ⟨hsc, hmk, hle⟩ := meta_cur h (by omega) hw
    have hcl := inv_clientSearch hn h ht hw
    cases d with
    | false => exact ⟨_, rfl, hcl⟩
    | true =>
      have hkey : (machine M).keyOk (.search w fine) = true := by
        have hlen : ∀ l : List (Nat × Index), ∀ k, l.map (·.1) = List.range' 1 k → l.length = k := by
          intro l k hl
          have := congrArg List.length hl
          simpa using this
        simp only [Spec.Machine.keyOk, Bool.or_eq_true, decide_eq_true_iff] at hk
        simp only [Faults.Spec.Machine.keyOk, Bool.or_eq_true, Bool.and_eq_true, decide_eq_true_iff]
        rcases hk with hk | hk
        · exact Or.inl hk
        · exact Or.inr ⟨hlen _ _ hk, hk⟩
      obtain ⟨s1, hs1, hI⟩ := Faults.step_refines c laws hn hnc h.faults ht (.search w fine) hw
        (by simp [Faults.Spec.Op.docs]) hkey
      have hfound : (machine M).found w fine = M.found w := rfl
      simp only [Faults.step, ← searchRequest_eq, ← search_eq] at hs1
      cases hse : search c s.server (searchRequest c s.client w).1 with
      | error e => rw [hse] at hs1; exact absurd hs1 (by simp)
      | ok x =>
        obtain ⟨res, srv⟩ := x
        rw [hse] at hs1
        obtain ⟨hs1, hres⟩ := Prod.mk.inj (Except.ok.inj hs1)
        have hres : res = M.found w := by
          have := Faults.Out.results.inj hres
          rw [this]; exact hfound
        have hcache : CacheRel c K D srv.cache (Spec.set M.cache.cur w (M.found w)) := by
          have h1 := hI.cache
          have h2 := hI.cacheDocs
          have hca : ((machine M).step (.search w fine)).1.cache = Spec.set M.cache.cur w (M.found w) := by
            funext v
            simp only [Faults.Spec.Machine.step, fine, Spec.set, and_true]
            rfl
          rw [hca] at h1 h2
          rw [← hs1] at h1
          exact ⟨h1, h2⟩
        refine ⟨_, by simp only [step, if_true, hse, hres]; rfl, ?_⟩
        · rw [show (searchRequest c s.client w).1.ins =
            Diana.searchRequest c.ins s.client.insCtr (metaNat w (M.epoch.cur w)) by
              simp only [searchRequest, hmk],
            show (searchRequest c s.client w).1.del =
            Diana.searchRequest c.del s.client.delCtr (metaNat w (M.epoch.cur w)) by
              simp only [searchRequest, hmk]]
          exact ⟨hcl.epoch, hcl.insN, hcl.delN,
            h.ins.writes (edbRel_search hn hnc.ins hw (by omega) h.insN.cur (by omega) h.ins.cur),
            h.del.writes (edbRel_search hn hnc.del hw (by omega) h.delN.cur (by omega) h.del.cur),
            h.cache.write hcache⟩
  | clientLoss a b d =>
    exact ⟨_, rfl, h'.epoch.lose a, h'.insN.lose b, h'.delN.lose d, h'.ins, h'.del, h'.cache⟩
  | serverLoss a b d =>
    exact ⟨_, rfl, h'.epoch, h'.insN, h'.delN, h'.ins.lose a, h'.del.lose b, h'.cache.lose d⟩
  | flush =>
    exact ⟨_, rfl, h'.epoch, h'.insN, h'.delN, h'.ins.flush, h'.del.flush, h'.cache⟩

theorem run_refines (c : Crypto PK KS CT Rand) (laws : PunctLaws c) {K D n} (hn : n < 2 ^ 32)
    (hnc : NoCollision c K D n) (ops : List (Op Rand)) (t : Nat) {s : Sys KS CT}
    {M : Spec.Machine Rand} (h : Inv c K D n t s M) (ht : t + ops.length ≤ n)
    (hK : ∀ op ∈ ops, ∀ w ∈ Spec.Op.kws op, w ∈ K) (hD : ∀ op ∈ ops, ∀ i ∈ Spec.Op.docs op, i ∈ D)
    (hk : M.keysOk ops = true) :
    ∃ s', run c s ops = .ok (s', M.run ops) := by
  induction ops generalizing t s M with
  | nil => exact ⟨s, rfl⟩
  | cons op ops ih =>
    simp only [List.length_cons] at ht
    simp only [Spec.Machine.keysOk, Bool.and_eq_true] at hk
    obtain ⟨s1, h1, h2⟩ := step_refines c laws hn hnc h (by omega) op (hK op (by simp))
      (hD op (by simp)) hk.1
    obtain ⟨s2, h3⟩ := ih (t + 1) h2 (by omega) (fun o ho => hK o (by simp [ho]))
      (fun o ho => hD o (by simp [ho])) hk.2
    exact ⟨s2, by simp only [run, h1, h3, Spec.Machine.run]⟩

end Verif.Janus.Power
