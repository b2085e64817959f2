import Verif.Janus.Lemmas
import Verif.Janus.Toy
import Verif.Diana.HidingProps

/-!
# C62: what the updates of Janus reveal

Janus uses one Diana client for the insertions and one for the removals, with meta keywords that contain the number of the epoch. The
messages of Janus are those of the two Diana clients, besides the keyword token and the first key share of a search. Hence the
insertions and removals made after all the searches reveal only how many there are of each kind, and in which order
(`C62_janus_forward`).
-/

namespace Verif.Janus

open Verif Leak

variable {PK KS CT Rand : Type}

/-! ## Messages -/

/-- The messages of the Janus client, as data that do not depend on the choice of the secret functions of Diana; `CI` and `CD` are
the types of the constrained keys. -/
inductive JMsg (CI CD KS CT : Type) where
  | insert (t : Diana.Token) (e : CT)
  | remove (t : Diana.Token) (e : KS)
  | search (kwToken : Vector UInt8 16) (ins : Vector UInt8 32 × CI × UInt32) (del : Vector UInt8 32 × CD × UInt32)
      (firstKeyShare : KS)

/-- Other secret functions in both Diana clients -/
@[reducible] def withSecrets (c : Crypto PK KS CT Rand) (ki : Diana.Secret c.ins) (kd : Diana.Secret c.del) :
    Crypto PK KS CT Rand :=
  { c with ins := Diana.withSecret c.ins ki, del := Diana.withSecret c.del kd }

/-- The messages of a history, with the secret functions `ki` and `kd` (`insertion_request`, `removal_request`,
`search_request`, janus_client.cpp L82-175) -/
def messages (c : Crypto PK KS CT Rand) (ki : Diana.Secret c.ins) (kd : Diana.Secret c.del) : Client → List (Op Rand) →
    List (JMsg c.ins.CK c.del.CK KS CT)
  | _, [] => []
  | cl, .insert w i r :: ops =>
    let (req, cl') := insertionRequest (withSecrets c ki kd) cl w i r
    .insert req.token req.index :: messages c ki kd cl' ops
  | cl, .remove w i :: ops =>
    let (req, cl') := removalRequest (withSecrets c ki kd) cl w i
    .remove req.token req.index :: messages c ki kd cl' ops
  | cl, .search w :: ops =>
    let (req, cl') := searchRequest (withSecrets c ki kd) cl w
    .search req.kwToken (req.ins.kwToken, req.ins.rcprf, req.ins.addCount)
      (req.del.kwToken, req.del.rcprf, req.del.addCount) req.firstKeyShare :: messages c ki kd cl' ops

/-- A fresh client -/
def Client.init : Client := ⟨Map.empty, Map.empty, Map.empty⟩

/-! ## Specification: the histories of the two Diana clients -/

namespace Spec

/-- The epoch of a keyword, and the numbers of insertions and removals in it -/
structure Cell where
  epoch : Nat
  nIns : Nat
  nDel : Nat

/-- A search starts a new epoch, unless nothing was inserted or removed in the current one. -/
def cellStep (E : Str → Cell) : Op Rand → Str → Cell
  | .insert w _ _, v => if v = w then ⟨(E v).epoch, (E v).nIns + 1, (E v).nDel⟩ else E v
  | .remove w _, v => if v = w then ⟨(E v).epoch, (E v).nIns, (E v).nDel + 1⟩ else E v
  | .search w, v => if v = w ∧ (0 < (E v).nIns ∨ 0 < (E v).nDel) then ⟨(E v).epoch + 1, 0, 0⟩ else E v

/-- The commands for the Diana client of the insertions -/
def insCmds (c : Crypto PK KS CT Rand) : (Str → Cell) → List (Op Rand) → List (Cmd Str CT)
  | _, [] => []
  | E, .insert w i r :: ops =>
    .insert (metaNat w (E w).epoch) (c.encrypt (c.derive (metaNat w (E w).epoch)) r i (docTag c w i)) ::
      insCmds c (cellStep E (.insert w i r)) ops
  | E, .remove w i :: ops => insCmds c (cellStep E (Op.remove (Rand := Rand) w i)) ops
  | E, .search w :: ops => .search (metaNat w (E w).epoch) :: insCmds c (cellStep E (Op.search (Rand := Rand) w)) ops

/-- The commands for the Diana client of the removals; the number of the key share is that of the code (`get_match_count` + 1). -/
def delCmds (c : Crypto PK KS CT Rand) : (Str → Cell) → List (Op Rand) → List (Cmd Str KS)
  | _, [] => []
  | E, .insert w i r :: ops => delCmds c (cellStep E (.insert w i r)) ops
  | E, .remove w i :: ops =>
    .insert (metaNat w (E w).epoch) (c.incPuncture (c.derive (metaNat w (E w).epoch))
        (UInt32.ofNat ((E w).nDel - 1) + 1) (docTag c w i)) ::
      delCmds c (cellStep E (Op.remove (Rand := Rand) w i)) ops
  | E, .search w :: ops => .search (metaNat w (E w).epoch) :: delCmds c (cellStep E (Op.search (Rand := Rand) w)) ops

/-- Nothing done -/
def noCells : Str → Cell := fun _ => ⟨0, 0, 0⟩

/-- An insertion or a removal -/
inductive Kind where
  | insertion
  | removal
deriving DecidableEq

/-- The kind of an update; `none` for a search -/
def kind : Op Rand → Option Kind
  | .insert _ _ _ => some .insertion
  | .remove _ _ => some .removal
  | .search _ => none

end Spec

open Spec

/-! ## The parts of the messages -/

variable {CI CD : Type}

def insPart : List (JMsg CI CD KS CT) → List (Msg Diana.Token CT (Vector UInt8 32 × CI × UInt32))
  | [] => []
  | .insert t e :: l => .update t e :: insPart l
  | .remove _ _ :: l => insPart l
  | .search _ i _ _ :: l => .search i :: insPart l

def delPart : List (JMsg CI CD KS CT) → List (Msg Diana.Token KS (Vector UInt8 32 × CD × UInt32))
  | [] => []
  | .insert _ _ :: l => delPart l
  | .remove t e :: l => .update t e :: delPart l
  | .search _ _ d _ :: l => .search d :: delPart l

/-- What is left: the kinds, the keyword tokens and the first key shares -/
def rest : List (JMsg CI CD KS CT) → List (Kind ⊕ (Vector UInt8 16 × KS))
  | [] => []
  | .insert _ _ :: l => .inl .insertion :: rest l
  | .remove _ _ :: l => .inl .removal :: rest l
  | .search t _ _ f :: l => .inr (t, f) :: rest l

theorem msgs_ext (l : List (JMsg CI CD KS CT)) : ∀ l', insPart l = insPart l' → delPart l = delPart l' → rest l = rest l' →
    l = l' := by
  induction l with
  | nil =>
    intro l' _ _ h
    cases l' with
    | nil => rfl
    | cons x l' => cases x <;> simp [rest] at h
  | cons x l ih =>
    intro l' h1 h2 h3
    cases l' with
    | nil => cases x <;> simp [rest] at h3
    | cons y l' =>
      cases x <;> cases y <;> simp [rest] at h3 <;> simp [insPart] at h1 <;> simp [delPart] at h2
      · rw [h1.1.1, h1.1.2, ih l' h1.2 h2 h3]
      · rw [h2.1.1, h2.1.2, ih l' h1 h2.2 h3]
      · rw [h3.1.1, h3.1.2, h1.1, h2.1, ih l' h1.2 h2.2 h3.2]

/-! ## The invariant -/

/-- The state of the client after the commands `pi` and `pd` of the Diana clients, with the counters `mi` and `md` of clients that
never forget a keyword; `n` bounds the number of operations. -/
structure CInv (cl : Client) (E : Str → Cell) (mi md : Map Str UInt32) (n : Nat) : Prop where
  small : n < 2 ^ 32
  epoch : ∀ w, (E w).epoch ≤ n
  ins : ∀ w, (E w).nIns ≤ n
  del : ∀ w, (E w).nDel ≤ n
  search : ∀ w, searchCounter cl w = UInt32.ofNat (E w).epoch
  insCur : ∀ w, mi (metaNat w (E w).epoch) = Counter.counterOf (E w).nIns
  delCur : ∀ w, md (metaNat w (E w).epoch) = Counter.counterOf (E w).nDel
  insNext : ∀ w e, (E w).epoch < e → e < 2 ^ 32 → mi (metaNat w e) = none
  delNext : ∀ w e, (E w).epoch < e → e < 2 ^ 32 → md (metaNat w e) = none
  insSame : ∀ w e, (E w).epoch ≤ e → e < 2 ^ 32 → cl.insCtr (metaNat w e) = mi (metaNat w e)
  delSame : ∀ w e, (E w).epoch ≤ e → e < 2 ^ 32 → cl.delCtr (metaNat w e) = md (metaNat w e)

theorem cinv_init : CInv Client.init noCells Map.empty Map.empty 0 where
  small := by decide
  epoch _ := Nat.le_refl _
  ins _ := Nat.le_refl _
  del _ := Nat.le_refl _
  search _ := rfl
  insCur _ := rfl
  delCur _ := rfl
  insNext _ _ _ _ := rfl
  delNext _ _ _ _ := rfl
  insSame _ _ _ _ := rfl
  delSame _ _ _ _ := rfl

theorem CInv.meta {cl : Client} {E : Str → Cell} {mi md : Map Str UInt32} {n : Nat} (h : CInv cl E mi md n) (w : Str) :
    metaKeyword w (searchCounter cl w) = metaNat w (E w).epoch := by
  rw [h.search w, metaKeyword, metaNat, UInt32.toNat_ofNat', Nat.mod_eq_of_lt]
  have := h.epoch w
  have := h.small
  omega

theorem counterOf_succ (n : Nat) : some (UInt32.ofNat n) = Counter.counterOf (n + 1) := by
  simp [Counter.counterOf]

/-- One insertion in a Diana client -/
theorem cinv_insert {cl : Client} {E : Str → Cell} {mi md : Map Str UInt32} {n : Nat} (h : CInv cl E mi md n)
    (hn : n + 1 < 2 ^ 32) (w : Str) (i : Index) (r : Rand) :
    CInv { cl with insCtr := cl.insCtr.put (metaNat w (E w).epoch) (UInt32.ofNat (E w).nIns) }
      (cellStep E (.insert w i r)) (mi.put (metaNat w (E w).epoch) (UInt32.ofNat (E w).nIns)) md (n + 1) := by
  have hep : ∀ v, (E v).epoch < 2 ^ 32 := fun v => by have := h.epoch v; have := h.small; omega
  have hE : ∀ v, (cellStep E (.insert w i r) v).epoch = (E v).epoch := by
    intro v; simp only [cellStep]; by_cases hv : v = w
    · rw [if_pos hv]
    · rw [if_neg hv]
  have hD : ∀ v, (cellStep E (.insert w i r) v).nDel = (E v).nDel := by
    intro v; simp only [cellStep]; by_cases hv : v = w
    · rw [if_pos hv]
    · rw [if_neg hv]
  constructor
  · exact hn
  · intro v; rw [hE]; have := h.epoch v; omega
  · intro v
    simp only [cellStep]
    have := h.ins v
    by_cases hv : v = w
    · rw [if_pos hv]; simp only; omega
    · rw [if_neg hv]; omega
  · intro v; rw [hD]; have := h.del v; omega
  · intro v; rw [hE]; exact h.search v
  · intro v
    rw [hE]
    simp only [cellStep]
    by_cases hv : v = w
    · subst hv
      rw [if_pos rfl, Map.put_self]
      exact counterOf_succ _
    · rw [if_neg hv, Map.put_of_ne _ _ (fun e => hv (metaNat_inj (hep _) (hep _) e).1)]
      exact h.insCur v
  · intro v; rw [hE, hD]; exact h.delCur v
  · intro v e he he2
    rw [hE] at he
    rw [Map.put_of_ne _ _ (fun e' => by
      obtain ⟨h1, h2⟩ := metaNat_inj he2 (hep _) e'
      subst h1
      omega)]
    exact h.insNext v e he he2
  · intro v e he he2; rw [hE] at he; exact h.delNext v e he he2
  · intro v e he he2
    rw [hE] at he
    simp only
    by_cases hx : metaNat v e = metaNat w (E w).epoch
    · rw [hx, Map.put_self, Map.put_self]
    · rw [Map.put_of_ne _ _ hx, Map.put_of_ne _ _ hx]
      exact h.insSame v e he he2
  · intro v e he he2; rw [hE] at he; exact h.delSame v e he he2

theorem cinv_remove {cl : Client} {E : Str → Cell} {mi md : Map Str UInt32} {n : Nat} (h : CInv cl E mi md n)
    (hn : n + 1 < 2 ^ 32) (w : Str) (i : Index) :
    CInv { cl with delCtr := cl.delCtr.put (metaNat w (E w).epoch) (UInt32.ofNat (E w).nDel) }
      (cellStep E (Op.remove (Rand := Rand) w i)) mi (md.put (metaNat w (E w).epoch) (UInt32.ofNat (E w).nDel)) (n + 1) := by
  have hep : ∀ v, (E v).epoch < 2 ^ 32 := fun v => by have := h.epoch v; have := h.small; omega
  have hE : ∀ v, (cellStep E (Op.remove (Rand := Rand) w i) v).epoch = (E v).epoch := by
    intro v; simp only [cellStep]; by_cases hv : v = w
    · rw [if_pos hv]
    · rw [if_neg hv]
  have hI : ∀ v, (cellStep E (Op.remove (Rand := Rand) w i) v).nIns = (E v).nIns := by
    intro v; simp only [cellStep]; by_cases hv : v = w
    · rw [if_pos hv]
    · rw [if_neg hv]
  constructor
  · exact hn
  · intro v; rw [hE]; have := h.epoch v; omega
  · intro v; rw [hI]; have := h.ins v; omega
  · intro v
    simp only [cellStep]
    have := h.del v
    by_cases hv : v = w
    · rw [if_pos hv]; simp only; omega
    · rw [if_neg hv]; omega
  · intro v; rw [hE]; exact h.search v
  · intro v; rw [hE, hI]; exact h.insCur v
  · intro v
    rw [hE]
    simp only [cellStep]
    by_cases hv : v = w
    · subst hv
      rw [if_pos rfl, Map.put_self]
      exact counterOf_succ _
    · rw [if_neg hv, Map.put_of_ne _ _ (fun e => hv (metaNat_inj (hep _) (hep _) e).1)]
      exact h.delCur v
  · intro v e he he2; rw [hE] at he; exact h.insNext v e he he2
  · intro v e he he2
    rw [hE] at he
    rw [Map.put_of_ne _ _ (fun e' => by
      obtain ⟨h1, h2⟩ := metaNat_inj he2 (hep _) e'
      subst h1
      omega)]
    exact h.delNext v e he he2
  · intro v e he he2; rw [hE] at he; exact h.insSame v e he he2
  · intro v e he he2
    rw [hE] at he
    simp only
    by_cases hx : metaNat v e = metaNat w (E w).epoch
    · rw [hx, Map.put_self, Map.put_self]
    · rw [Map.put_of_ne _ _ hx, Map.put_of_ne _ _ hx]
      exact h.delSame v e he he2

/-- The counters of the two Diana clients for the current epoch -/
theorem CInv.current {cl : Client} {E : Str → Cell} {mi md : Map Str UInt32} {n : Nat} (h : CInv cl E mi md n) (w : Str) :
    cl.insCtr (metaNat w (E w).epoch) = Counter.counterOf (E w).nIns ∧
    cl.delCtr (metaNat w (E w).epoch) = Counter.counterOf (E w).nDel := by
  have hep : (E w).epoch < 2 ^ 32 := by have := h.epoch w; have := h.small; omega
  exact ⟨(h.insSame w _ (Nat.le_refl _) hep).trans (h.insCur w), (h.delSame w _ (Nat.le_refl _) hep).trans (h.delCur w)⟩

theorem cinv_search (c : Crypto PK KS CT Rand) {cl : Client} {E : Str → Cell} {mi md : Map Str UInt32} {n : Nat}
    (h : CInv cl E mi md n) (hn : n + 1 < 2 ^ 32) (w : Str) :
    CInv (searchRequest c cl w).2 (cellStep E (Op.search (Rand := Rand) w)) mi md (n + 1) := by
  have hep : ∀ v, (E v).epoch < 2 ^ 32 := fun v => by have := h.epoch v; have := h.small; omega
  have hi : (Diana.searchRequest c.ins cl.insCtr (metaNat w (E w).epoch)).addCount = UInt32.ofNat (E w).nIns :=
    addCount_slots _ _ _ _ (h.current w).1 (by have := h.ins w; omega)
  have hd : (Diana.searchRequest c.del cl.delCtr (metaNat w (E w).epoch)).addCount = UInt32.ofNat (E w).nDel :=
    addCount_slots _ _ _ _ (h.current w).2 (by have := h.del w; omega)
  have hi' := ofNat_pos (n := (E w).nIns) (by have := h.ins w; omega)
  have hd' := ofNat_pos (n := (E w).nDel) (by have := h.del w; omega)
  unfold searchRequest
  simp only [h.meta w, hi, hd]
  by_cases hany : 0 < (E w).nIns ∨ 0 < (E w).nDel
  · have hcond : (decide (UInt32.ofNat (E w).nIns > 0) || decide (UInt32.ofNat (E w).nDel > 0)) = true := by
      rcases hany with h0 | h0
      · simp [hi'.mpr h0]
      · simp [hd'.mpr h0]
    rw [if_pos hcond]
    have hEw : cellStep E (Op.search (Rand := Rand) w) w = ⟨(E w).epoch + 1, 0, 0⟩ := by
      exact if_pos ⟨rfl, hany⟩
    have hEv : ∀ v, v ≠ w → cellStep E (Op.search (Rand := Rand) w) v = E v := by
      intro v hv; simp only [cellStep]; rw [if_neg (fun h => hv h.1)]
    have herase : ∀ (m : Map Str UInt32) (b : Prop) [Decidable b] (v : Str) (e : Nat),
        (cellStep E (Op.search (Rand := Rand) w) v).epoch ≤ e → e < 2 ^ 32 →
        (if b then Diana.removeKeyword m (metaNat w (E w).epoch) else m) (metaNat v e) = m (metaNat v e) := by
      intro m b _ v e he he2
      by_cases hb : b
      · rw [if_pos hb]
        unfold Diana.removeKeyword Counter.removeKey
        apply Map.erase_of_ne
        intro hx
        obtain ⟨h1, h2⟩ := metaNat_inj he2 (hep w) hx
        subst h1
        rw [hEw] at he
        simp only at he
        omega
      · rw [if_neg hb]
    have hge : ∀ v, (E v).epoch ≤ (cellStep E (Op.search (Rand := Rand) w) v).epoch := by
      intro v
      by_cases hv : v = w
      · subst hv; rw [hEw]; simp
      · rw [hEv v hv]; exact Nat.le_refl _
    constructor
    · exact hn
    · intro v
      by_cases hv : v = w
      · subst hv; rw [hEw]; have := h.epoch v; simp only; omega
      · rw [hEv v hv]; have := h.epoch v; omega
    · intro v
      by_cases hv : v = w
      · subst hv; rw [hEw]; simp
      · rw [hEv v hv]; have := h.ins v; omega
    · intro v
      by_cases hv : v = w
      · subst hv; rw [hEw]; simp
      · rw [hEv v hv]; have := h.del v; omega
    · intro v
      by_cases hv : v = w
      · subst hv
        rw [hEw]
        have hs := h.search v
        unfold searchCounter Counter.get at hs ⊢
        unfold Counter.set
        simp only [Map.put_self]
        rw [hs]
        simp [UInt32.ofNat_add]
      · rw [hEv v hv, ← h.search v]
        unfold searchCounter Counter.get Counter.set
        simp only [Map.put_of_ne _ _ hv]
    · intro v
      by_cases hv : v = w
      · subst hv; rw [hEw]; exact h.insNext v _ (Nat.lt_succ_self _) (by have := h.epoch v; simp only; omega)
      · rw [hEv v hv]; exact h.insCur v
    · intro v
      by_cases hv : v = w
      · subst hv; rw [hEw]; exact h.delNext v _ (Nat.lt_succ_self _) (by have := h.epoch v; simp only; omega)
      · rw [hEv v hv]; exact h.delCur v
    · intro v e he he2; exact h.insNext v e (Nat.lt_of_le_of_lt (hge v) he) he2
    · intro v e he he2; exact h.delNext v e (Nat.lt_of_le_of_lt (hge v) he) he2
    · intro v e he he2
      simp only
      rw [herase _ _ v e he he2]
      exact h.insSame v e (Nat.le_trans (hge v) he) he2
    · intro v e he he2
      simp only
      rw [herase _ _ v e he he2]
      exact h.delSame v e (Nat.le_trans (hge v) he) he2
  · have h1 : ¬ UInt32.ofNat (E w).nIns > 0 := fun e => hany (.inl (hi'.mp e))
    have h2 : ¬ UInt32.ofNat (E w).nDel > 0 := fun e => hany (.inr (hd'.mp e))
    rw [if_neg (by simp [h1, h2]), if_neg h1, if_neg h2]
    have hE : cellStep E (Op.search (Rand := Rand) w) = E := by
      funext v
      simp only [cellStep]
      rw [if_neg]
      rintro ⟨hv, h0⟩
      exact hany (hv ▸ h0)
    rw [hE]
    exact { h with
      small := hn
      epoch := fun v => Nat.le_succ_of_le (h.epoch v)
      ins := fun v => Nat.le_succ_of_le (h.ins v)
      del := fun v => Nat.le_succ_of_le (h.del v) }

/-! ## The messages are those of the two Diana clients -/

/-- The keyword token and the first key share of each search, and the kinds of the updates -/
def restOf (c : Crypto PK KS CT Rand) : (Str → Cell) → List (Op Rand) → List (Kind ⊕ (Vector UInt8 16 × KS))
  | _, [] => []
  | E, .insert w i r :: ops => .inl .insertion :: restOf c (cellStep E (.insert w i r)) ops
  | E, .remove w i :: ops => .inl .removal :: restOf c (cellStep E (Op.remove (Rand := Rand) w i)) ops
  | E, .search w :: ops =>
    .inr (c.kwToken w, c.initialKeyshare (c.derive (metaNat w (E w).epoch)) (UInt32.ofNat (E w).nDel)) ::
      restOf c (cellStep E (Op.search (Rand := Rand) w)) ops

theorem matchCount_slots {m : Map Str UInt32} {w : Str} {n : Nat} (h : m w = Counter.counterOf n) :
    Diana.getMatchCount m w = UInt32.ofNat (n - 1) := by
  unfold Diana.getMatchCount Counter.get
  rw [h]
  unfold Counter.counterOf
  by_cases h0 : n = 0
  · subst h0; rfl
  · rw [if_neg h0]

theorem messages_parts (c : Crypto PK KS CT Rand) (ki : Diana.Secret c.ins) (kd : Diana.Secret c.del) (ops : List (Op Rand)) :
    ∀ (cl : Client) (E : Str → Cell) (mi md : Map Str UInt32) (n : Nat), CInv cl E mi md n → n + ops.length < 2 ^ 32 →
      insPart (messages c ki kd cl ops) =
        (Diana.transcript (Diana.withSecret c.ins ki) mi (insCmds c E ops)).map Diana.content ∧
      delPart (messages c ki kd cl ops) =
        (Diana.transcript (Diana.withSecret c.del kd) md (delCmds c E ops)).map Diana.content ∧
      rest (messages c ki kd cl ops) = restOf c E ops := by
  induction ops with
  | nil => intro cl E mi md n _ _; exact ⟨rfl, rfl, rfl⟩
  | cons o ops ih =>
    intro cl E mi md n h hn
    simp only [List.length_cons] at hn
    cases o with
    | insert w i r =>
      have hmi : mi (metaNat w (E w).epoch) = Counter.counterOf (E w).nIns := h.insCur w
      have hci := (h.current w).1
      obtain ⟨h1, h2, h3⟩ := ih _ _ _ _ (n + 1) (cinv_insert h (by omega) w i r) (by omega)
      unfold messages insertionRequest Diana.insertionRequest
      simp only [h.meta w, Counter.getAndIncrement_spec _ _ _ hci]
      unfold insPart delPart rest insCmds delCmds restOf
      refine ⟨?_, h2, ?_⟩
      · unfold Diana.transcript Diana.insertionRequest
        simp only [Counter.getAndIncrement_spec _ _ _ hmi, List.map_cons]
        rw [← h1]; rfl
      · rw [← h3]
    | remove w i =>
      have hmd : md (metaNat w (E w).epoch) = Counter.counterOf (E w).nDel := h.delCur w
      have hcd := (h.current w).2
      obtain ⟨h1, h2, h3⟩ := ih _ _ _ _ (n + 1) (cinv_remove (Rand := Rand) h (by omega) w i) (by omega)
      unfold messages removalRequest removalShare Diana.insertionRequest
      simp only [h.meta w, Counter.getAndIncrement_spec _ _ _ hcd, matchCount_slots hcd]
      unfold insPart delPart rest insCmds delCmds restOf
      refine ⟨h1, ?_, ?_⟩
      · unfold Diana.transcript Diana.insertionRequest
        simp only [Counter.getAndIncrement_spec _ _ _ hmd, List.map_cons]
        rw [← h2]; rfl
      · rw [← h3]
    | search w =>
      obtain ⟨h1, h2, h3⟩ := ih _ _ _ _ (n + 1) (cinv_search (withSecrets c ki kd) h (by omega) w) (by omega)
      have hep : (E w).epoch < 2 ^ 32 := by have := h.epoch w; have := h.small; omega
      have hsi : cl.insCtr (metaNat w (E w).epoch) = mi (metaNat w (E w).epoch) := h.insSame w _ (Nat.le_refl _) hep
      have hsd : cl.delCtr (metaNat w (E w).epoch) = md (metaNat w (E w).epoch) := h.delSame w _ (Nat.le_refl _) hep
      have hd : (Diana.searchRequest (withSecrets c ki kd).del cl.delCtr (metaNat w (E w).epoch)).addCount =
          UInt32.ofNat (E w).nDel :=
        addCount_slots _ _ _ _ (h.current w).2 (by have := h.del w; omega)
      have hreqi : Diana.searchRequest (withSecrets c ki kd).ins cl.insCtr (metaNat w (E w).epoch) =
          Diana.searchRequest (Diana.withSecret c.ins ki) mi (metaNat w (E w).epoch) := by
        unfold Diana.searchRequest Counter.get
        rw [hsi]
      have hreqd : Diana.searchRequest (withSecrets c ki kd).del cl.delCtr (metaNat w (E w).epoch) =
          Diana.searchRequest (Diana.withSecret c.del kd) md (metaNat w (E w).epoch) := by
        unfold Diana.searchRequest Counter.get
        rw [hsd]
      have hr1 : (searchRequest (withSecrets c ki kd) cl w).1 =
          ⟨c.kwToken w, Diana.searchRequest (withSecrets c ki kd).ins cl.insCtr (metaNat w (E w).epoch),
            Diana.searchRequest (withSecrets c ki kd).del cl.delCtr (metaNat w (E w).epoch),
            c.initialKeyshare (c.derive (metaNat w (E w).epoch)) (UInt32.ofNat (E w).nDel)⟩ := by
        rw [← hd, ← h.meta w]
        rfl
      unfold messages
      simp only [hr1]
      unfold insPart delPart rest insCmds delCmds restOf Diana.transcript
      simp only [List.map_cons, h1, h2, h3, hreqi, hreqd]
      exact ⟨rfl, rfl, trivial⟩

/-! ## Updates after a history -/

/-- The cells after a history -/
def cells : (Str → Cell) → List (Op Rand) → Str → Cell
  | E, [] => E
  | E, o :: ops => cells (cellStep E o) ops

theorem insCmds_append (c : Crypto PK KS CT Rand) (P : List (Op Rand)) : ∀ (E : Str → Cell) (X : List (Op Rand)),
    insCmds c E (P ++ X) = insCmds c E P ++ insCmds c (cells E P) X := by
  induction P with
  | nil => intro E X; rfl
  | cons o P ih => intro E X; cases o <;> simp [insCmds, cells, ih]

theorem delCmds_append (c : Crypto PK KS CT Rand) (P : List (Op Rand)) : ∀ (E : Str → Cell) (X : List (Op Rand)),
    delCmds c E (P ++ X) = delCmds c E P ++ delCmds c (cells E P) X := by
  induction P with
  | nil => intro E X; rfl
  | cons o P ih => intro E X; cases o <;> simp [delCmds, cells, ih]

theorem restOf_append (c : Crypto PK KS CT Rand) (P : List (Op Rand)) : ∀ (E : Str → Cell) (X : List (Op Rand)),
    restOf c E (P ++ X) = restOf c E P ++ restOf c (cells E P) X := by
  induction P with
  | nil => intro E X; rfl
  | cons o P ih => intro E X; cases o <;> simp [restOf, cells, ih]

/-- The insertions of a sequence of updates, for the Diana client -/
theorem insCmds_updates (c : Crypto PK KS CT Rand) (X : List (Op Rand)) : ∀ (E : Str → Cell), (∀ o ∈ X, kind o ≠ none) →
    ∃ L : List (Str × CT), insCmds c E X = L.map (fun e => .insert e.1 e.2) ∧
      L.length = (X.map kind).count (some .insertion) := by
  induction X with
  | nil => intro E _; exact ⟨[], rfl, rfl⟩
  | cons o X ih =>
    intro E h
    obtain ⟨L, h1, h2⟩ := ih (cellStep E o) (fun x hx => h x (List.mem_cons_of_mem _ hx))
    cases o with
    | insert w i r => exact ⟨(metaNat w (E w).epoch, c.encrypt (c.derive (metaNat w (E w).epoch)) r i (docTag c w i)) :: L,
        by unfold insCmds; rw [h1]; rfl, by simp [kind, h2]⟩
    | remove w i => exact ⟨L, by unfold insCmds; rw [h1], by simp [kind, h2]⟩
    | search w => exact absurd rfl (h _ List.mem_cons_self)

theorem delCmds_updates (c : Crypto PK KS CT Rand) (X : List (Op Rand)) : ∀ (E : Str → Cell), (∀ o ∈ X, kind o ≠ none) →
    ∃ L : List (Str × KS), delCmds c E X = L.map (fun e => .insert e.1 e.2) ∧
      L.length = (X.map kind).count (some .removal) := by
  induction X with
  | nil => intro E _; exact ⟨[], rfl, rfl⟩
  | cons o X ih =>
    intro E h
    obtain ⟨L, h1, h2⟩ := ih (cellStep E o) (fun x hx => h x (List.mem_cons_of_mem _ hx))
    cases o with
    | insert w i r => exact ⟨L, by unfold delCmds; rw [h1], by simp [kind, h2]⟩
    | remove w i => exact ⟨(metaNat w (E w).epoch, c.incPuncture (c.derive (metaNat w (E w).epoch))
        (UInt32.ofNat ((E w).nDel - 1) + 1) (docTag c w i)) :: L, by unfold delCmds; rw [h1]; rfl, by simp [kind, h2]⟩
    | search w => exact absurd rfl (h _ List.mem_cons_self)

theorem restOf_updates (c : Crypto PK KS CT Rand) (X : List (Op Rand)) : ∀ (E E' : Str → Cell) (Y : List (Op Rand)),
    (∀ o ∈ X, kind o ≠ none) → X.map kind = Y.map kind → restOf c E X = restOf c E' Y := by
  induction X with
  | nil =>
    intro E E' Y _ h
    cases Y with
    | nil => rfl
    | cons y Y => simp at h
  | cons x X ih =>
    intro E E' Y hx h
    cases Y with
    | nil => simp at h
    | cons y Y =>
      simp only [List.map_cons, List.cons.injEq] at h
      have := ih (cellStep E x) (cellStep E' y) Y (fun o ho => hx o (List.mem_cons_of_mem _ ho)) h.2
      cases x <;> cases y <;> simp [kind] at h <;> simp [restOf, this]
      exact absurd rfl (hx _ List.mem_cons_self)

theorem insCmds_length (c : Crypto PK KS CT Rand) (P : List (Op Rand)) : ∀ E, (insCmds c E P).length ≤ P.length := by
  induction P with
  | nil => intro E; simp [insCmds]
  | cons o P ih =>
    intro E
    have := ih (cellStep E o)
    cases o <;> simp [insCmds] <;> omega

theorem delCmds_length (c : Crypto PK KS CT Rand) (P : List (Op Rand)) : ∀ E, (delCmds c E P).length ≤ P.length := by
  induction P with
  | nil => intro E; simp [delCmds]
  | cons o P ih =>
    intro E
    have := ih (cellStep E o)
    cases o <;> simp [delCmds] <;> omega

theorem count_le_length {V : Type} (w : Str) (H : List (Cmd Str V)) : count w H ≤ H.length := by
  have hle : ∀ n, (insertedFrom w n H).length ≤ H.length := by
    induction H with
    | nil => intro n; simp [insertedFrom]
    | cons o K ih =>
      intro n
      cases o with
      | insert v i =>
        unfold insertedFrom
        have := ih (n + 1)
        by_cases hv : v = w <;> simp [hv] <;> omega
      | search v =>
        unfold insertedFrom
        have := ih (n + 1)
        simp; omega
  exact hle 0

/-! ## C62 -/

/-- The Diana instance has a commutative and associative masking (the code uses the exclusive or, C39). -/
def Group {V : Type} (d : Diana.Crypto Str V) : Prop :=
  (∀ x y z, d.xor (d.xor x y) z = d.xor x (d.xor y z)) ∧ ∀ x y, d.xor x y = d.xor y x

/-- **C62** (Janus, forward privacy): after any history `P`, sequences of insertions and removals `X` and `Y` of the same kinds give
the same messages, whatever their keywords and documents, up to a permutation of the generators of the two Diana clients alone;
token and mask of the leaves below the constrained keys sent in the searches of `P` are unchanged. -/
theorem C62_janus_forward (c : Crypto PK KS CT Rand) (hgi : Group c.ins) (hgd : Group c.del) (P X Y : List (Op Rand))
    (hX : ∀ o ∈ X, kind o ≠ none) (hkind : X.map kind = Y.map kind) (hlen : P.length + X.length < 2 ^ 32)
    (hsi : Diana.Spec.SeedsDistinct c.ins (insCmds c noCells P)) (hsd : Diana.Spec.SeedsDistinct c.del (delCmds c noCells P)) :
    ∃ (φ : Diana.Secret c.ins → Diana.Secret c.ins) (χ : Diana.Secret c.del → Diana.Secret c.del),
      Function.Bijective φ ∧ Function.Bijective χ ∧
      (∀ k, (φ k).1 = k.1 ∧ (φ k).2.1 = k.2.1) ∧ (∀ k, (χ k).1 = k.1 ∧ (χ k).2.1 = k.2.1) ∧
      ∀ ki kd,
        Diana.Spec.LeavesDistinct (Diana.withSecret c.ins ki) (insCmds c noCells (P ++ X)) →
        Diana.Spec.LeavesDistinct (Diana.withSecret c.ins ki) (insCmds c noCells (P ++ Y)) →
        Diana.Spec.LeavesDistinct (Diana.withSecret c.del kd) (delCmds c noCells (P ++ X)) →
        Diana.Spec.LeavesDistinct (Diana.withSecret c.del kd) (delCmds c noCells (P ++ Y)) →
        messages c (φ ki) (χ kd) Client.init (P ++ X) = messages c ki kd Client.init (P ++ Y) ∧
        (∀ (n : Nat) (w : Str) (a : Nat) (leaf : Diana.Leaf), (insCmds c noCells P)[n]? = some (.search w) →
          a < count w ((insCmds c noCells P).take n) →
          c.ins.ceval (c.ins.constrain (ki.2.1 (c.ins.hash w)) 0 (count w ((insCmds c noCells P).take n) - 1)) a = some leaf →
          (φ ki).2.2.1 leaf = ki.2.2.1 leaf ∧ (φ ki).2.2.2 leaf = ki.2.2.2 leaf) ∧
        ∀ (n : Nat) (w : Str) (a : Nat) (leaf : Diana.Leaf), (delCmds c noCells P)[n]? = some (.search w) →
          a < count w ((delCmds c noCells P).take n) →
          c.del.ceval (c.del.constrain (kd.2.1 (c.del.hash w)) 0 (count w ((delCmds c noCells P).take n) - 1)) a = some leaf →
          (χ kd).2.2.1 leaf = kd.2.2.1 leaf ∧ (χ kd).2.2.2 leaf = kd.2.2.2 leaf := by
  have hY : ∀ o ∈ Y, kind o ≠ none := by
    intro o ho e
    have : kind o ∈ X.map kind := hkind ▸ List.mem_map_of_mem ho
    obtain ⟨x, hx, he⟩ := List.mem_map.mp this
    exact hX x hx (he.trans e)
  have hlY : Y.length = X.length := by
    have := congrArg List.length hkind
    simpa using this.symm
  have hfitI : ∀ Z : List (Op Rand), Z.length = X.length → Diana.Spec.CountsFit (insCmds c noCells (P ++ Z)) := by
    intro Z hZ w
    have h1 := count_le_length w (insCmds c noCells (P ++ Z))
    have h2 := insCmds_length c (P ++ Z) noCells
    simp only [List.length_append] at h2
    omega
  have hfitD : ∀ Z : List (Op Rand), Z.length = X.length → Diana.Spec.CountsFit (delCmds c noCells (P ++ Z)) := by
    intro Z hZ w
    have h1 := count_le_length w (delCmds c noCells (P ++ Z))
    have h2 := delCmds_length c (P ++ Z) noCells
    simp only [List.length_append] at h2
    omega
  obtain ⟨LX, hLX, hLXn⟩ := insCmds_updates c X (cells noCells P) hX
  obtain ⟨LY, hLY, hLYn⟩ := insCmds_updates c Y (cells noCells P) hY
  obtain ⟨MX, hMX, hMXn⟩ := delCmds_updates c X (cells noCells P) hX
  obtain ⟨MY, hMY, hMYn⟩ := delCmds_updates c Y (cells noCells P) hY
  have eIX : insCmds c noCells (P ++ X) = insCmds c noCells P ++ LX.map (fun e => .insert e.1 e.2) := by
    rw [insCmds_append, hLX]
  have eIY : insCmds c noCells (P ++ Y) = insCmds c noCells P ++ LY.map (fun e => .insert e.1 e.2) := by
    rw [insCmds_append, hLY]
  have eDX : delCmds c noCells (P ++ X) = delCmds c noCells P ++ MX.map (fun e => .insert e.1 e.2) := by
    rw [delCmds_append, hMX]
  have eDY : delCmds c noCells (P ++ Y) = delCmds c noCells P ++ MY.map (fun e => .insert e.1 e.2) := by
    rw [delCmds_append, hMY]
  obtain ⟨φ, hb, hφ⟩ := Diana.C62_diana_forward c.ins hgi.1 hgi.2 (insCmds c noCells P) LX LY (by rw [hLXn, hLYn, hkind])
    (eIX ▸ hfitI X rfl) (eIY ▸ hfitI Y hlY) hsi
  obtain ⟨χ, hb', hχ⟩ := Diana.C62_diana_forward c.del hgd.1 hgd.2 (delCmds c noCells P) MX MY (by rw [hMXn, hMYn, hkind])
    (eDX ▸ hfitD X rfl) (eDY ▸ hfitD Y hlY) hsd
  refine ⟨φ, χ, hb, hb', fun k => ⟨(hφ k).1, (hφ k).2.1⟩, fun k => ⟨(hχ k).1, (hχ k).2.1⟩, ?_⟩
  intro ki kd h1 h2 h3 h4
  rw [eIX] at h1
  rw [eIY] at h2
  rw [eDX] at h3
  rw [eDY] at h4
  obtain ⟨hmi, hli⟩ := (hφ ki).2.2 h1 h2
  obtain ⟨hmd, hld⟩ := (hχ kd).2.2 h3 h4
  refine ⟨?_, hli, hld⟩
  obtain ⟨p1, p2, p3⟩ := messages_parts c (φ ki) (χ kd) (P ++ X) _ _ _ _ 0 cinv_init (by simp; omega)
  obtain ⟨q1, q2, q3⟩ := messages_parts c ki kd (P ++ Y) _ _ _ _ 0 cinv_init (by simp; omega)
  apply msgs_ext
  · rw [p1, q1, eIX, eIY]
    exact hmi
  · rw [p2, q2, eDX, eDY]
    exact hmd
  · rw [p3, q3, restOf_append, restOf_append, restOf_updates c X _ _ Y hX hkind]

/-! ## Example -/

namespace Toy

/-- Diana as in `Toy.diana`, with masks that are exclusive ors -/
def masked : Diana.Crypto Str Tag where
  RK := Diana.Token
  CK := Diana.Token × Nat
  hash := cut
  kwToken := fun _ => Vector.replicate 32 7
  root := id
  eval := fun r i => Diana.Toy.wide (r.set 15 (UInt8.ofNat i))
  constrain := fun r _ b => (r, b)
  ceval := fun ck x => if x ≤ ck.2 then some (Diana.Toy.wide (ck.1.set 15 (UInt8.ofNat x))) else none
  maxLeaf := fun ck => ck.2
  emptyCK := (Vector.replicate 16 0, 0)
  token := Diana.Toy.narrow
  mask := Diana.Toy.narrow
  xor := fun x y => x.zipWith (· ^^^ ·) y
  xor_xor := by
    intro x y
    apply Vector.ext
    intro i hi
    simp [UInt8.xor_assoc]
  maxLeaf_constrain := by intros; rfl
  ceval_constrain := by intro r b x _ hx; simp [hx]

theorem masked_group : Group masked :=
  ⟨fun x y z => by apply Vector.ext; intro i hi; simp [masked, UInt8.xor_assoc],
    fun x y => by apply Vector.ext; intro i hi; simp [masked, UInt8.xor_comm]⟩

/-- Janus with ciphertexts and key shares that are only their tags -/
def tags : Crypto Unit Tag Tag Unit where
  ins := masked
  del := masked
  kwToken := cut
  tagPrf := cut
  derive := fun _ => ()
  initialKeyshare := fun _ d => Vector.replicate 16 (UInt8.ofNat d.toNat)
  incPuncture := fun _ _ t => t
  encrypt := fun _ _ _ t => t
  decrypt := fun _ _ => none
  ksTag := id
  ctTag := id
  ksTag_incPuncture := by intros; rfl
  ctTag_encrypt := by intros; rfl

/-- The secret functions of `masked` -/
def secret : Diana.Secret masked := (masked.kwToken, masked.root, masked.token, masked.mask)

/-- Check of `LeavesDistinct` on a given history -/
def leavesCheck (H : List (Cmd Str Tag)) : Bool :=
  (List.range H.length).all fun (m : Nat) => (List.range H.length).all fun (n : Nat) => match H[m]?, H[n]? with
    | some (.insert w _), some (.insert v _) =>
      m == n || decide (Diana.Spec.leafOf masked w (count w (H.take m)) ≠ Diana.Spec.leafOf masked v (count v (H.take n)))
    | _, _ => true

theorem leavesDistinct {H : List (Cmd Str Tag)} (h : leavesCheck H = true) : Diana.Spec.LeavesDistinct masked H := by
  rintro m n w a v b ⟨i, hi, rfl⟩ ⟨j, hj, rfl⟩ he
  have h1 := List.all_eq_true.mp h m (List.mem_range.mpr (List.getElem?_eq_some_iff.mp hi).1)
  have h2 := List.all_eq_true.mp h1 n (List.mem_range.mpr (List.getElem?_eq_some_iff.mp hj).1)
  rw [hi, hj] at h2
  by_cases hmn : m = n
  · exact hmn
  · simp [hmn] at h2
    exact absurd he h2

/-- Check of `SeedsDistinct` on a given history -/
def seedsCheck (H : List (Cmd Str Tag)) : Bool :=
  (List.range H.length).all fun (m : Nat) => (List.range H.length).all fun (n : Nat) => match H[m]?, H[n]? with
    | some (.search w), some (.search v) => decide (cut w = cut v → w = v)
    | _, _ => true

theorem seedsDistinct {H : List (Cmd Str Tag)} (h : seedsCheck H = true) : Diana.Spec.SeedsDistinct masked H := by
  intro m n w v hi hj he
  have h1 := List.all_eq_true.mp h m (List.mem_range.mpr (List.getElem?_eq_some_iff.mp hi).1)
  have h2 := List.all_eq_true.mp h1 n (List.mem_range.mpr (List.getElem?_eq_some_iff.mp hj).1)
  rw [hi, hj] at h2
  exact of_decide_eq_true h2 he

/-- Two insertions and a removal for the keyword "a", a search, and another insertion -/
def past : List (Op Unit) := [.insert [97] 5 (), .remove [97] 5, .insert [97] 6 (), .search [97], .insert [98] 7 ()]

/-- An insertion for the keyword searched before, and a removal -/
def new1 : List (Op Unit) := [.insert [97] 9 (), .remove [98] 7]

/-- The same kinds, for other keywords and documents -/
def new2 : List (Op Unit) := [.insert [99] 1 (), .remove [97] 6]

/-- The new operations give different messages with the same keys, and the same messages with suitable keys. -/
example : insPart (messages tags secret secret Client.init (past ++ new1)) ≠
      insPart (messages tags secret secret Client.init (past ++ new2)) ∧
    ∃ φ χ : Diana.Secret masked → Diana.Secret masked, Function.Bijective φ ∧ Function.Bijective χ ∧
      messages tags (φ secret) (χ secret) Client.init (past ++ new1) =
        messages tags secret secret Client.init (past ++ new2) := by
  constructor
  · intro h
    have h1 : (insPart (messages tags secret secret Client.init (past ++ new1))).map
        (fun | .update t _ => t | .search _ => Vector.replicate 16 0) =
      (insPart (messages tags secret secret Client.init (past ++ new2))).map
        (fun | .update t _ => t | .search _ => Vector.replicate 16 0) := by rw [h]
    revert h1
    decide +kernel
  · obtain ⟨φ, χ, hb, hb', -, -, h⟩ := C62_janus_forward tags masked_group masked_group past new1 new2 (by decide) (by decide)
      (by decide) (seedsDistinct (by decide +kernel)) (seedsDistinct (by decide +kernel))
    exact ⟨φ, χ, hb, hb', (h secret secret (leavesDistinct (by decide +kernel)) (leavesDistinct (by decide +kernel))
      (leavesDistinct (by decide +kernel)) (leavesDistinct (by decide +kernel))).1⟩

end Toy

end Verif.Janus
