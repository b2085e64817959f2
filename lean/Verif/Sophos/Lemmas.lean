import Verif.Sophos.Spec
import Verif.Counter.Lemmas
import Mathlib.Data.List.Induction

/-! # Helper lemmas for Sophos -/

set_option linter.unusedSectionVars false

namespace Verif.Sophos

open Verif

variable {Kw Seed ST DK : Type} [DecidableEq Kw]

/-- Number of insertions of `w`. -/
abbrev cnt (w : Kw) (H : List (Kw × Index)) : Nat := (Spec.docs w H).length

theorem docs_eq_items (w : Kw) (H : List (Kw × Index)) : Spec.docs w H = Counter.items w H := rfl

theorem docs_snoc_self (w : Kw) (i : Index) (H : List (Kw × Index)) :
    Spec.docs w (H ++ [(w, i)]) = Spec.docs w H ++ [i] := by
  simp [Spec.docs]

theorem docs_snoc_ne {w w' : Kw} (h : w' ≠ w) (i : Index) (H : List (Kw × Index)) :
    Spec.docs w (H ++ [(w', i)]) = Spec.docs w H := by
  simp [Spec.docs, h]

/-- The request for the `a`-th insertion of `w`. -/
def mkReq (c : Crypto Kw Seed ST DK) (w : Kw) (a : Nat) (i : Index) : UpdateReq :=
  { token := updateToken c w a
    index := mask i (c.prf (c.dkey (c.hash w)) (c.inv^[a] (c.gen (c.hash w))) true) }

theorem mask_mask (x : Index) (m : Token) : mask (mask x m) m = x := xorMask_xorMask _ x m

theorem requestFor_spec (c : Crypto Kw Seed ST DK) (w : Kw) (i : Index) (n : Nat) :
    requestFor c w i (UInt32.ofNat n) = mkReq c w (n % 2 ^ 32) i := by
  unfold requestFor
  have ht : (UInt32.ofNat n).toNat = n % 2 ^ 32 := by simp [UInt32.toNat_ofNat']
  have hif : (if UInt32.ofNat n = 0 then c.gen (c.hash w)
      else c.inv^[(UInt32.ofNat n).toNat] (c.gen (c.hash w)))
      = c.inv^[n % 2 ^ 32] (c.gen (c.hash w)) := by
    by_cases h0 : UInt32.ofNat n = 0
    · have : n % 2 ^ 32 = 0 := by rw [← ht, h0]; rfl
      simp [h0, this]
    · rw [if_neg h0, ht]
  simp only [hif, genUpdateTokenMasks, mkReq, updateToken]

/-- The client is the counter assignment followed by the construction of the requests. -/
theorem clientRun_eq_assign (c : Crypto Kw Seed ST DK) (m : Map Kw UInt32)
    (H : List (Kw × Index)) :
    clientRun c m H = ((Counter.assign m H).1.map (fun e => requestFor c e.1 e.2.1 e.2.2),
      (Counter.assign m H).2) := by
  induction H generalizing m with
  | nil => rfl
  | cons e H ih =>
    obtain ⟨w, i⟩ := e
    simp only [clientRun, Counter.assign, insertionRequest, ih, List.map_cons]

theorem clientRun_countersOk (c : Crypto Kw Seed ST DK) (H : List (Kw × Index)) :
    Counter.CountersOk (clientRun c Map.empty H).2 H := by
  rw [clientRun_eq_assign]
  simpa using Counter.assign_countersOk (α := Index) Counter.countersOk_empty H

theorem clientRun_length (c : Crypto Kw Seed ST DK) (H : List (Kw × Index)) :
    (clientRun c Map.empty H).1.length = H.length := by
  rw [clientRun_eq_assign]; simp [Counter.assign_length]

/-- The requests of history `H`, in closed form. -/
theorem clientRun_get (c : Crypto Kw Seed ST DK) (H P : List (Kw × Index)) (w : Kw) (i : Index)
    (Q : List (Kw × Index)) (hH : H = P ++ (w, i) :: Q) :
    (clientRun c Map.empty H).1[P.length]? = some (mkReq c w (cnt w P % 2 ^ 32) i) := by
  rw [clientRun_eq_assign]
  simp only [List.getElem?_map, Counter.assign_get H P w i Q hH, Option.map_some,
    requestFor_spec]
  rfl

theorem searchCallbackLoop_eq (c : Crypto Kw Seed ST DK) (edb : Edb) (k : DK) (n : Nat) (st : ST)
    (acc : List Index) :
    searchLoop c edb k n st acc = acc ++ searchCallbackLoop c edb k n st := by
  induction n generalizing st acc with
  | zero => simp [searchLoop, searchCallbackLoop]
  | succ n ih =>
    simp only [searchLoop, searchCallbackLoop]
    rw [ih]
    cases access c edb k st <;> simp

/-- The server loop visits the positions of the TDP chain in order. -/
theorem searchCallbackLoop_positions (c : Crypto Kw Seed ST DK) (edb : Edb) (k : DK) (n : Nat)
    (st : ST) :
    searchCallbackLoop c edb k n st =
      (List.range n).filterMap (fun p => access c edb k (c.eval^[p] st)) := by
  induction n generalizing st with
  | zero => simp [searchCallbackLoop]
  | succ n ih =>
    rw [List.range_succ_eq_map, List.filterMap_cons, List.filterMap_map]
    simp only [searchCallbackLoop, Function.iterate_zero, id]
    rw [ih]
    have : ((fun p => access c edb k (c.eval^[p] st)) ∘ Nat.succ) =
        fun p => access c edb k (c.eval^[p] (c.eval st)) := by
      funext p; simp
    rw [this]
    cases access c edb k st <;> rfl

theorem eval_iterate_inv (c : Crypto Kw Seed ST DK) (n : Nat) (x : ST) :
    c.eval (c.inv^[n + 1] x) = c.inv^[n] x := by
  rw [Function.iterate_succ_apply', c.eval_inv]

/-- Descending chain: starting from the newest token, the loop visits the insertions from the
newest to the oldest. -/
def descend (c : Crypto Kw Seed ST DK) (edb : Edb) (w : Kw) : Nat → List Index
  | 0 => []
  | n + 1 =>
    (access c edb (c.dkey (c.hash w)) (c.inv^[n] (c.gen (c.hash w)))).toList ++ descend c edb w n

theorem searchCallbackLoop_descend (c : Crypto Kw Seed ST DK) (edb : Edb) (w : Kw) (n : Nat) :
    searchCallbackLoop c edb (c.dkey (c.hash w)) (n + 1) (c.inv^[n] (c.gen (c.hash w)))
      = descend c edb w (n + 1) := by
  induction n with
  | zero =>
    simp only [searchCallbackLoop, descend]
    split <;> simp_all
  | succ n ih =>
    have h := eval_iterate_inv c n (c.gen (c.hash w))
    rw [searchCallbackLoop, h, ih]
    conv => rhs; rw [descend]
    cases access c edb (c.dkey (c.hash w)) (c.inv^[n + 1] (c.gen (c.hash w))) <;> simp

theorem expectedDelivered_snoc (w v : Kw) (i : Index) (H : List (Kw × Index)) (D : List Nat) :
    Spec.expectedDelivered w (H ++ [(v, i)]) D =
      (if v = w ∧ H.length ∈ D then [i] else []) ++ Spec.expectedDelivered w H D := by
  unfold Spec.expectedDelivered
  rw [List.zipIdx_append]
  by_cases h : v = w ∧ H.length ∈ D
  · simp [h]
  · simp only [Nat.zero_add, List.zipIdx_singleton, List.filter_append, List.map_append,
      List.reverse_append, if_neg h, List.nil_append]
    simp [h]

/-- If the database answers correctly for every insertion of `H`, the descending chain is the
specification. -/
theorem descend_spec (c : Crypto Kw Seed ST DK) (edb : Edb) (w : Kw) (D : List Nat)
    (H : List (Kw × Index))
    (hedb : ∀ P i Q, H = P ++ (w, i) :: Q →
      edb (updateToken c w (cnt w P)) =
        if P.length ∈ D then some (mkReq c w (cnt w P) i).index else none) :
    descend c edb w (cnt w H) = Spec.expectedDelivered w H D := by
  induction H using List.reverseRecOn with
  | nil => rfl
  | append_singleton H e ih =>
    obtain ⟨v, i⟩ := e
    have ih' := ih (fun P i' Q h => hedb P i' (Q ++ [(v, i)]) (by simp [h]))
    rw [expectedDelivered_snoc, ← ih']
    by_cases hv : v = w
    · subst hv
      have h1 := hedb H i [] rfl
      have hacc : access c edb (c.dkey (c.hash v)) (c.inv^[cnt v H] (c.gen (c.hash v))) =
          if H.length ∈ D then some i else none := by
        simp only [access, genUpdateTokenMasks]
        unfold updateToken at h1
        rw [h1]
        by_cases hD : H.length ∈ D
        · simp [hD, mkReq, mask_mask]
        · simp [hD]
      have hc : cnt v (H ++ [(v, i)]) = cnt v H + 1 := by simp [cnt, docs_snoc_self]
      rw [hc, descend, hacc]
      by_cases hD : H.length ∈ D <;> simp [hD]
    · have hc : cnt w (H ++ [(v, i)]) = cnt w H := by simp [cnt, docs_snoc_ne hv]
      rw [hc]; simp [hv]

/-- Lookup after a list of deliveries. -/
theorem serverRun_lookup (edb : Edb) (rs : List UpdateReq) (r : UpdateReq)
    (h : ∀ r' ∈ rs, r'.token = r.token → r' = r) :
    serverRun edb rs r.token = if r ∈ rs then some r.index else edb r.token := by
  unfold serverRun
  induction rs using List.reverseRecOn with
  | nil => simp
  | append_singleton rs r' ih =>
    rw [List.foldl_append]
    simp only [List.foldl_cons, List.foldl_nil, serverInsert, Map.put_apply]
    rw [ih (fun x hx => h x (by simp [hx]))]
    by_cases ht : r.token = r'.token
    · have := h r' (by simp) ht.symm
      subst this; simp
    · have : r ≠ r' := fun e => ht (by rw [e])
      simp [ht, this]

theorem cnt_lt_of_prefix {H P : List (Kw × Index)} {w : Kw} {i : Index}
    {Q : List (Kw × Index)} (hH : H = P ++ (w, i) :: Q) : cnt w P < cnt w H := by
  subst hH; simp [cnt, Spec.docs]

theorem split_at (H : List (Kw × Index)) (k : Nat) (hk : k < H.length) :
    ∃ w i, H = H.take k ++ (w, i) :: H.drop (k + 1) := by
  refine ⟨H[k].1, H[k].2, ?_⟩
  conv => lhs; rw [← List.take_append_drop k H]
  rw [List.drop_eq_getElem_cons hk]

/-- For a fixed keyword the prefix count determines the position. -/
theorem cnt_position_inj {H P P' : List (Kw × Index)} {w : Kw} {i i' : Index}
    {Q Q' : List (Kw × Index)} (h : H = P ++ (w, i) :: Q) (h' : H = P' ++ (w, i') :: Q')
    (hc : cnt w P = cnt w P') : P.length = P'.length := by
  have main : ∀ {P P' : List (Kw × Index)} {i i' : Index} {Q Q' : List (Kw × Index)},
      P ++ (w, i) :: Q = P' ++ (w, i') :: Q' → P.length < P'.length → cnt w P < cnt w P' := by
    intro P P' i i' Q Q' heq hlt
    have hp : (P ++ [(w, i)]) <+: P' := by
      apply List.prefix_of_prefix_length_le (l₃ := P ++ (w, i) :: Q)
      · exact ⟨Q, by simp⟩
      · exact ⟨(w, i') :: Q', heq.symm⟩
      · simp; omega
    obtain ⟨R, rfl⟩ := hp
    simp only [cnt, Spec.docs]
    simp
  have heq : P ++ (w, i) :: Q = P' ++ (w, i') :: Q' := by rw [← h, ← h']
  rcases Nat.lt_trichotomy P.length P'.length with hl | hl | hl
  · have := main heq hl; omega
  · exact hl
  · have := main heq.symm hl; omega

theorem deliver_lookup (c : Crypto Kw Seed ST DK) (H : List (Kw × Index)) (D : List Nat)
    (hfit : Fits H) (hnc : NoCollision c H) (w : Kw) (P : List (Kw × Index)) (i : Index)
    (Q : List (Kw × Index)) (hH : H = P ++ (w, i) :: Q) :
    deliver c H D (updateToken c w (cnt w P)) =
      if P.length ∈ D then some (mkReq c w (cnt w P) i).index else none := by
  have hmod : ∀ v (P' : List (Kw × Index)) j Q', H = P' ++ (v, j) :: Q' →
      cnt v P' % 2 ^ 32 = cnt v P' := by
    intro v P' j Q' h'
    exact Nat.mod_eq_of_lt (Nat.lt_trans (cnt_lt_of_prefix h') (hfit v))
  -- a delivered request with the same token is the same position
  have hsame : ∀ k r, (clientRun c Map.empty H).1[k]? = some r →
      r.token = updateToken c w (cnt w P) → k = P.length := by
    intro k r hr ht
    have hk : k < H.length := by
      rcases List.getElem?_eq_some_iff.mp hr with ⟨hlt, _⟩
      rwa [clientRun_length] at hlt
    obtain ⟨v, j, hsplit⟩ := split_at H k hk
    have hlen : (H.take k).length = k := by simp; omega
    have hg := clientRun_get c H (H.take k) v j (H.drop (k + 1)) hsplit
    rw [hlen, hr, hmod _ _ _ _ hsplit] at hg
    have hr' : r = mkReq c v (cnt v (H.take k)) j := by simpa using hg
    subst hr'
    obtain ⟨rfl, hab⟩ := hnc v _ w _ (cnt_lt_of_prefix hsplit) (cnt_lt_of_prefix hH) ht
    have := cnt_position_inj hsplit hH hab
    omega
  have hget := clientRun_get c H P w i Q hH
  rw [hmod _ _ _ _ hH] at hget
  have key := serverRun_lookup Map.empty
    (D.filterMap (fun k => (clientRun c Map.empty H).1[k]?)) (mkReq c w (cnt w P) i) (by
      intro r' hr' ht
      obtain ⟨k, -, hk⟩ := List.mem_filterMap.mp hr'
      have hkP := hsame k r' hk ht
      rw [hkP, hget] at hk
      exact (Option.some.inj hk).symm)
  have hmem : (mkReq c w (cnt w P) i ∈
      D.filterMap (fun k => (clientRun c Map.empty H).1[k]?)) ↔ P.length ∈ D := by
    constructor
    · intro h
      obtain ⟨k, hkD, hk⟩ := List.mem_filterMap.mp h
      have hkP := hsame k _ hk rfl
      exact hkP ▸ hkD
    · intro h
      exact List.mem_filterMap.mpr ⟨_, h, hget⟩
  unfold deliver
  have htok : (mkReq c w (cnt w P) i).token = updateToken c w (cnt w P) := rfl
  rw [htok] at key
  rw [key]
  simp [hmem]

/-- The search of the server, for the request built from the counters of `H`, is the descending
chain. -/
theorem search_descend (c : Crypto Kw Seed ST DK) (g : ST × DK) (edb : Edb) (m : Map Kw UInt32)
    (H : List (Kw × Index)) (hm : Counter.CountersOk m H) (w : Kw)
    (hfit : cnt w H < 2 ^ 32) :
    search c edb (searchRequest c g m w) = descend c edb w (cnt w H) := by
  unfold search searchRequest
  have hg : Counter.get m w = Counter.counterOf (cnt w H) := hm w
  rw [hg]
  unfold Counter.counterOf
  by_cases h0 : cnt w H = 0
  · simp [h0, searchLoop, descend]
  · obtain ⟨n, hn⟩ : ∃ n, cnt w H = n + 1 := ⟨cnt w H - 1, by omega⟩
    have h1 : (UInt32.ofNat n).toNat = n := by
      simp [UInt32.toNat_ofNat']; omega
    have h2 : (UInt32.ofNat n + 1).toNat = n + 1 := by
      rw [UInt32.toNat_add, h1]; simp; omega
    simp only [hn, Nat.add_one_ne_zero, if_false, Nat.add_sub_cancel, h1, h2]
    rw [searchCallbackLoop_eq, List.nil_append, searchCallbackLoop_descend]

theorem expectedDelivered_all (w : Kw) (H : List (Kw × Index)) (D : List Nat)
    (hD : ∀ k, k < H.length → k ∈ D) : Spec.expectedDelivered w H D = Spec.expected w H := by
  induction H using List.reverseRecOn with
  | nil => rfl
  | append_singleton H e ih =>
    obtain ⟨v, i⟩ := e
    rw [expectedDelivered_snoc, ih (fun k hk => hD k (by simp; omega))]
    have h1 : H.length ∈ D := hD _ (by simp)
    unfold Spec.expected
    by_cases hv : v = w
    · subst hv; simp [h1, docs_snoc_self]
    · simp [hv, docs_snoc_ne hv]

theorem filterMap_range_getElem? {β : Type} (l : List β) :
    (List.range l.length).filterMap (fun k => l[k]?) = l := by
  induction l using List.reverseRecOn with
  | nil => rfl
  | append_singleton l x ih =>
    rw [List.length_append, List.length_singleton, List.range_succ, List.filterMap_append]
    congr 1
    · conv => rhs; rw [← ih]
      apply List.filterMap_congr
      intro k hk
      rw [List.getElem?_append_left (List.mem_range.mp hk)]
    · simp

end Verif.Sophos
