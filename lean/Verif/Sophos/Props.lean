import Verif.Sophos.Lemmas

/-!
# Sophos: C01, C04, C05, C06
-/

set_option linter.unusedSectionVars false

namespace Verif.Sophos

open Verif

variable {Kw Seed ST DK : Type} [DecidableEq Kw]

/-! ## A concrete instance, used in the examples -/

namespace Toy

/-- A toy instance: search tokens are 64-bit words, the permutation subtracts one. -/
def crypto : Crypto Bool Bool UInt64 Bool where
  hash := id
  gen := fun _ => 0
  dkey := id
  eval := fun x => x - 1
  inv := fun x => x + 1
  prf := fun k st tag =>
    Vector.ofFn fun j => if j.val = 0 then (if k then 1 else 0) else
      if j.val = 1 then (if tag then 1 else 0) else UInt8.ofNat st.toNat
  eval_inv := by intro x; simp

theorem inv_iterate (a : Nat) (x : UInt64) : crypto.inv^[a] x = x + UInt64.ofNat a := by
  induction a with
  | zero => simp
  | succ a ih =>
    rw [Function.iterate_succ_apply', ih]
    simp [crypto, UInt64.ofNat_add, UInt64.add_assoc]

theorem noCollision (H : List (Bool × Index)) (h : ∀ w, (Spec.docs w H).length ≤ 256) :
    NoCollision crypto H := by
  intro w a v b ha hb heq
  have ha' := h w
  have hb' := h v
  simp only [updateToken, inv_iterate] at heq
  have h0 := congrArg (fun t : Token => t[0]) heq
  have h2 := congrArg (fun t : Token => t[2]) heq
  simp [crypto] at h0 h2
  constructor
  · cases w <;> cases v <;> simp_all
  · have := congrArg UInt8.toNat h2
    simp at this
    omega

/-- A history over two keywords with repeated documents. -/
def H : List (Bool × Index) := [(true, 5), (false, 7), (true, 5), (true, 9)]

theorem H_noCollision : NoCollision crypto H := noCollision H (by decide)

theorem H_fits : Fits H := by intro w; cases w <;> decide

end Toy

/-! ## C04 -/

/-- **C04**: whatever part of the updates of a client reaches the server, in whatever order and
with whatever duplications, a search returns exactly the documents whose updates were delivered,
newest first. -/
theorem C04_search_delivered (c : Crypto Kw Seed ST DK) (garbage : ST × DK)
    (H : List (Kw × Index)) (D : List Nat) (hfit : Fits H) (hnc : NoCollision c H) (w : Kw) :
    search c (deliver c H D) (searchRequest c garbage (clientRun c Map.empty H).2 w) =
      Spec.expectedDelivered w H D := by
  rw [search_descend c garbage (deliver c H D) _ H (clientRun_countersOk c H) w (hfit w)]
  apply descend_spec
  intro P i Q hH
  exact deliver_lookup c H D hfit hnc w P i Q hH

/-- **C04**, second half: the result depends only on the set of delivered updates. -/
theorem C04_order_and_duplication_irrelevant (c : Crypto Kw Seed ST DK) (garbage : ST × DK)
    (H : List (Kw × Index)) (D D' : List Nat) (hfit : Fits H) (hnc : NoCollision c H) (w : Kw)
    (hDD : ∀ k, k ∈ D ↔ k ∈ D') :
    search c (deliver c H D) (searchRequest c garbage (clientRun c Map.empty H).2 w) =
      search c (deliver c H D') (searchRequest c garbage (clientRun c Map.empty H).2 w) := by
  rw [C04_search_delivered c garbage H D hfit hnc, C04_search_delivered c garbage H D' hfit hnc]
  simp [Spec.expectedDelivered, hDD]

/-- Losing an update does not affect other keywords. -/
theorem C04_other_keywords_unaffected (c : Crypto Kw Seed ST DK) (garbage : ST × DK)
    (H : List (Kw × Index)) (D : List Nat) (hfit : Fits H) (hnc : NoCollision c H) (w : Kw)
    (hD : ∀ k e, H[k]? = some e → e.1 = w → k ∈ D) :
    search c (deliver c H D) (searchRequest c garbage (clientRun c Map.empty H).2 w) =
      Spec.expected w H := by
  rw [C04_search_delivered c garbage H D hfit hnc,
    ← expectedDelivered_all w H (List.range H.length) (fun k hk => List.mem_range.mpr hk)]
  unfold Spec.expectedDelivered
  congr 2
  apply List.filter_congr
  rintro ⟨e, k⟩ hk
  have hk' := List.mem_zipIdx_iff_getElem?.mp hk
  have hlt : k < H.length := by
    rcases List.getElem?_eq_some_iff.mp hk' with ⟨h, _⟩; exact h
  simp only [List.mem_range, hlt, and_true, decide_eq_decide]
  constructor
  · exact fun h => h.1
  · exact fun h => ⟨h, hD k e hk' h⟩

/-- Non-vacuity of C04: update 2 is lost, update 0 is delivered twice and late. -/
example : search Toy.crypto (deliver Toy.crypto Toy.H [3, 0, 1, 0])
    (searchRequest Toy.crypto (0, false) (clientRun Toy.crypto Map.empty Toy.H).2 true)
    = [9, 5] := by
  rw [C04_search_delivered _ _ _ _ Toy.H_fits Toy.H_noCollision]
  decide

/-! ## C01 -/

/-- The invariant of a system running histories of operations. -/
structure SysInv (c : Crypto Kw Seed ST DK) (s : Sys Kw) (G : List (Kw × Index)) : Prop where
  counters : s.counters = (clientRun c Map.empty G).2
  edb : s.edb = deliver c G (List.range G.length)

theorem sysInv_init (c : Crypto Kw Seed ST DK) : SysInv c Sys.init [] := ⟨rfl, rfl⟩

theorem sysInv_insert (c : Crypto Kw Seed ST DK) (g : ST × DK) (s : Sys Kw)
    (G : List (Kw × Index)) (h : SysInv c s G) (w : Kw) (i : Index) :
    SysInv c (step c g s (.insert w i)).1 (G ++ [(w, i)]) := by
  have hr : (clientRun c Map.empty (G ++ [(w, i)])) =
      ((clientRun c Map.empty G).1 ++ [(insertionRequest c s.counters w i).1],
        (insertionRequest c s.counters w i).2) := by
    rw [clientRun_eq_assign, clientRun_eq_assign, Counter.assign_append, h.counters,
      clientRun_eq_assign]
    simp [Counter.assign, insertionRequest]
  constructor
  · rw [hr]; simp [step]
  · have hl := clientRun_length c G
    have hl' := clientRun_length c (G ++ [(w, i)])
    have e1 : deliver c (G ++ [(w, i)]) (List.range (G ++ [(w, i)]).length) =
        serverRun Map.empty (clientRun c Map.empty (G ++ [(w, i)])).1 := by
      unfold deliver; rw [← hl', filterMap_range_getElem?]
    have e2 : deliver c G (List.range G.length) =
        serverRun Map.empty (clientRun c Map.empty G).1 := by
      unfold deliver; rw [← hl, filterMap_range_getElem?]
    rw [e1, hr]
    simp only [step, h.edb, e2, serverRun, List.foldl_append, List.foldl_cons, List.foldl_nil]

/-- **C01**: for every history of insertions and searches, the search results are those of the
abstract multimap: exactly the inserted documents, with multiplicity, newest first. -/
theorem C01_search_exact (c : Crypto Kw Seed ST DK) (garbage : ST × DK) (ops : List (Op Kw))
    (hfit : Fits (Spec.insertions ops)) (hnc : NoCollision c (Spec.insertions ops)) :
    (run c garbage Sys.init ops).2 = Spec.run [] ops := by
  have main : ∀ (ops : List (Op Kw)) (s : Sys Kw) (G : List (Kw × Index)), SysInv c s G →
      Fits (G ++ Spec.insertions ops) → NoCollision c (G ++ Spec.insertions ops) →
      (run c garbage s ops).2 = Spec.run G ops := by
    intro ops
    induction ops with
    | nil => intro s G _ _ _; rfl
    | cons op ops ih =>
      intro s G hs hf hn
      cases op with
      | insert w i =>
        have := ih (step c garbage s (.insert w i)).1 (G ++ [(w, i)])
          (sysInv_insert c garbage s G hs w i)
          (by simpa [Spec.insertions] using hf) (by simpa [Spec.insertions] using hn)
        simp only [run, Spec.run, ← this]
        simp [step]
      | search w =>
        have hG : ∀ v, cnt v G ≤ cnt v (G ++ Spec.insertions (.search w :: ops)) := by
          intro v; simp [cnt, Spec.docs]
        have hfG : Fits G := fun v => Nat.lt_of_le_of_lt (hG v) (hf v)
        have hnG : NoCollision c G := fun v a u b ha hb h =>
          hn v a u b (Nat.lt_of_lt_of_le ha (hG v)) (Nat.lt_of_lt_of_le hb (hG u)) h
        have hout : search c s.edb (searchRequest c garbage s.counters w) = Spec.expected w G := by
          rw [hs.edb, hs.counters, C04_search_delivered c garbage G _ hfG hnG w]
          exact expectedDelivered_all w G _ (fun k hk => List.mem_range.mpr hk)
        have := ih s G hs (by simpa [Spec.insertions] using hf)
          (by simpa [Spec.insertions] using hn)
        simp only [run, step, Spec.run, hout, this]
        simp
  exact main ops Sys.init [] (sysInv_init c) (by simpa using hfit) (by simpa using hnc)

/-- **C01**: a keyword that was never inserted has an empty result, whatever the server holds. -/
theorem C01_unknown_keyword (c : Crypto Kw Seed ST DK) (garbage : ST × DK)
    (H : List (Kw × Index)) (edb : Edb) (w : Kw) (hw : ∀ e ∈ H, e.1 ≠ w) :
    search c edb (searchRequest c garbage (clientRun c Map.empty H).2 w) = [] := by
  have h0 : cnt w H = 0 := by
    simp only [cnt, Spec.docs, List.length_map, List.length_eq_zero_iff, List.filter_eq_nil_iff]
    intro e he; simpa using hw e he
  rw [search_descend c garbage edb _ H (clientRun_countersOk c H) w (by omega), h0]
  rfl

/-- **C01**: a search changes neither the client nor the server. -/
theorem C01_search_readonly (c : Crypto Kw Seed ST DK) (garbage : ST × DK) (s : Sys Kw) (w : Kw) :
    (step c garbage s (.search w)).1 = s := rfl

/-- Non-vacuity of C01. -/
example : (run Toy.crypto (0, false) Sys.init
    [.insert true 5, .search true, .insert false 7, .insert true 5, .insert true 9, .search true,
      .search false]).2 = [[5], [9, 5, 5], [7]] := by
  refine (C01_search_exact _ _ _ ?_ ?_).trans (by decide)
  · exact Toy.H_fits
  · exact Toy.H_noCollision

/-! ## C05 -/

/-- **C05 (part that holds)**: below 2^32 insertions per keyword, two different insertions of a
history have different update tokens.  Missing: the statement without the bound, which is false,
see `C05_token_repeats_violated`. -/
theorem C05_tokens_distinct_partial (c : Crypto Kw Seed ST DK) (H : List (Kw × Index))
    (hfit : Fits H) (hnc : NoCollision c H) :
    ((clientRun c Map.empty H).1.map (·.token)).Nodup := by
  rw [List.nodup_iff_pairwise_ne, List.pairwise_iff_getElem]
  intro j k hj0 hk0 hjk
  have hk : k < H.length := by simpa [clientRun_length] using hk0
  obtain ⟨w, i, hj⟩ := split_at H j (by omega)
  obtain ⟨v, l, hk'⟩ := split_at H k hk
  have gj := clientRun_get c H _ w i _ hj
  have gk := clientRun_get c H _ v l _ hk'
  have ej : (H.take j).length = j := by simp; omega
  have ek : (H.take k).length = k := by simp; omega
  rw [ej, Nat.mod_eq_of_lt (Nat.lt_trans (cnt_lt_of_prefix hj) (hfit w))] at gj
  rw [ek, Nat.mod_eq_of_lt (Nat.lt_trans (cnt_lt_of_prefix hk') (hfit v))] at gk
  simp only [List.getElem_map, (List.getElem?_eq_some_iff.mp gj).2,
    (List.getElem?_eq_some_iff.mp gk).2]
  intro h
  obtain ⟨rfl, hab⟩ := hnc w _ v _ (cnt_lt_of_prefix hj) (cnt_lt_of_prefix hk') h
  have := cnt_position_inj hj hk' hab
  omega

/-- Exact description of the tokens: the `k`-th insertion uses the chain element numbered by the
number of earlier insertions of its keyword, modulo 2^32. -/
theorem C05_token_closed_form (c : Crypto Kw Seed ST DK) (H P : List (Kw × Index)) (w : Kw)
    (i : Index) (Q : List (Kw × Index)) (hH : H = P ++ (w, i) :: Q) :
    ((clientRun c Map.empty H).1[P.length]?).map (·.token) =
      some (updateToken c w ((Spec.docs w P).length % 2 ^ 32)) := by
  rw [clientRun_get c H P w i Q hH]; rfl

theorem docs_replicate (w : Kw) (i : Index) (n : Nat) :
    Spec.docs w (List.replicate n (w, i)) = List.replicate n i := by
  induction n with
  | zero => rfl
  | succ n ih => rw [List.replicate_succ', docs_snoc_self, ih, ← List.replicate_succ']

/-- **C05 is violated**: insertion number 2^32 of a keyword reuses the update token of insertion
number 0, whatever the cryptography, and so overwrites its entry. -/
theorem C05_token_repeats_violated (c : Crypto Kw Seed ST DK) (w : Kw) (i j : Index) :
    let H := List.replicate (2 ^ 32) (w, i) ++ [(w, j)]
    ((clientRun c Map.empty H).1[2 ^ 32]?).map (·.token) =
      ((clientRun c Map.empty H).1[0]?).map (·.token) := by
  intro H
  have h1 := C05_token_closed_form c H (List.replicate (2 ^ 32) (w, i)) w j [] rfl
  have h0 := C05_token_closed_form c H [] w i (List.replicate (2 ^ 32 - 1) (w, i) ++ [(w, j)]) (by
    show List.replicate (2 ^ 32) (w, i) ++ [(w, j)] = _
    have : (2 : Nat) ^ 32 = (2 ^ 32 - 1) + 1 := by decide
    conv => lhs; rw [this, List.replicate_succ]
    rfl)
  rw [docs_replicate, List.length_replicate] at h1
  rw [List.length_replicate] at h1
  rw [List.length_nil] at h0
  rw [h1, h0]
  rfl

/-- **C05 is violated**, seen by the user: after exactly 2^32 insertions of a keyword (or any
positive multiple of it) the search returns nothing at all. -/
theorem C05_search_empty_after_wrap_violated (c : Crypto Kw Seed ST DK) (g : ST × DK) (w : Kw)
    (i : Index) (edb : Edb) (N : Nat) (hN : 0 < N) (hmod : N % 2 ^ 32 = 0) :
    search c edb (searchRequest c g
      (clientRun c Map.empty (List.replicate N (w, i))).2 w) = [] := by
  have hm := clientRun_countersOk c (List.replicate N (w, i)) w
  have hl : Counter.cnt w (List.replicate N (w, i)) = N := by
    have := congrArg List.length (docs_replicate w i N)
    rw [List.length_replicate] at this
    exact this
  rw [hl] at hm
  have hval : (UInt32.ofNat (N - 1) + 1).toNat = 0 := by
    rw [UInt32.toNat_add, UInt32.toNat_ofNat']
    simp; omega
  have hne : N ≠ 0 := by omega
  unfold search searchRequest Counter.get
  rw [hm]
  simp [Counter.counterOf, hne, hval, searchLoop]

example : (0 : Nat) < 2 ^ 32 ∧ (2 : Nat) ^ 32 % 2 ^ 32 = 0 := by decide

/-- Non-vacuity of the partial theorem. -/
example : ((clientRun Toy.crypto Map.empty Toy.H).1.map (·.token)).Nodup :=
  C05_tokens_distinct_partial _ _ Toy.H_fits Toy.H_noCollision

/-! ## C06 -/

/-- The server after receiving the updates emitted by concurrent client threads. -/
def concurrentEdb (c : Crypto Kw Seed ST DK) (s : Counter.Sys Kw Index) : Edb :=
  serverRun Map.empty (s.emitted.map (fun e => requestFor c e.1 e.2.1 e.2.2))

/-- **C06 (part that holds)**: if no two threads insert under the same keyword (as
`load_inverted_index` does for an index without repeated keyword), then in every schedule every
insertion is found, in the order of its thread.  Missing: threads sharing a keyword, for which the
claim is false, see `C06_lost_insertion_violated`. -/
theorem C06_concurrent_disjoint_partial (c : Crypto Kw Seed ST DK) (garbage : ST × DK)
    (Ls : List (List (Kw × Index))) (hd : Counter.Disjoint Ls)
    (hfit : Fits Ls.flatten) (hnc : NoCollision c Ls.flatten)
    (s : Counter.Sys Kw Index) (hs : Counter.Reachable Ls s) (hdone : s.Done)
    (L : List (Kw × Index)) (hL : L ∈ Ls) (w : Kw) (hw : w ∈ L.map (·.1)) :
    search c (concurrentEdb c s) (searchRequest c garbage s.counters w) = Spec.expected w L := by
  obtain ⟨H, hcnt, hem, hperm, hitems⟩ := Counter.done_sequential hd hs hdone
  have hlen : ∀ v, (Spec.docs v H).length = (Spec.docs v Ls.flatten).length := by
    intro v
    exact ((hperm.filter _).map _).length_eq
  have hfitH : Fits H := fun v => by rw [hlen]; exact hfit v
  have hncH : NoCollision c H := fun v a u b ha hb h =>
    hnc v a u b (by rwa [← hlen]) (by rwa [← hlen]) h
  have hcm : s.counters = (clientRun c Map.empty H).2 := by
    apply Map.ext; intro v
    rw [hcnt v, clientRun_countersOk c H v]
  have hedb : concurrentEdb c s = deliver c H (List.range H.length) := by
    unfold concurrentEdb deliver
    rw [← clientRun_length c H, filterMap_range_getElem?, clientRun_eq_assign, hem]
  rw [hcm, hedb, C04_search_delivered c garbage H _ hfitH hncH w,
    expectedDelivered_all w H _ (fun k hk => List.mem_range.mpr hk)]
  unfold Spec.expected
  rw [docs_eq_items, docs_eq_items, hitems L hL w hw]

/-- **C06 is violated**: two threads inserting documents `i` and `j` under one keyword; both
insertions succeed, all updates are delivered, and a search finds only one of them — for every
instantiation of the cryptography. -/
theorem C06_lost_insertion_violated (c : Crypto Kw Seed ST DK) (garbage : ST × DK) (w : Kw)
    (i j : Index) :
    ∃ s, Counter.Reachable [[(w, i)], [(w, j)]] s ∧ s.Done ∧ s.emitted.length = 2 ∧
      search c (concurrentEdb c s) (searchRequest c garbage s.counters w) = [j] := by
  let s0 : Counter.Sys Kw Index := Counter.Sys.init [[(w, i)], [(w, j)]]
  let s1 : Counter.Sys Kw Index :=
    { s0 with threads := [⟨[], some (w, i, 0)⟩, ⟨[(w, j)], none⟩] }
  let s2 : Counter.Sys Kw Index :=
    { s0 with threads := [⟨[], some (w, i, 0)⟩, ⟨[], some (w, j, 0)⟩] }
  let s3 : Counter.Sys Kw Index :=
    { counters := Map.empty.put w 0, threads := [⟨[], none⟩, ⟨[], some (w, j, 0)⟩],
      emitted := [(w, i, 0)] }
  let s4 : Counter.Sys Kw Index :=
    { counters := (Map.empty.put w 0).put w 0, threads := [⟨[], none⟩, ⟨[], none⟩],
      emitted := [(w, i, 0), (w, j, 0)] }
  have t1 : Counter.Step s0 s1 := Counter.Step.read s0 0 w i [] rfl
  have t2 : Counter.Step s1 s2 := Counter.Step.read s1 1 w j [] rfl
  have t3 : Counter.Step s2 s3 := Counter.Step.write s2 0 w i 0 [] rfl
  have t4 : Counter.Step s3 s4 := Counter.Step.write s3 1 w j 0 [] rfl
  refine ⟨s4, ?_, ?_, rfl, ?_⟩
  · exact (((Relation.ReflTransGen.single t1).tail t2).tail t3).tail t4
  · intro th hth
    simp [s4] at hth
    simp [hth]
  · have hreq : searchRequest c garbage s4.counters w =
        { token := c.gen (c.hash w), derivationKey := c.dkey (c.hash w), addCount := 1 } := by
      simp [searchRequest, Counter.get, s4]
    rw [hreq]
    have hdb : concurrentEdb c s4 (c.prf (c.dkey (c.hash w)) (c.gen (c.hash w)) false) =
        some (mask j (c.prf (c.dkey (c.hash w)) (c.gen (c.hash w)) true)) := by
      simp [concurrentEdb, s4, serverRun, serverInsert, requestFor, genUpdateTokenMasks]
    simp [search, searchLoop, access, genUpdateTokenMasks, hdb, mask_mask]

/-- Non-vacuity of the partial theorem: threads with disjoint keywords exist, and run to
completion. -/
example : Counter.Disjoint [[(true, (5 : Index)), (true, 9)], [(false, 7)]] := by
  intro t t' L L' h h' hne w hw hw'
  have : t < 2 := (List.getElem?_eq_some_iff.mp h).1
  have : t' < 2 := (List.getElem?_eq_some_iff.mp h').1
  have : (t = 0 ∧ t' = 1) ∨ (t = 1 ∧ t' = 0) := by omega
  rcases this with ⟨rfl, rfl⟩ | ⟨rfl, rfl⟩ <;> simp at h h' <;> subst h <;> subst h' <;>
    simp_all

end Verif.Sophos
