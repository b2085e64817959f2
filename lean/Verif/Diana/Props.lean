import Verif.Diana.Lemmas

/-!
# Diana: C07, C10, C11
-/

set_option linter.unusedSectionVars false

namespace Verif.Diana

open Verif

variable {Kw V : Type} [DecidableEq Kw]

/-! ## A concrete instance, used in the examples -/

namespace Toy

/-- 16 bytes starting with `a`, `b`. -/
def bytes (a b : UInt8) : Token :=
  Vector.ofFn fun j => if j.val = 0 then a else if j.val = 1 then b else 0

theorem bytes_inj {a b a' b' : UInt8} (h : bytes a b = bytes a' b') : a = a' ∧ b = b' := by
  have h0 := congrArg (fun t : Token => t[0]) h
  have h1 := congrArg (fun t : Token => t[1]) h
  simp [bytes] at h0 h1
  exact ⟨h0, h1⟩

/-- A toy instance: the leaf tokens are the position and the keyword in clear. -/
def crypto : Crypto Bool Index where
  RK := UInt8
  CK := UInt8 × Nat
  hash := fun w => bytes (if w then 1 else 0) 0
  kwToken := fun _ => Vector.replicate 32 7
  root := fun t => t[0]
  eval := fun r i => wide (bytes r (UInt8.ofNat i))
  constrain := fun r _ b => (r, b)
  ceval := fun ck x => if x ≤ ck.2 then some (wide (bytes ck.1 (UInt8.ofNat x))) else none
  maxLeaf := fun ck => ck.2
  emptyCK := (0, 0)
  token := narrow
  mask := fun l => (byte64 l[1]) + 3
  xor := fun x m => x ^^^ m
  xor_xor := by intro x m; rw [BitVec.xor_assoc, BitVec.xor_self, BitVec.xor_zero]
  maxLeaf_constrain := by intros; rfl
  ceval_constrain := by intro r b x _ hx; simp [hx]

theorem noCollision (B : Bool → Nat) (h : ∀ w, B w ≤ 256) : NoCollision crypto B := by
  intro w a v b ha hb heq
  have h1 := h w
  have h2 := h v
  have heq' : bytes (crypto.root (crypto.hash w)) (UInt8.ofNat a) =
      bytes (crypto.root (crypto.hash v)) (UInt8.ofNat b) := by
    have h := heq
    simp only [updateToken, show crypto.token = narrow from rfl,
      show ∀ r i, crypto.eval r i = wide (bytes r (UInt8.ofNat i)) from fun _ _ => rfl, narrow_wide] at h
    exact h
  obtain ⟨e1, e2⟩ := bytes_inj heq'
  constructor
  · have e1' : (if w then (1 : UInt8) else 0) = (if v then 1 else 0) := by
      simpa [crypto, bytes] using e1
    revert e1'; cases w <;> cases v <;> decide
  · have := congrArg UInt8.toNat e2
    simp at this
    omega

end Toy

/-! ## C07 -/

/-- **C07**: for every history of operations, Diana answers like the abstract multimap: every
search returns exactly what was inserted under the keyword, in insertion order.  (The histories
also contain lost updates and deleting searches, see C11.) -/
theorem C07_histories (c : Crypto Kw V) (ops : List (Op Kw V))
    (hfit : ∀ w, Spec.insertions w ops < 2 ^ 32)
    (hnc : NoCollision c (fun w => Spec.insertions w ops)) :
    ∃ s', run c Sys.init ops = some (s', Spec.run Spec.empty ops) := by
  obtain ⟨s', h⟩ := run_refines c _ hfit hnc ops Sys.init (fun _ => []) (slotInv_init c _)
    (by intro w; simp)
  exact ⟨s', h⟩

/-- Abstract execution of insertions followed by one search. -/
theorem spec_run_inserts (H : List (Kw × V)) (w : Kw) (S : Spec.Store Kw V) :
    Spec.run S (H.map (fun e => Op.insert e.1 e.2) ++ [Op.search w]) = [S w ++ Spec.docs w H] := by
  induction H generalizing S with
  | nil => simp [Spec.run, Spec.docs]
  | cons e H ih =>
    simp only [List.map_cons, List.cons_append, Spec.run, ih]
    by_cases h : w = e.1
    · simp [Spec.Store.set, Spec.docs, h]
    · simp [Spec.Store.set, Spec.docs, h, Ne.symm h]

theorem insertions_inserts (H : List (Kw × V)) (w v : Kw) :
    Spec.insertions v (H.map (fun e => Op.insert e.1 e.2) ++ [Op.search w]) =
      (Spec.docs v H).length := by
  induction H with
  | nil => rfl
  | cons e H ih =>
    simp only [List.map_cons, List.cons_append, Spec.insertions, ih]
    by_cases h : e.1 = v
    · simp [Spec.docs, h]; omega
    · simp [Spec.docs, h]

/-- **C07**: after the insertions `H`, a search for `w` returns the documents inserted under `w`, in
insertion order. -/
theorem C07_search_exact (c : Crypto Kw V) (H : List (Kw × V)) (w : Kw)
    (hfit : ∀ v, (Spec.docs v H).length < 2 ^ 32)
    (hnc : NoCollision c (fun v => (Spec.docs v H).length)) :
    ∃ s', run c Sys.init (H.map (fun e => Op.insert e.1 e.2) ++ [Op.search w]) =
      some (s', [Spec.docs w H]) := by
  have hi := insertions_inserts H w
  obtain ⟨s', h⟩ := C07_histories c (H.map (fun e => Op.insert e.1 e.2) ++ [Op.search w])
    (by intro v; rw [hi]; exact hfit v) (by simpa only [hi] using hnc)
  refine ⟨s', ?_⟩
  rw [h, spec_run_inserts]
  rfl

/-- **C07**: a keyword never inserted returns the empty list, whatever the server holds. -/
theorem C07_unknown_keyword (c : Crypto Kw V) (m : Map Kw UInt32) (edb : Edb V) (w : Kw)
    (h : m w = none) (del : Bool) : search c edb (searchRequest c m w) del = some ([], edb) := by
  have : searchRequest c m w = ⟨Vector.replicate 32 0, c.emptyCK, 0⟩ := by
    simp [searchRequest, Counter.get, h]
  rw [this]; simp [search]

/-- **C07**: a search without deletion changes nothing. -/
theorem C07_readonly (c : Crypto Kw V) (s s' : Sys Kw V) (w : Kw) (out : Option (List V))
    (h : step c s (.search w) = some (s', out)) : s' = s := by
  simp only [step, search] at h
  split at h
  · simp at h; rw [← h.1]
  · rw [Option.map_map] at h
    cases he : evalRange c (searchRequest c s.counters w).rcprf 0
      (c.maxLeaf (searchRequest c s.counters w).rcprf) with
    | none => rw [he] at h; cases h
    | some l =>
      rw [he] at h
      simp only [Option.map_some, Function.comp, searchLoop_keep, Option.some.injEq,
        Prod.mk.injEq] at h
      rw [← h.1]

/-- Non-vacuity of C07. -/
example : ∃ s', run Toy.crypto Sys.init
    ([(true, 5), (false, 7), (true, 5), (true, 9)].map (fun e => Op.insert e.1 e.2) ++
      [Op.search true]) = some (s', [[5, 5, 9]]) :=
  C07_search_exact Toy.crypto [(true, 5), (false, 7), (true, 5), (true, 9)] true
    (by intro v; cases v <;> decide) (Toy.noCollision _ (by intro v; cases v <;> decide))

/-! ## C10 -/

theorem getCounters_eq (m : Map Kw UInt32) (L : List (Kw × V)) (res : List (Kw × V × UInt32)) :
    getCountersAndIncrement m L res = (res ++ (Counter.assign m L).1, (Counter.assign m L).2) := by
  induction L generalizing m res with
  | nil => simp [getCountersAndIncrement, Counter.assign]
  | cons e L ih =>
    obtain ⟨w, i⟩ := e
    simp [getCountersAndIncrement, Counter.assign, ih]

theorem foldl_snoc {α β : Type} (f : α → β) (l : List α) (acc : List β) :
    l.foldl (fun r e => r ++ [f e]) acc = acc ++ l.map f := by
  induction l generalizing acc with
  | nil => simp
  | cons a l ih => simp [ih]

/-- **C10**: a bulk insertion yields exactly the requests, in the same order, and the same client
state as the insertions done one by one, for all lists and all client states. -/
theorem C10_bulk_eq_one_by_one (c : Crypto Kw V) (m : Map Kw UInt32) (L : List (Kw × V)) :
    bulkInsertionRequest c m L = clientRun c m L := by
  have hc : ∀ m, clientRun c m L =
      ((Counter.assign m L).1.map (fun e => requestFor c e.1 e.2.1 e.2.2),
        (Counter.assign m L).2) := by
    induction L with
    | nil => intro m; rfl
    | cons e L ih =>
      intro m
      obtain ⟨w, i⟩ := e
      simp only [clientRun, Counter.assign, insertionRequest, ih, List.map_cons]
  rw [hc, bulkInsertionRequest, getCounters_eq]
  simp only [List.nil_append]
  rw [foldl_snoc (fun e : Kw × V × UInt32 => requestFor c e.1 e.2.1 e.2.2)]
  rfl

/-- C10 on a batch with a repeated keyword: the requests carry the tokens numbered 3, 0, 4. -/
example : ((bulkInsertionRequest Toy.crypto (Map.empty.put true 2)
    [(true, 5), (false, 7), (true, 6)]).1.map (·.token)) =
      [updateToken Toy.crypto true 3, updateToken Toy.crypto false 0,
        updateToken Toy.crypto true 4] := by
  rw [C10_bulk_eq_one_by_one]
  decide

/-! ## C11 -/

/-- **C11**: histories with deleting searches, with or without the client forgetting the keyword,
and lost updates: the answers are those of the abstract multimap in which a deleting search
empties exactly the list of its keyword. -/
theorem C11_histories (c : Crypto Kw V) (ops : List (Op Kw V))
    (hfit : ∀ w, Spec.insertions w ops < 2 ^ 32)
    (hnc : NoCollision c (fun w => Spec.insertions w ops)) :
    (run c Sys.init ops).map (·.2) = some (Spec.run Spec.empty ops) := by
  obtain ⟨s', h⟩ := C07_histories c ops hfit hnc
  rw [h]; rfl

/-- **C11**, on the server alone: a deleting search returns what the plain search returns; the same
request then finds nothing; and no entry other than those of the `n` tokens of the request is
touched. -/
theorem C11_server (c : Crypto Kw V) (edb : Edb V) (w : Kw) (m : Map Kw UInt32) (n : Nat)
    (hm : m w = Counter.counterOf n) (hn : n < 2 ^ 32)
    (hnc : ∀ a b, a < n → b < n → updateToken c w a = updateToken c w b → a = b) :
    ∃ res edb', search c edb (searchRequest c m w) false = some (res, edb) ∧
      search c edb (searchRequest c m w) true = some (res, edb') ∧
      search c edb' (searchRequest c m w) false = some ([], edb') ∧
      ∀ k, (∀ a, a < n → k ≠ updateToken c w a) → edb' k = edb k := by
  have hnd : ((leavesOf c w n).map (fun e => c.token e.2)).Nodup := by
    rw [tokens_leavesOf]
    apply List.Nodup.map_on _ List.nodup_range
    intro a ha b hb hab
    exact hnc a b (List.mem_range.mp ha) (List.mem_range.mp hb) hab
  obtain ⟨h1, h2⟩ := searchLoop_delete c edb _ hnd
  refine ⟨(leavesOf c w n).filterMap (fun e => lookup c edb e.2),
    (searchLoop c true edb (leavesOf c w n)).2, ?_, ?_, ?_, ?_⟩
  · rw [search_request c edb m w n hm hn, searchLoop_keep]
  · rw [search_request c edb m w n hm hn, ← h1]
  · rw [search_request c _ m w n hm hn, searchLoop_keep]
    congr 2
    rw [List.filterMap_eq_nil_iff]
    intro e he
    simp only [lookup, h2]
    rw [if_pos (List.mem_map.mpr ⟨e, he, rfl⟩)]
    rfl
  · intro k hk
    rw [h2, if_neg]
    rw [tokens_leavesOf, List.mem_map]
    rintro ⟨a, ha, rfl⟩
    exact hk a (List.mem_range.mp ha) rfl

/-- Non-vacuity of C11: deletion, reuse of the keyword after forgetting it, and another keyword left
alone. -/
example : (run Toy.crypto Sys.init
    [.insert true 5, .insert false 7, .insert true 6, .searchForget true, .search true,
      .insert true 8, .lost true 4, .insert true 1, .search true, .searchDelete true, .search true,
      .insert true 2, .search true, .search false]).map (·.2) =
    some [[5, 6], [], [8, 1], [8, 1], [], [2], [7]] := by
  refine (C11_histories _ _ ?_ ?_).trans (by decide)
  · intro v; cases v <;> decide
  · exact Toy.noCollision _ (by intro v; cases v <;> decide)

end Verif.Diana
