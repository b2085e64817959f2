import Verif.Runner.ForeignLemmas
import Verif.Runner.MessageProps

/-!
# C87: search messages that no client would send

A message with a count for which its key (Diana) or token (Sophos) can be evaluated is answered like any other one: the replies are the
documents stored at the positions counted, whoever made the message. The service never replies anything else, but for the zeros of the
synchronous search of Diana.

**Violated**: the count is not bound to the key, so that a search message of a client, sent once more with a larger count, makes a thread
of the server throw, and the process of the server is terminated (`C87_diana_replay_violated`). The same holds in Sophos for a token that the
library refuses, if it refuses any (`C87_sophos_refused_violated`); the client itself sends such a token when it searches for an unknown
keyword (`C87_sophos_unknown_violated`).
-/

namespace Verif.Runner.Foreign

variable {Kw Seed ST DK : Type}

/-! ## Diana -/

/-- **C87 (part that holds)**, Diana: if the key can be evaluated at the positions counted, the search ends, and the replies are the
documents stored there; a synchronous search has a reply for each position, 0 if there is no document. Missing: keys which
cannot be evaluated, see `C87_diana_uncovered_violated`; too little memory, see `C87_diana_memory`; machines for which the number of
threads is 0, see C46. -/
theorem C87_diana_partial (c : Diana.Crypto Kw Index) (memory hw : Nat) (edb : Diana.Edb Index) (r : Diana.SearchReq c) (async : Bool)
    (hc : Spec.covers c r.rcprf (Spec.dianaPositions c r async)) (ht : Spec.dianaThreads hw async)
    (hm : async = false → 8 * r.addCount.toNat ≤ memory) :
    (∃ o, DianaOutcome c memory hw edb r async o) ∧
    ∀ o, DianaOutcome c memory hw edb r async o → ∃ l, o = .replies l ∧
      if async then l.Perm ((List.range (Spec.dianaPositions c r async)).filterMap (Spec.dianaAt c edb r.rcprf))
      else l = (List.range r.addCount.toNat).map (fun i => (Spec.dianaAt c edb r.rcprf i).getD 0) := by
  cases async with
  | true =>
    have ht := ht rfl
    by_cases h0 : r.addCount.toNat = 0
    · refine ⟨⟨_, .nothing h0⟩, ?_⟩
      intro o ho
      cases ho <;> first | omega | (refine ⟨_, rfl, ?_⟩; simp [Spec.dianaPositions, h0])
    · by_cases h1 : r.addCount.toNat = 1
      · have hp : Spec.dianaPositions c r true = c.maxLeaf r.rcprf + 1 := by simp [Spec.dianaPositions, h1]
        rw [hp] at hc ⊢
        have he : evalRange c r.rcprf 0 (c.maxLeaf r.rcprf) = ⟨leaves c r.rcprf (List.range (c.maxLeaf r.rcprf + 1)), false⟩ := by
          rw [evalRange, if_neg (by omega), evaluated_all]
          · rw [List.range_eq_range', Nat.sub_zero]
          · intro i hi
            exact hc i (by simp at hi; omega)
        refine ⟨⟨_, .one h1 (by rw [he])⟩, ?_⟩
        intro o ho
        cases ho with
        | one hc' h =>
          refine ⟨_, rfl, ?_⟩
          rw [he]
          simp only [if_true]
          rw [lookups_leaves]
        | oneThrows k hc' h => rw [he] at h; cases h
        | _ => omega
      · have hp : Spec.dianaPositions c r true = r.addCount.toNat := by simp [Spec.dianaPositions, h1]
        rw [hp] at hc ⊢
        constructor
        · obtain ⟨trace, dead, h⟩ := parallel_exists c edb r (UInt8.ofNat hw) (uint8_ne_zero ht) h0
          cases dead with
          | false => exact ⟨_, .callbacks trace (by omega) h⟩
          | true => exact ⟨_, .callbacksTerminated trace (by omega) h⟩
        · intro o ho
          cases ho with
          | callbacks trace hc' h =>
            refine ⟨_, rfl, ?_⟩
            simp only [if_true]
            rw [← calls_docs, ← stored_docs]
            exact ((parallel_end h0 h).2.2 rfl).map _
          | callbacksTerminated trace hc' h => exact absurd hc ((parallel_end h0 h).2.1.mp rfl)
          | callbacksZero hc' h =>
            obtain ⟨rs, h', -⟩ := partition (UInt8.ofNat hw) r.addCount (uint8_ne_zero ht) h0
            rw [h] at h'
            cases h'
          | _ => omega
  | false =>
    have hm := hm rfl
    have hp : Spec.dianaPositions c r false = r.addCount.toNat := by simp [Spec.dianaPositions]
    rw [hp] at hc
    by_cases h0 : r.addCount.toNat = 0
    · refine ⟨⟨_, .empty h0⟩, ?_⟩
      intro o ho
      cases ho <;> first | omega | (refine ⟨_, rfl, ?_⟩; simp [h0])
    · constructor
      · obtain ⟨trace, dead, h⟩ := parallel_exists c edb r 8 (by decide) h0
        cases dead with
        | false => exact ⟨_, .vector trace h0 hm h⟩
        | true => exact ⟨_, .vectorTerminated trace h0 hm h⟩
      · intro o ho
        cases ho with
        | vector trace _ _ h =>
          refine ⟨_, rfl, ?_⟩
          simp only [Bool.false_eq_true, if_false]
          exact vector_eq c edb r.rcprf r.addCount trace ((parallel_end h0 h).2.2 rfl)
        | vectorTerminated trace _ _ h => exact absurd hc ((parallel_end h0 h).2.1.mp rfl)
        | _ => omega

/-- **C87**, Diana: whatever the message, and however the search ends, each reply is the document stored at one of the positions to be
looked at, or one of the zeros of a synchronous search. -/
theorem C87_diana_sound (c : Diana.Crypto Kw Index) (memory hw : Nat) (edb : Diana.Edb Index) (r : Diana.SearchReq c) (async : Bool)
    (o : Outcome) (ho : DianaOutcome c memory hw edb r async o) (x : Index) (hx : x ∈ Spec.sent o) :
    (∃ i < Spec.dianaPositions c r async, Spec.dianaAt c edb r.rcprf i = some x) ∨ (async = false ∧ x = 0) := by
  have trace_ok : ∀ (tc : UInt8) trace dead, r.addCount.toNat ≠ 0 → ParallelEnd c edb r tc trace dead → ∀ e ∈ trace,
      ∃ i < r.addCount.toNat, Spec.dianaAt c edb r.rcprf i = some e.2.1 := by
    intro tc trace dead h0 h e he
    have := (parallel_end h0 h).1 (e.1, e.2.1) (List.mem_map.mpr ⟨e, he, rfl⟩)
    exact ⟨_, (mem_stored c edb r.rcprf _ _ _).mp this⟩
  have leaves_ok : ∀ l, l <+: leaves c r.rcprf (List.range (c.maxLeaf r.rcprf + 1)) → x ∈ lookups c edb l →
      ∃ i < c.maxLeaf r.rcprf + 1, Spec.dianaAt c edb r.rcprf i = some x := by
    intro l hl h
    have h1 : x ∈ lookups c edb (leaves c r.rcprf (List.range (c.maxLeaf r.rcprf + 1))) := by
      obtain ⟨e, he, he2⟩ := List.mem_filterMap.mp h
      exact List.mem_filterMap.mpr ⟨e, hl.subset he, he2⟩
    rw [lookups_leaves] at h1
    obtain ⟨i, hi, hi2⟩ := List.mem_filterMap.mp h1
    exact ⟨i, List.mem_range.mp hi, hi2⟩
  have hpre : (evalRange c r.rcprf 0 (c.maxLeaf r.rcprf)).todo <+: leaves c r.rcprf (List.range (c.maxLeaf r.rcprf + 1)) := by
    rw [evalRange, if_neg (by omega), List.range_eq_range']
    exact evaluated_prefix c r.rcprf _
  have two : 2 ≤ r.addCount.toNat → Spec.dianaPositions c r true = r.addCount.toNat := by
    intro h
    unfold Spec.dianaPositions
    rw [if_neg (by omega)]
  have one : r.addCount.toNat = 1 → Spec.dianaPositions c r true = c.maxLeaf r.rcprf + 1 := by
    intro h
    unfold Spec.dianaPositions
    rw [if_pos ⟨rfl, h⟩]
  cases ho with
  | callbacks trace hc h =>
    obtain ⟨e, he, rfl⟩ := List.mem_map.mp hx
    rw [two hc]
    exact Or.inl (trace_ok _ trace _ (by omega) h e he)
  | callbacksTerminated trace hc h =>
    obtain ⟨e, he, rfl⟩ := List.mem_map.mp hx
    rw [two hc]
    exact Or.inl (trace_ok _ trace _ (by omega) h e he)
  | callbacksZero hc h => simp [Spec.sent] at hx
  | nothing hc => simp [Spec.sent] at hx
  | one hc h =>
    rw [one hc]
    exact Or.inl (leaves_ok _ hpre hx)
  | oneThrows k hc h =>
    rw [one hc]
    exact Or.inl (leaves_ok _ ((List.take_prefix _ _).trans hpre) hx)
  | empty hc => simp [Spec.sent] at hx
  | allocation hc h => simp [Spec.sent] at hx
  | vector trace h0 hm h =>
    have hp : Spec.dianaPositions c r false = r.addCount.toNat := by simp [Spec.dianaPositions]
    rw [hp]
    have hx : x ∈ Diana.vectorResult 0 r.addCount (List.replicate r.addCount.toNat 0) trace := hx
    unfold Diana.vectorResult at hx
    simp only [List.length_replicate, Nat.lt_irrefl, if_false] at hx
    rcases vector_mem _ _ _ hx with hx | ⟨e, he, rfl⟩
    · exact Or.inr ⟨rfl, List.eq_of_mem_replicate hx⟩
    · exact Or.inl (trace_ok _ trace _ h0 h e he)
  | vectorTerminated trace h0 hm h => simp [Spec.sent] at hx

/-- The key that a client sends can be evaluated at the positions counted. -/
theorem C87_diana_client (c : Diana.Crypto Kw Index) (m : Map Kw UInt32) (w : Kw) (async : Bool) :
    Spec.covers c (Diana.searchRequest c m w).rcprf (Spec.dianaPositions c (Diana.searchRequest c m w) async) := by
  classical
  rcases Diana.searchRequest_cases c m w with h | ⟨n, hn, hn2, h1, h2⟩
  · intro i hi
    simp [Spec.dianaPositions, h] at hi
  · have hp : Spec.dianaPositions c (Diana.searchRequest c m w) async = n := by
      unfold Spec.dianaPositions
      rw [h1, h2, c.maxLeaf_constrain _ _ (by omega)]
      split <;> omega
    rw [hp, h2]
    intro i hi
    rw [c.ceval_constrain _ _ _ (by omega) (by omega)]
    simp

/-- **C87 is violated**, Diana: if the key cannot be evaluated at all of the positions counted, every search ends with the termination of
the process, unless it is an asynchronous one for one result. -/
theorem C87_diana_uncovered_violated (c : Diana.Crypto Kw Index) (memory hw : Nat) (edb : Diana.Edb Index) (r : Diana.SearchReq c)
    (async : Bool) (hc : ¬ Spec.covers c r.rcprf r.addCount.toNat) (h2 : async = true → 2 ≤ r.addCount.toNat)
    (ht : Spec.dianaThreads hw async) (hm : async = false → 8 * r.addCount.toNat ≤ memory) :
    (∃ o, DianaOutcome c memory hw edb r async o) ∧ ∀ o, DianaOutcome c memory hw edb r async o → ∃ l, o = .terminated l := by
  have h0 : r.addCount.toNat ≠ 0 := by
    intro h
    apply hc
    intro i hi
    omega
  cases async with
  | true =>
    have ht := ht rfl
    have h2 := h2 rfl
    constructor
    · obtain ⟨trace, dead, h⟩ := parallel_exists c edb r (UInt8.ofNat hw) (uint8_ne_zero ht) h0
      cases dead with
      | false => exact ⟨_, .callbacks trace h2 h⟩
      | true => exact ⟨_, .callbacksTerminated trace h2 h⟩
    · intro o ho
      cases ho with
      | callbacks trace hc' h =>
        have := (parallel_end h0 h).2.1.mpr hc
        cases this
      | callbacksTerminated trace hc' h => exact ⟨_, rfl⟩
      | callbacksZero hc' h =>
        obtain ⟨rs, h', -⟩ := partition (UInt8.ofNat hw) r.addCount (uint8_ne_zero ht) h0
        rw [h] at h'
        cases h'
      | _ => omega
  | false =>
    have hm := hm rfl
    constructor
    · obtain ⟨trace, dead, h⟩ := parallel_exists c edb r 8 (by decide) h0
      cases dead with
      | false => exact ⟨_, .vector trace h0 hm h⟩
      | true => exact ⟨_, .vectorTerminated trace h0 hm h⟩
    · intro o ho
      cases ho with
      | vector trace _ _ h =>
        have := (parallel_end h0 h).2.1.mpr hc
        cases this
      | vectorTerminated trace _ _ h => exact ⟨_, rfl⟩
      | _ => omega

/-- **C87**, Diana: an asynchronous search for one result with a key that cannot be evaluated up to its own maximum ends with an error
status. -/
theorem C87_diana_one (c : Diana.Crypto Kw Index) (memory hw : Nat) (edb : Diana.Edb Index) (r : Diana.SearchReq c)
    (h1 : r.addCount.toNat = 1) (hc : ¬ Spec.covers c r.rcprf (c.maxLeaf r.rcprf + 1)) :
    (∃ o, DianaOutcome c memory hw edb r true o) ∧ ∀ o, DianaOutcome c memory hw edb r true o → ∃ l, o = .status l := by
  have he : (evalRange c r.rcprf 0 (c.maxLeaf r.rcprf)).throws = true := by
    rw [evalRange, if_neg (by omega), evaluated_throws]
    unfold Spec.covers at hc
    obtain ⟨i, hi⟩ := Classical.not_forall.mp hc
    obtain ⟨hi, hi2⟩ := Classical.not_imp.mp hi
    exact ⟨i, by simp; omega, Classical.not_not.mp hi2⟩
  refine ⟨⟨_, .oneThrows 0 h1 he⟩, ?_⟩
  intro o ho
  cases ho with
  | one _ h => rw [he] at h; cases h
  | oneThrows k _ h => exact ⟨_, rfl⟩
  | _ => omega

/-- **C87**, Diana: a synchronous search with a count for which there is no memory ends with an error status, without any reply. -/
theorem C87_diana_memory (c : Diana.Crypto Kw Index) (memory hw : Nat) (edb : Diana.Edb Index) (r : Diana.SearchReq c)
    (hm : memory < 8 * r.addCount.toNat) (o : Outcome) : DianaOutcome c memory hw edb r false o ↔ o = .status [] := by
  constructor
  · intro ho
    cases ho <;> first | rfl | omega
  · rintro rfl
    exact .allocation (by omega) hm

/-- **C87**, Diana: a parallel search has no infinite run, and it can go on until all threads have returned or the process is
terminated. -/
theorem C87_diana_ends (c : Diana.Crypto Kw Index) (edb : Diana.Edb Index) (ck : c.CK) (rs : List (Nat × Nat)) :
    (¬ ∃ f : Nat → Proc, f 0 = start c ck rs ∧ ∀ k, Step c edb (f k) (f (k + 1))) ∧
    ∀ s, Relation.ReflTransGen (Step c edb) (start c ck rs) s → (∀ s', ¬ Step c edb s s') → s.dead = true ∨ s.Joined := by
  constructor
  · rintro ⟨f, -, hf⟩
    have : ∀ k, (f k).weight + k ≤ (f 0).weight := by
      intro k
      induction k with
      | zero => omega
      | succ k ih =>
        have := weight_step (hf k)
        omega
    have := this ((f 0).weight + 1)
    omega
  · intro s _ h
    rcases progress c edb s with h' | h' | ⟨s', h'⟩
    · exact Or.inl h'
    · exact Or.inr h'
    · exact absurd h' (h s')

/-- **C87 is violated**, Diana: a search message of a client, sent once more with a larger count, terminates the process of the server
in both modes. The sender need not know anything but the message. -/
theorem C87_diana_replay_violated (c : Diana.Crypto Kw Index) (hrange : ∀ k b x, b < x → c.ceval (c.constrain k 0 b) x = none)
    (wrap : c.CK → List UInt8) (unwrap : List UInt8 → Option c.CK) (hwrap : ∀ k, unwrap (wrap k) = some k)
    (memory hw : Nat) (edb : Diana.Edb Index) (m : Map Kw UInt32) (w : Kw) (async : Bool) (mes : DianaSearchMessage) (k : UInt32)
    (hmes : mes = ofDianaSearch wrap (Diana.searchRequest c m w).kwToken (Diana.searchRequest c m w).rcprf
      (Diana.searchRequest c m w).addCount)
    (hn : mes.addCount ≠ 0) (hk : mes.addCount < k) (ht : Spec.dianaThreads hw async)
    (hm : async = false → 8 * k.toNat ≤ memory) :
    (∃ o, DianaServes c unwrap memory hw edb { mes with addCount := k } async o) ∧
    ∀ o, DianaServes c unwrap memory hw edb { mes with addCount := k } async o → ∃ l, o = .terminated l := by
  classical
  subst hmes
  have hto := (C42_roundtrip_partial 0 false (Vector.replicate 0 0) (Vector.replicate 32 0) k (Vector.replicate 16 0) 0 wrap unwrap hwrap
    (Diana.searchRequest c m w).kwToken (Diana.searchRequest c m w).rcprf).2.2
  have e : ({ ofDianaSearch wrap (Diana.searchRequest c m w).kwToken (Diana.searchRequest c m w).rcprf
      (Diana.searchRequest c m w).addCount with addCount := k } : DianaSearchMessage) =
      ofDianaSearch wrap (Diana.searchRequest c m w).kwToken (Diana.searchRequest c m w).rcprf k := rfl
  rw [e]
  unfold DianaServes
  rw [hto]
  have hn' : (Diana.searchRequest c m w).addCount ≠ 0 := hn
  have hk' : (Diana.searchRequest c m w).addCount.toNat < k.toNat := UInt32.lt_iff_toNat_lt.mp hk
  have hpos : (Diana.searchRequest c m w).addCount.toNat ≠ 0 := fun h => hn' (UInt32.toNat_inj.mp h)
  refine C87_diana_uncovered_violated c memory hw edb _ async ?_ (fun _ => by show 2 ≤ k.toNat; omega) ht hm
  intro hc
  rcases Diana.searchRequest_cases c m w with h | ⟨n, h1, h2, h3, h4⟩
  · exact hn' h
  · refine hc n (by show n < k.toNat; omega) ?_
    show c.ceval (Diana.searchRequest c m w).rcprf n = none
    rw [h4]
    exact hrange _ _ _ (by omega)

/-- **C87**, Diana: a message whose key cannot be unwrapped is answered with an error status. -/
theorem C87_diana_unwrap (c : Diana.Crypto Kw Index) (unwrap : List UInt8 → Option c.CK) (memory hw : Nat) (edb : Diana.Edb Index)
    (mes : DianaSearchMessage) (async : Bool) (h : unwrap mes.rcprfRep = none) (o : Outcome) :
    DianaServes c unwrap memory hw edb mes async o ↔ o = .status [] := by
  have : toDianaSearch unwrap mes = .error .exception := by
    unfold toDianaSearch
    rw [h]
    rfl
  unfold DianaServes
  rw [this]

/-! ## Sophos -/

/-- **C87 (part that holds)**, Sophos: if the library refuses none of the tokens that the search evaluates, the search ends, and the replies
are the documents stored under the counted tokens that follow from the one sent, each once, whoever made the message. Missing: refused
tokens, see `C87_sophos_refused_violated`; the machines of C46. -/
theorem C87_sophos_partial (c : Sophos.Crypto Kw Seed ST DK) (refused : ST → Bool) (hw : Nat) (async : Bool) (hhw : SophosThreads hw async)
    (edb : Sophos.Edb) (r : Sophos.SearchReq ST DK)
    (hok : ∀ p, Spec.sophosEvaluates hw async r.addCount.toNat p → refused (c.eval^[p] r.token) = false) :
    (∃ o, SophosOutcome c refused hw edb r async o) ∧
    ∀ o, SophosOutcome c refused hw edb r async o → ∃ l, o = .replies l ∧
      l.Perm ((List.range r.addCount.toNat).filterMap (Spec.sophosAt c edb r.derivationKey r.token)) := by
  classical
  have hspec : (List.range r.addCount.toNat).filterMap (Spec.sophosAt c edb r.derivationKey r.token) = Sophos.search c edb r := by
    rw [Sophos.search_eq_filterMap, List.filterMap_map]
    apply List.filterMap_congr
    intro i _
    exact (access_eq c edb r.derivationKey r.token i).symm
  have hfst : ∀ Ls : List (List ST), (Ls.map (fun l => (l, false))).map Prod.fst = Ls := by
    intro Ls
    rw [List.map_map]
    simp [Function.comp_def]
  have hfew : async = true → r.addCount.toNat < 2 → searchLoop c refused edb r.derivationKey r.addCount.toNat r.token =
      ((List.range r.addCount.toNat).filterMap (fun i => Sophos.access c edb r.derivationKey (c.eval^[i] r.token)), false) := by
    rintro rfl hc
    refine searchLoop_ok c refused edb r.derivationKey r.addCount.toNat r.token (fun p hp => hok p ?_)
    have : ¬ 2 ≤ r.addCount.toNat := by omega
    simpa [Spec.sophosEvaluates, this] using hp
  have hp : async = false → parallelJobs c refused hw r =
      (Sophos.allJobs (Sophos.parallelJobs c hw r)).map (List.map (fun l => (l, false))) := by
    rintro rfl
    obtain ⟨js, h1, h2, h3⟩ := parallelJobs_throw c refused hw (by simpa [SophosThreads] using hhw) r
    obtain ⟨h4, h5⟩ := h3 (fun j hj => Bool.eq_false_iff.mpr (fun hb => by
      obtain ⟨p, h6, h7⟩ := h2.mp ⟨j, hj, hb⟩
      rw [hok p h6] at h7
      cases h7))
    rw [h1, h5, Option.map_some, ← h4]
  have hcj : async = true → 2 ≤ r.addCount.toNat → countedJobs c refused (UInt8.ofNat hw) r =
      (Sophos.allJobs (Sophos.countedJobs c (UInt8.ofNat hw) r)).map (List.map (fun l => (l, false))) := by
    rintro rfl hc
    obtain ⟨js, h1, h2, h3⟩ := countedJobs_throw c refused hw (by simpa [SophosThreads] using hhw) r hc
    obtain ⟨h4, h5⟩ := h3 (fun j hj => Bool.eq_false_iff.mpr (fun hb => by
      obtain ⟨p, h6, h7⟩ := h2.mp ⟨j, hj, hb⟩
      rw [hok p h6] at h7
      cases h7))
    rw [h1, h5, Option.map_some, ← h4]
  have heq : (List.range r.addCount.toNat).filterMap (fun i => Sophos.access c edb r.derivationKey (c.eval^[i] r.token)) =
      Sophos.search c edb r := by
    rw [← hspec]
    apply List.filterMap_congr
    intro i _
    exact access_eq c edb r.derivationKey r.token i
  have hno : ∀ (Ls : List (List ST)) (j : List ST × Bool), j ∈ Ls.map (fun l => (l, false)) → j.2 = false := by
    intro Ls j hj
    obtain ⟨l, -, rfl⟩ := List.mem_map.mp hj
    rfl
  rw [hspec]
  obtain ⟨⟨res, hres⟩, hall⟩ := C46_sophos_partial c hw async hhw edb r
  constructor
  · unfold SophosReplies at hres
    cases async with
    | false =>
      simp only [Bool.false_eq_true, if_false] at hres
      obtain ⟨Ls, s, h1, h2, h3, -⟩ := hres
      exact ⟨_, .parallel (Ls.map (fun l => (l, false))) s (by rw [hp rfl, h1]; rfl)
        (hno Ls) (by rw [hfst]; exact h2) h3⟩
    | true =>
      simp only [if_true] at hres
      split at hres
      · rename_i hc
        obtain ⟨Ls, s, h1, h2, h3, -⟩ := hres
        exact ⟨_, .callback (Ls.map (fun l => (l, false))) s hc (by rw [hcj rfl (by omega), h1]; rfl)
          (hno Ls) (by rw [hfst]; exact h2) h3⟩
      · rename_i hc
        split at hres
        · rename_i hc2
          obtain ⟨Ls, s, h1, h2, h3, -⟩ := hres
          exact ⟨_, .light (Ls.map (fun l => (l, false))) s hc2 (by omega)
            (by rw [hcj rfl (by omega), h1]; rfl) (hno Ls) (by rw [hfst]; exact h2) h3⟩
        · exact ⟨_, .few (by omega) (by rw [hfew rfl (by omega)])⟩
  · intro o ho
    cases ho with
    | parallel js s hj hn hs hr' =>
      rw [hp rfl] at hj
      obtain ⟨Ls, h1, rfl⟩ := Option.map_eq_some_iff.mp hj
      rw [hfst] at hs
      refine ⟨_, rfl, hall _ ?_⟩
      simp only [SophosReplies, Bool.false_eq_true, if_false]
      exact ⟨Ls, s, h1, hs, hr', rfl⟩
    | parallelTerminated js hj ht =>
      rw [hp rfl] at hj
      obtain ⟨Ls, h1, rfl⟩ := Option.map_eq_some_iff.mp hj
      obtain ⟨j, h2, h3⟩ := ht
      rw [hno Ls j h2] at h3
      cases h3
    | callback js s hc hj hn hs hr' =>
      rw [hcj rfl (by omega)] at hj
      obtain ⟨Ls, h1, rfl⟩ := Option.map_eq_some_iff.mp hj
      rw [hfst] at hs
      refine ⟨_, rfl, hall _ ?_⟩
      simp only [SophosReplies, if_true, hc]
      exact ⟨Ls, s, h1, hs, hr', rfl⟩
    | callbackTerminated js s t l hc hj ht hs hr' =>
      rw [hcj rfl (by omega)] at hj
      obtain ⟨Ls, h1, rfl⟩ := Option.map_eq_some_iff.mp hj
      have := hno Ls _ (List.mem_of_getElem? ht)
      cases this
    | light js s hc hc' hj hn hs hr' =>
      rw [hcj rfl (by omega)] at hj
      obtain ⟨Ls, h1, rfl⟩ := Option.map_eq_some_iff.mp hj
      rw [hfst] at hs
      refine ⟨_, rfl, hall _ ?_⟩
      have : ¬ 40 ≤ r.addCount.toNat := by omega
      simp only [SophosReplies, if_true, hc, this, if_false]
      exact ⟨Ls, s, h1, hs, hr', rfl⟩
    | lightTerminated js s t l hc hc' hj ht hs hr' =>
      rw [hcj rfl (by omega)] at hj
      obtain ⟨Ls, h1, rfl⟩ := Option.map_eq_some_iff.mp hj
      have := hno Ls _ (List.mem_of_getElem? ht)
      cases this
    | few hc h =>
      refine ⟨_, rfl, ?_⟩
      rw [hfew rfl (by omega), heq]
    | fewThrows hc h => rw [hfew rfl (by omega)] at h; cases h

/-- **C87 (part that holds)**, Sophos: the case of a library that does not refuse what it evaluated, and does not refuse the token that was
sent -/
theorem C87_sophos_closed_partial (c : Sophos.Crypto Kw Seed ST DK) (refused : ST → Bool)
    (hclosed : ∀ s, refused s = false → refused (c.eval s) = false) (hw : Nat) (async : Bool) (hhw : SophosThreads hw async)
    (edb : Sophos.Edb) (r : Sophos.SearchReq ST DK) (hr : refused r.token = false) :
    (∃ o, SophosOutcome c refused hw edb r async o) ∧
    ∀ o, SophosOutcome c refused hw edb r async o → ∃ l, o = .replies l ∧
      l.Perm ((List.range r.addCount.toNat).filterMap (Spec.sophosAt c edb r.derivationKey r.token)) := by
  refine C87_sophos_partial c refused hw async hhw edb r (fun p hp => ?_)
  clear hp
  induction p with
  | zero => exact hr
  | succ p ih => rw [Function.iterate_succ_apply']; exact hclosed _ ih

/-- **C87**, Sophos: whatever the message, the token and the library, and however the search ends, each reply is the document stored under
one of the counted tokens that follow from the one sent. -/
theorem C87_sophos_sound (c : Sophos.Crypto Kw Seed ST DK) (refused : ST → Bool) (hw : Nat) (async : Bool) (edb : Sophos.Edb)
    (r : Sophos.SearchReq ST DK) (o : Outcome) (ho : SophosOutcome c refused hw edb r async o) (x : Index) (hx : x ∈ Spec.sent o) :
    ∃ i < r.addCount.toNat, Spec.sophosAt c edb r.derivationKey r.token i = some x := by
  have tokens_ok : ∀ js : List (List ST × Bool),
      (∀ j ∈ js, ∃ index N, job c refused r.token index r.addCount.toNat N = some j) →
      ∀ a ∈ (js.map Prod.fst).flatten, Sophos.access c edb r.derivationKey a = some x →
      ∃ i < r.addCount.toNat, Spec.sophosAt c edb r.derivationKey r.token i = some x := by
    intro js h a ha hax
    obtain ⟨l, hl, ha⟩ := List.mem_flatten.mp ha
    obtain ⟨j, hj, rfl⟩ := List.mem_map.mp hl
    obtain ⟨index, N, hjob⟩ := h j hj
    obtain ⟨p, hp, rfl⟩ := job_mem c refused _ _ _ _ j hjob a ha
    rw [access_eq] at hax
    exact ⟨p, hp, hax⟩
  have pjobs : ∀ js, parallelJobs c refused hw r = some js →
      ∀ j ∈ js, ∃ index N, job c refused r.token index r.addCount.toNat N = some j := by
    intro js hj j hjm
    obtain ⟨t, -, h⟩ := mapM_mem hj j hjm
    exact ⟨_, _, h⟩
  have cjobs : ∀ js, countedJobs c refused (UInt8.ofNat hw) r = some js →
      ∀ j ∈ js, ∃ index N, job c refused r.token index r.addCount.toNat N = some j := by
    intro js hj j hjm
    obtain ⟨t, -, h⟩ := mapM_mem hj j hjm
    exact ⟨_, _, h⟩
  have pipe_ok : ∀ js (s : ThreadPool.Pipe ST Index Index), countedJobs c refused (UInt8.ofNat hw) r = some js →
      ThreadPool.PipeReachable (Sophos.access c edb r.derivationKey) some 8 1 (js.map Prod.fst) s → x ∈ s.B.emitted →
      ∃ i < r.addCount.toNat, Spec.sophosAt c edb r.derivationKey r.token i = some x := by
    intro js s hj hs hx
    have hi := ThreadPool.pipeReachable_inv hs
    obtain ⟨b, hb, hb2⟩ := pool_emitted hi.B hx
    obtain rfl := Option.some.inj hb2
    rw [hi.link] at hb
    obtain ⟨a, ha, ha2⟩ := pool_emitted hi.A hb
    exact tokens_ok js (cjobs js hj) a (hi.conserve.subset (List.mem_append_left _ ha)) ha2
  have threads_ok : ∀ js (s : ThreadPool.Threads ST Index), countedJobs c refused (UInt8.ofNat hw) r = some js →
      ThreadPool.ThreadsReachable (Sophos.access c edb r.derivationKey) (js.map Prod.fst) s → x ∈ s.emitted →
      ∃ i < r.addCount.toNat, Spec.sophosAt c edb r.derivationKey r.token i = some x := by
    intro js s hj hs hx
    obtain ⟨a, ha, ha2⟩ := List.mem_filterMap.mp ((ThreadPool.threads_inv hs).subset (List.mem_append_left _ hx))
    exact tokens_ok js (cjobs js hj) a ha ha2
  cases ho with
  | parallel js s hj hn hs hr' =>
    have hi := (ThreadPool.seqReachable_inv hs).1
    obtain ⟨a, ha, ha2⟩ := pool_emitted hi.pool hx
    exact tokens_ok js (pjobs js hj) a (hi.conserve.subset (List.mem_append_left _ (List.mem_append_left _ ha))) ha2
  | parallelTerminated js hj ht => simp [Spec.sent] at hx
  | callback js s hc hj hn hs hr' => exact pipe_ok js s hj hs hx
  | callbackTerminated js s t l hc hj ht hs hr' => exact pipe_ok js s hj hs hx
  | light js s hc hc' hj hn hs hr' => exact threads_ok js s hj hs hx
  | lightTerminated js s t l hc hc' hj ht hs hr' => exact threads_ok js s hj hs hx
  | few hc h =>
    obtain ⟨i, h1, h2⟩ := searchLoop_mem c refused edb r.derivationKey _ _ x hx
    exact ⟨i, h1, by rw [← access_eq]; exact h2⟩
  | fewThrows hc h =>
    obtain ⟨i, h1, h2⟩ := searchLoop_mem c refused edb r.derivationKey _ _ x hx
    exact ⟨i, h1, by rw [← access_eq]; exact h2⟩

/-- **C87 is violated**, Sophos: if the library refuses one of the tokens that the search evaluates, every synchronous search ends with the
termination of the process, and so does every asynchronous one for two results or more. The token that was sent is one of them in every
synchronous search, whatever the count, even 0. -/
theorem C87_sophos_refused_violated (c : Sophos.Crypto Kw Seed ST DK) (refused : ST → Bool) (hw : Nat) (async : Bool)
    (hhw : SophosThreads hw async) (edb : Sophos.Edb) (r : Sophos.SearchReq ST DK)
    (hr : ∃ p, Spec.sophosEvaluates hw async r.addCount.toNat p ∧ refused (c.eval^[p] r.token) = true)
    (h2 : async = true → 2 ≤ r.addCount.toNat) :
    (∃ o, SophosOutcome c refused hw edb r async o) ∧
    ∀ o, SophosOutcome c refused hw edb r async o → ∃ l, o = .terminated l := by
  cases async with
  | false =>
    have hhw : hw ≤ 255 := by simpa [SophosThreads] using hhw
    obtain ⟨js, hj, hthrow, -⟩ := parallelJobs_throw c refused hw hhw r
    have ht := hthrow.mpr hr
    refine ⟨⟨_, .parallelTerminated js hj ht⟩, ?_⟩
    intro o ho
    cases ho with
    | parallel js' s hj' hn hs hr' =>
      rw [hj] at hj'
      obtain rfl := Option.some.inj hj'
      obtain ⟨j, h3, h4⟩ := ht
      rw [hn j h3] at h4
      cases h4
    | parallelTerminated js' hj' ht' => exact ⟨_, rfl⟩
  | true =>
    have h2 := h2 rfl
    have hhw : hw % 256 ≠ 0 := by simpa [SophosThreads] using hhw
    obtain ⟨js, hj, hthrow, -⟩ := countedJobs_throw c refused hw hhw r h2
    obtain ⟨⟨l, b⟩, hm, hb⟩ := hthrow.mpr hr
    obtain rfl : b = true := hb
    obtain ⟨t, ht⟩ := List.getElem?_of_mem hm
    constructor
    · by_cases h40 : 40 ≤ r.addCount.toNat
      · obtain ⟨s, hs, hr'⟩ := pipe_finished (Sophos.access c edb r.derivationKey) 8 1 (js.map Prod.fst) t l (by simp [ht])
        exact ⟨_, .callbackTerminated js s t l h40 hj ht hs hr'⟩
      · obtain ⟨s, hs, hr'⟩ := threads_finished (Sophos.access c edb r.derivationKey) (js.map Prod.fst) t l (by simp [ht])
        exact ⟨_, .lightTerminated js s t l h2 (by omega) hj ht hs hr'⟩
    · intro o ho
      cases ho with
      | callback js' s hc hj' hn hs hr' =>
        rw [hj] at hj'
        obtain rfl := Option.some.inj hj'
        have := hn _ (List.mem_of_getElem? ht)
        cases this
      | callbackTerminated => exact ⟨_, rfl⟩
      | light js' s hc hc' hj' hn hs hr' =>
        rw [hj] at hj'
        obtain rfl := Option.some.inj hj'
        have := hn _ (List.mem_of_getElem? ht)
        cases this
      | lightTerminated => exact ⟨_, rfl⟩
      | few hc h => omega
      | fewThrows hc h => omega

/-- **C87**, Sophos: for every message and every library, whether the search ends as one would expect is a matter of the tokens that it
evaluates only: it does if and only if the library refuses none of them. -/
theorem C87_sophos_exact (c : Sophos.Crypto Kw Seed ST DK) (refused : ST → Bool) (hw : Nat) (async : Bool)
    (hhw : SophosThreads hw async) (edb : Sophos.Edb) (r : Sophos.SearchReq ST DK) (h2 : async = true → 2 ≤ r.addCount.toNat)
    (o : Outcome) (ho : SophosOutcome c refused hw edb r async o) :
    (∃ l, o = .terminated l) ↔ ∃ p, Spec.sophosEvaluates hw async r.addCount.toNat p ∧ refused (c.eval^[p] r.token) = true := by
  constructor
  · rintro ⟨l, rfl⟩
    by_contra hn
    obtain ⟨l', h, -⟩ := (C87_sophos_partial c refused hw async hhw edb r (fun p hp => Bool.eq_false_iff.mpr (fun h => hn ⟨p, hp, h⟩))).2 _ ho
    cases h
  · intro h
    exact (C87_sophos_refused_violated c refused hw async hhw edb r h h2).2 _ ho

/-- **C87**, Sophos: an asynchronous search for one result with a refused token ends with an error status, after the document stored under
the token. Without any expected result the token is not looked at. -/
theorem C87_sophos_few (c : Sophos.Crypto Kw Seed ST DK) (refused : ST → Bool) (hw : Nat) (edb : Sophos.Edb)
    (r : Sophos.SearchReq ST DK) (hr : refused r.token = true) (o : Outcome) :
    (r.addCount.toNat = 1 → (SophosOutcome c refused hw edb r true o ↔
      o = .status (Spec.sophosAt c edb r.derivationKey r.token 0).toList)) ∧
    (r.addCount.toNat = 0 → (SophosOutcome c refused hw edb r true o ↔ o = .replies [])) := by
  constructor
  · intro h1
    have he : searchLoop c refused edb r.derivationKey r.addCount.toNat r.token =
        ((Spec.sophosAt c edb r.derivationKey r.token 0).toList, true) := by
      rw [h1, searchLoop, ← access_eq]
      simp [hr]
    constructor
    · intro ho
      cases ho with
      | few hc h => rw [he] at h; cases h
      | fewThrows hc h => rw [he]
      | _ => omega
    · rintro rfl
      have := SophosOutcome.fewThrows (c := c) (refused := refused) (hw := hw) (edb := edb) (r := r) (by omega) (by rw [he])
      rwa [he] at this
  · intro h0
    have he : searchLoop c refused edb r.derivationKey r.addCount.toNat r.token = ([], false) := by
      rw [h0, searchLoop]
    constructor
    · intro ho
      cases ho with
      | few hc h => rw [he]
      | fewThrows hc h => rw [he] at h; cases h
      | _ => omega
    · rintro rfl
      have := SophosOutcome.few (c := c) (refused := refused) (hw := hw) (edb := edb) (r := r) (by omega) (by rw [he])
      rwa [he] at this

/-- **C87 is violated**, Sophos, without any foreign message: the search of a client for an unknown keyword sends a token that nothing was
written to. If the library refuses it, the synchronous service is terminated. -/
theorem C87_sophos_unknown_violated (c : Sophos.Crypto Kw Seed ST DK) (refused : ST → Bool) (hw : Nat) (hhw : hw ≤ 255)
    (edb : Sophos.Edb) (garbage : ST × DK) (m : Map Kw UInt32) (w : Kw) (hw' : m w = none) (hr : refused garbage.1 = true) :
    (∃ o, SophosOutcome c refused hw edb (Sophos.searchRequest c garbage m w) false o) ∧
    ∀ o, SophosOutcome c refused hw edb (Sophos.searchRequest c garbage m w) false o → ∃ l, o = .terminated l := by
  refine C87_sophos_refused_violated c refused hw false (by simpa [SophosThreads] using hhw) edb _ ?_ (by simp)
  have : (Sophos.searchRequest c garbage m w).token = garbage.1 := by
    simp [Sophos.searchRequest, Counter.get, hw']
  exact ⟨0, by simp [Spec.sophosEvaluates], by rw [this]; exact hr⟩

/-! ## Examples -/

section Examples

open Diana.Toy in
/-- Non-vacuity: the key of a client for two positions, a document at position 1, and the four cases of the count -/
example : ∃ (r : Diana.SearchReq crypto) (edb : Diana.Edb Index), r.addCount = 2 ∧ Spec.covers crypto r.rcprf 2 ∧
    ¬ Spec.covers crypto r.rcprf 3 ∧ Spec.dianaAt crypto edb r.rcprf 0 = none ∧ Spec.dianaAt crypto edb r.rcprf 1 = some 7 ∧
    (∀ o, DianaOutcome crypto 100 4 edb r true o → ∃ l, o = .replies l ∧ l = [7]) ∧
    (∀ o, DianaOutcome crypto 100 4 edb r false o → o = .replies [0, 7]) ∧
    (∀ async o, DianaOutcome crypto 100 4 edb { r with addCount := 3 } async o → ∃ l, o = .terminated l) ∧
    (∀ o, DianaOutcome crypto 10 4 edb r false o ↔ o = .status []) := by
  let ck := crypto.constrain (crypto.root (crypto.hash true)) 0 1
  have c0 : crypto.ceval ck 0 ≠ none := by decide +kernel
  have c1 : crypto.ceval ck 1 ≠ none := by decide +kernel
  have c2 : crypto.ceval ck 2 = none := by decide +kernel
  let leaf := crypto.eval (crypto.root (crypto.hash true)) 1
  let edb : Diana.Edb Index := Map.put (fun _ => none) (crypto.token leaf) (crypto.xor 7 (crypto.mask leaf))
  have a0 : Spec.dianaAt crypto edb ck 0 = none := by decide +kernel
  have a1 : Spec.dianaAt crypto edb ck 1 = some 7 := by decide +kernel
  have hc : Spec.covers crypto ck 2 := by
    intro i hi
    match i, hi with
    | 0, _ => exact c0
    | 1, _ => exact c1
  have hnc : ¬ Spec.covers crypto ck 3 := fun h => h 2 (by decide) c2
  refine ⟨⟨Vector.replicate 32 0, ck, 2⟩, edb, rfl, hc, hnc, a0, a1, ?_, ?_, ?_, ?_⟩
  · intro o ho
    obtain ⟨l, rfl, hl⟩ := (C87_diana_partial crypto 100 4 edb ⟨Vector.replicate 32 0, ck, 2⟩ true hc (by simp [Spec.dianaThreads]) (by simp)).2 o ho
    refine ⟨l, rfl, ?_⟩
    have e : (List.range 2).filterMap (Spec.dianaAt crypto edb ck) = [7] := by
      simp [List.range_succ, a0, a1]
    have hl : l.Perm ((List.range 2).filterMap (Spec.dianaAt crypto edb ck)) := hl
    rw [e] at hl
    exact List.perm_singleton.mp hl
  · intro o ho
    obtain ⟨l, rfl, hl⟩ := (C87_diana_partial crypto 100 4 edb ⟨Vector.replicate 32 0, ck, 2⟩ false hc (by simp [Spec.dianaThreads])
      (by simp)).2 o ho
    have hl : l = (List.range 2).map (fun i => (Spec.dianaAt crypto edb ck i).getD 0) := hl
    rw [hl]
    simp [List.range_succ, a0, a1]
  · intro async o ho
    exact (C87_diana_uncovered_violated crypto 100 4 edb ⟨Vector.replicate 32 0, ck, 3⟩ async hnc (by simp) (by simp [Spec.dianaThreads])
      (by simp)).2 o ho
  · exact C87_diana_memory crypto 10 4 edb ⟨Vector.replicate 32 0, ck, 2⟩ (by decide)

/-- Non-vacuity: the search message of a client for three documents, sent once more with a count of 5, in both modes -/
example : ∃ (wrap : Diana.Toy.crypto.CK → List UInt8) (unwrap : List UInt8 → Option Diana.Toy.crypto.CK) (m : Map Bool UInt32),
    (Diana.searchRequest Diana.Toy.crypto m true).addCount = 3 ∧
    ∀ edb async o, DianaServes Diana.Toy.crypto unwrap 1000 4 edb
      { ofDianaSearch wrap (Diana.searchRequest Diana.Toy.crypto m true).kwToken (Diana.searchRequest Diana.Toy.crypto m true).rcprf
          (Diana.searchRequest Diana.Toy.crypto m true).addCount with addCount := 5 } async o → ∃ l, o = .terminated l := by
  let wrap : Diana.Toy.crypto.CK → List UInt8 := fun k => k.1 :: List.replicate k.2 0
  let unwrap : List UInt8 → Option Diana.Toy.crypto.CK := fun l => l.head?.map (fun b => (b, l.length - 1))
  have hwrap : ∀ k, unwrap (wrap k) = some k := by
    rintro ⟨a, b⟩
    simp [wrap, unwrap]
    rfl
  refine ⟨wrap, unwrap, fun _ => some 2, by decide +kernel, ?_⟩
  intro edb async o ho
  refine (C87_diana_replay_violated Diana.Toy.crypto ?_ wrap unwrap hwrap 1000 4 edb (fun _ => some 2) true async _ 5 rfl
    (by decide +kernel) (by decide +kernel) (by simp [Spec.dianaThreads]) (by simp)).2 o ho
  intro k b x h
  have : ¬ x ≤ b := by omega
  simp [Diana.Toy.crypto, this]

/-- Tokens with a flag, which the permutation keeps: the library refuses those with the flag. -/
def flagged : Sophos.Crypto Bool Bool (UInt64 × Bool) Bool where
  hash := id
  gen := fun _ => (0, false)
  dkey := id
  eval := fun x => (x.1 - 1, x.2)
  inv := fun x => (x.1 + 1, x.2)
  prf := fun k st tag => Sophos.Toy.crypto.prf k st.1 tag
  eval_inv := by intro x; simp

/-- Non-vacuity: a document under the second token; a token that is accepted, and one that is refused -/
example : ∃ edb : Sophos.Edb, Spec.sophosAt flagged edb true (5, false) 1 = some 9 ∧
    (∀ async o, SophosOutcome flagged Prod.snd 4 edb ⟨(5, false), true, 2⟩ async o → o = .replies [9]) ∧
    (∀ async o, SophosOutcome flagged Prod.snd 4 edb ⟨(5, true), true, 2⟩ async o → ∃ l, o = .terminated l) ∧
    (∀ o, SophosOutcome flagged Prod.snd 4 edb ⟨(4, true), true, 1⟩ true o ↔ o = .status [9]) ∧
    (∀ o, SophosOutcome flagged Prod.snd 4 edb (Sophos.searchRequest flagged ((7, true), true) (fun _ => none) false) false o →
      ∃ l, o = .terminated l) := by
  let edb : Sophos.Edb := Map.put (fun _ => none) (flagged.prf true (4, false) false) (Sophos.mask 9 (flagged.prf true (4, false) true))
  have a0 : Spec.sophosAt flagged edb true (5, false) 0 = none := by decide +kernel
  have a1 : Spec.sophosAt flagged edb true (5, false) 1 = some 9 := by decide +kernel
  have a2 : Spec.sophosAt flagged edb true (4, true) 0 = some 9 := by decide +kernel
  have threads : ∀ async, SophosThreads 4 async := by intro async; cases async <;> simp [SophosThreads]
  refine ⟨edb, a1, ?_, ?_, ?_, ?_⟩
  · intro async o ho
    obtain ⟨l, rfl, hl⟩ := (C87_sophos_closed_partial flagged Prod.snd (fun _ h => h) 4 async (threads async) edb ⟨(5, false), true, 2⟩ rfl).2 o ho
    have e : (List.range 2).filterMap (Spec.sophosAt flagged edb true (5, false)) = [9] := by
      simp [List.range_succ, a0, a1]
    have hl : l.Perm ((List.range 2).filterMap (Spec.sophosAt flagged edb true (5, false))) := hl
    rw [e] at hl
    rw [List.perm_singleton.mp hl]
  · intro async o ho
    exact (C87_sophos_refused_violated flagged Prod.snd 4 async (threads async) edb ⟨(5, true), true, 2⟩
      ⟨0, by simp [Spec.sophosEvaluates], rfl⟩ (by simp)).2 o ho
  · intro o
    have := (C87_sophos_few flagged Prod.snd 4 edb ⟨(4, true), true, 1⟩ rfl o).1 rfl
    rw [this]
    show (o = .status (Spec.sophosAt flagged edb true (4, true) 0).toList) ↔ _
    rw [a2]
    rfl
  · intro o ho
    exact (C87_sophos_unknown_violated flagged Prod.snd 4 (by decide) edb ((7, true), true) (fun _ => none) false rfl rfl).2 o ho

/-- Non-vacuity: a library that refuses the third token of a chain. With four threads, a search for six results does not evaluate it and
answers, and one for seven does. -/
example : let refused : UInt64 × Bool → Bool := fun x => x.1 == 3
    ∃ edb : Sophos.Edb, Spec.sophosAt flagged edb true (5, false) 4 = some 9 ∧
    (∀ async o, SophosOutcome flagged refused 4 edb ⟨(5, false), true, 6⟩ async o → ∃ l, o = .replies l ∧ 9 ∈ l) ∧
    (∀ async o, SophosOutcome flagged refused 4 edb ⟨(5, false), true, 7⟩ async o → ∃ l, o = .terminated l) := by
  intro refused
  let edb : Sophos.Edb := Map.put (fun _ => none) (flagged.prf true (1, false) false) (Sophos.mask 9 (flagged.prf true (1, false) true))
  have a4 : Spec.sophosAt flagged edb true (5, false) 4 = some 9 := by decide +kernel
  have threads : ∀ async, SophosThreads 4 async := by intro async; cases async <;> simp [SophosThreads]
  refine ⟨edb, a4, ?_, ?_⟩
  · intro async o ho
    obtain ⟨l, rfl, hl⟩ := (C87_sophos_partial flagged refused 4 async (threads async) edb ⟨(5, false), true, 6⟩ (by
      intro p hp
      have hp : p = 0 ∨ p = 1 := by
        cases async <;> simp [Spec.sophosEvaluates] at hp <;> omega
      rcases hp with rfl | rfl <;> decide +kernel)).2 o ho
    exact ⟨l, rfl, hl.mem_iff.mpr (List.mem_filterMap.mpr ⟨4, by simp, a4⟩)⟩
  · intro async o ho
    refine (C87_sophos_exact flagged refused 4 async (threads async) edb ⟨(5, false), true, 7⟩ (by simp) o ho).mpr
      ⟨2, by cases async <;> simp [Spec.sophosEvaluates], by decide +kernel⟩

end Examples

end Verif.Runner.Foreign
