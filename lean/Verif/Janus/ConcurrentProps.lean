import Verif.Janus.ConcurrentIssue

/-!
# C70: a Janus server that works on several calls at the same time

A caller who makes no search of a keyword before all calls on this keyword have returned, and no insertion or
removal before the searches of the keyword have returned (`careful`), gets from every call what it would return if
all calls were made one after the other in the order of the requests (`C70_partial`), whatever the schedule; all
calls return (`C70_ends`).

Without this care it is false, even for later calls: two searches of a keyword at the same time can lose
documents (`C70_searches_violated`); a document of which the insertion is stored after a search that was requested
later is not found afterwards (`C70_insert_violated`), and such a removal has no effect
(`C70_remove_violated`).
-/

namespace Verif.Janus.Conc

open Verif

variable {PK KS CT Rand : Type}

/-- **C70** (part): a call that has returned, has returned the result of its operation in the sequential
execution of the requests. What is missing: callers that are not careful. -/
theorem C70_partial (c : Crypto PK KS CT Rand) (es : List (Ev Rand))
    (hfit : (issued es).length + 1 < 2 ^ 32) (hnc : NoCollisionFor c (issued es))
    (hcare : allCareful (CSys.init c) es = true) (k : Nat) (call : Call c)
    (hk : ((CSys.init c).run es).calls[k]? = some call) (hover : call.pc.over = true) :
    ∃ op q outs q' out, (issued es)[k]? = some op ∧
      Janus.run c Sys.init ((issued es).take k) = .ok (q, outs) ∧
      Janus.step c q op = .ok (q', out) ∧ call.pc = .done out := by
  obtain ⟨q, exp, h⟩ := inv_run c (ops := []) hfit hnc es (inv_init c _ _)
    (by simp) (fun op ho => List.mem_map.mpr ⟨op, ho, rfl⟩) hcare
  rw [List.nil_append] at h
  have hlt := (List.getElem?_eq_some_iff.mp hk).1
  rw [h.callsLen] at hlt
  obtain ⟨q0, outs0, q1, out, h1, h2, h3⟩ := h.outs k _ (List.getElem?_eq_getElem hlt)
  obtain ⟨res, h4, h5⟩ := h.over k call hk hover
  rw [h3] at h5
  obtain rfl := Option.some.inj h5
  exact ⟨_, q0, outs0, q1, out, List.getElem?_eq_getElem hlt, h1, h2, h4⟩

/-- Every request has its call. -/
theorem C70_calls (c : Crypto PK KS CT Rand) (es : List (Ev Rand)) :
    ((CSys.init c).run es).calls.map Call.kw = (issued es).map Janus.Spec.Op.kw := by
  suffices h : ∀ s : CSys c, (s.run es).calls.map Call.kw =
      s.calls.map Call.kw ++ (issued es).map Janus.Spec.Op.kw from h _
  induction es with
  | nil => intro s; simp [CSys.run, issued]
  | cons e es ih =>
    intro s
    simp only [CSys.run]
    rw [ih]
    cases e with
    | issue op => simp [CSys.exec, issued, request_kw]
    | work k =>
      simp only [CSys.exec, issued]
      cases hk : s.calls[k]? with
      | none => rfl
      | some call =>
        simp only
        congr 1
        apply List.ext_getElem?
        intro i
        simp only [List.getElem?_map, List.getElem?_set]
        split
        · rename_i hki
          subst hki
          rw [if_pos (List.getElem?_eq_some_iff.mp hk).1, hk]
          rfl
        · rfl

theorem admissible_prefix (ops ops' : List (Op Rand)) : ∀ P,
    Janus.Spec.admissible P (ops ++ ops') = true → Janus.Spec.admissible P ops = true := by
  induction ops with
  | nil => intro P _; rfl
  | cons op ops ih =>
    intro P h
    cases op with
    | insert w i r =>
      simp only [List.cons_append, Janus.Spec.admissible, Bool.and_eq_true] at h ⊢
      exact ⟨h.1, ih _ h.2⟩
    | remove w i => exact ih _ h
    | search w =>
      simp only [List.cons_append, Janus.Spec.admissible, Bool.and_eq_true] at h ⊢
      exact ⟨h.1, ih _ h.2⟩

theorem bound_mono {K K' : List Str} {n n' : Nat} (hK : ∀ w ∈ K', w ∈ K) (hn : n' ≤ n) (mk : Str) :
    bound K' n' mk ≤ bound K n mk := by
  unfold bound
  by_cases h : mk ∈ metas K' n'
  · have : mk ∈ metas K n := by
      unfold metas at h ⊢
      simp only [List.mem_flatMap, List.mem_map, List.mem_range] at h ⊢
      obtain ⟨w, hw, e, he, h⟩ := h
      exact ⟨w, hK w hw, e, by omega, h⟩
    rw [if_pos h, if_pos this]
    exact hn
  · rw [if_neg h]; exact Nat.zero_le _

theorem noCollision_prefix (c : Crypto PK KS CT Rand) (ops ops' : List (Op Rand))
    (h : NoCollisionFor c (ops ++ ops')) : NoCollisionFor c ops := by
  have hK : ∀ w ∈ ops.map Janus.Spec.Op.kw, w ∈ (ops ++ ops').map Janus.Spec.Op.kw := by
    intro w hw; rw [List.map_append]; exact List.mem_append_left _ hw
  have hD : ∀ i ∈ ops.flatMap Janus.Spec.Op.docs, i ∈ (ops ++ ops').flatMap Janus.Spec.Op.docs := by
    intro w hw; rw [List.flatMap_append]; exact List.mem_append_left _ hw
  have hb := bound_mono (n := (ops ++ ops').length) (n' := ops.length) hK (by simp)
  exact ⟨fun w a v b ha hb' => h.ins w a v b (Nat.lt_of_lt_of_le ha (hb w)) (Nat.lt_of_lt_of_le hb' (hb v)),
    fun w a v b ha hb' => h.del w a v b (Nat.lt_of_lt_of_le ha (hb w)) (Nat.lt_of_lt_of_le hb' (hb v)),
    fun v hv w hw => h.kw v (hK v hv) w (hK w hw),
    fun w hw i hi j hj => h.tags w (hK w hw) i (hD i hi) j (hD j hj)⟩

/-- **C70** (part) with C12: for the histories of C12, a search that has returned has returned the documents
inserted and not removed by the requests before it. -/
theorem C70_exact_partial (c : Crypto PK KS CT Rand) (laws : PunctLaws c) (es : List (Ev Rand))
    (hfit : (issued es).length + 1 < 2 ^ 32) (hnc : NoCollisionFor c (issued es))
    (hadm : Janus.Spec.admissible (fun _ => ⟨[], []⟩) (issued es) = true)
    (hcare : allCareful (CSys.init c) es = true) (k : Nat) (call : Call c) (w : Str)
    (hk : ((CSys.init c).run es).calls[k]? = some call) (hover : call.pc.over = true)
    (hop : (issued es)[k]? = some (.search w)) :
    ∃ res, call.pc = .done (some res) ∧
      (Janus.Spec.run Janus.Spec.empty ((issued es).take (k + 1))).getLast? = some res := by
  obtain ⟨op, q, outs, q', out, h1, h2, h3, h4⟩ := C70_partial c es hfit hnc hcare k call hk hover
  rw [hop] at h1
  obtain rfl := Option.some.inj h1
  have htake : (issued es).take (k + 1) = (issued es).take k ++ [.search w] := by
    rw [List.take_add_one, hop]; rfl
  have hall := List.take_append_drop (k + 1) (issued es)
  rw [← hall] at hnc hadm
  obtain ⟨q2, h5⟩ := C12_search_exact_partial c laws ((issued es).take (k + 1))
    (by rw [List.length_take]; omega) (noCollision_prefix c _ _ hnc)
    (admissible_prefix _ _ _ hadm)
  have h6 := run_snoc c _ _ h2 h3
  rw [← htake, h5] at h6
  obtain ⟨-, h7⟩ := Prod.mk.inj (Except.ok.inj h6)
  have hout : ∃ res, out = some res := by
    simp only [Janus.step] at h3
    cases hs : Janus.search c q.server (searchRequest c q.client w).1 with
    | error e => rw [hs] at h3; exact absurd h3 (by simp)
    | ok p =>
      rw [hs] at h3
      exact ⟨p.1, (Prod.mk.inj (Except.ok.inj h3)).2.symm⟩
  obtain ⟨res, rfl⟩ := hout
  exact ⟨res, h4, by rw [h7]; simp⟩

/-! ## All calls return -/

/-- How many accesses a call still makes at most. -/
def todo {c : Crypto PK KS CT Rand} : Pc c → Nat
  | .insert _ => 1
  | .remove _ => 1
  | .insGet req ls _ => 2 * ls.length + 1 + delTodo req
  | .insErase req _ ls _ => 2 * ls.length + 2 + delTodo req
  | .delGet _ _ ls _ => 2 * ls.length + 3
  | .delErase _ _ _ ls _ => 2 * ls.length + 4
  | .cacheGet _ _ _ => 2
  | .cachePut _ _ _ => 1
  | .done _ => 0
  | .failed _ => 0
where
  delTodo {c : Crypto PK KS CT Rand} (req : SearchReq c) : Nat :=
    match searchLeaves c.del req.del with
    | none => 0
    | some l => 2 * l.length + 3

theorem todo_work (c : Crypto PK KS CT Rand) (srv : Server KS CT) (pc : Pc c) :
    todo (work c srv pc).2 ≤ todo pc - 1 := by
  cases pc with
  | insGet req ls acc =>
    cases ls with
    | nil =>
      simp only [work, startDel]
      cases hd : searchLeaves c.del req.del <;> simp [todo, todo.delTodo, hd]
    | cons l ls =>
      simp only [work]
      split <;> simp only [todo, List.length_cons] <;> omega
  | delGet req is ls acc =>
    cases ls with
    | nil => simp [work, todo]
    | cons l ls =>
      simp only [work]
      split <;> simp only [todo, List.length_cons] <;> omega
  | cacheGet req is shares =>
    simp only [work]
    split <;> simp [todo]
  | insErase req t ls acc => simp only [work, todo]; omega
  | delErase req is t ls acc => simp only [work, todo]; omega
  | _ => simp [work, todo]

theorem todo_over {c : Crypto PK KS CT Rand} {pc : Pc c} (h : todo pc = 0) : pc.over = true := by
  cases pc <;> simp_all [todo, Pc.over]

/-- How often call `k` works in a history. -/
def works (k : Nat) : List (Ev Rand) → Nat
  | [] => 0
  | .issue _ :: es => works k es
  | .work j :: es => if j = k then works k es + 1 else works k es

/-- **C70**: every call returns, in every state and whatever the other calls do: there is a number of its own
accesses after which it has returned. -/
theorem C70_ends (c : Crypto PK KS CT Rand) (s : CSys c) (k : Nat) (call : Call c)
    (hk : s.calls[k]? = some call) :
    ∃ b, ∀ es : List (Ev Rand), b ≤ works k es →
      ∃ call', (s.run es).calls[k]? = some call' ∧ call'.pc.over = true := by
  refine ⟨todo call.pc, ?_⟩
  intro es hes
  suffices h : ∀ (es : List (Ev Rand)) (s : CSys c) (call : Call c), s.calls[k]? = some call →
      ∃ call', (s.run es).calls[k]? = some call' ∧ todo call'.pc ≤ todo call.pc - works k es by
    obtain ⟨call', h1, h2⟩ := h es s call hk
    exact ⟨call', h1, todo_over (by omega)⟩
  intro es
  induction es with
  | nil => intro s call hk; exact ⟨call, hk, by simp [works]⟩
  | cons e es ih =>
    intro s call hk
    cases e with
    | issue op => exact ih _ call (get_append_left hk)
    | work j =>
      simp only [CSys.run, CSys.exec, works]
      by_cases hj : j = k
      · subst hj
        simp only [hk, if_true]
        obtain ⟨call', h1, h2⟩ := ih ⟨s.client, (work c s.server call.pc).1,
          s.calls.set j ⟨call.kw, (work c s.server call.pc).2⟩⟩ _ (get_set_self hk)
        have := todo_work c s.server call.pc
        exact ⟨call', h1, by simp only at h2; omega⟩
      · rw [if_neg hj]
        cases hg : s.calls[j]? with
        | none => exact ih s call hk
        | some x =>
          exact ih _ call ((get_set_ne (fun e => hj e.symm)).trans hk)

/-! ## A careful caller -/

/-- What a call has returned, if it has. -/
def returned {c : Crypto PK KS CT Rand} (x : Call c) : Option (Option (List Index)) :=
  match x.pc with
  | .done res => some res
  | _ => none

/-- Two insertions of a keyword and one of another are under way at the same time and stored in the other
order; two searches of different keywords and a removal of a third one are interleaved. -/
def sampleEvents : List (Ev Unit) :=
  [.issue (.insert [97] 1 ()), .issue (.insert [98] 7 ()), .issue (.insert [97] 2 ()), .work 2, .work 1,
    .work 0, .issue (.search [97]), .issue (.search [98]), .work 6, .issue (.remove [99] 5), .work 3, .work 4,
    .work 3, .work 4, .work 4, .work 3, .work 5, .work 3, .work 4, .work 3, .work 3, .work 4, .work 3, .work 4,
    .work 3, .issue (.remove [97] 1), .issue (.insert [97] 3 ()), .work 7, .work 6, .issue (.search [97])] ++
  List.replicate 9 (.work 8)

/-- Non-vacuity of C70: a careful caller, with calls that overlap. -/
example : allCareful (CSys.init Toy.crypto) sampleEvents = true ∧
    NoCollisionFor Toy.crypto (issued sampleEvents) ∧
    Janus.Spec.admissible (fun _ => ⟨[], []⟩) (issued sampleEvents) = true ∧
    ((CSys.init Toy.crypto).run sampleEvents).calls.map returned =
      [some none, some none, some none, some (some [1, 2]), some (some [7]), some none, some none,
        some none, some (some [2, 3])] := by
  refine ⟨by decide +kernel, ?_, by decide, by decide +kernel⟩
  exact toy_noCollisionFor (issued sampleEvents) (by simp [sampleEvents, issued, Janus.Spec.Op.kw])
    (by simp [sampleEvents, issued])

/-! ## Callers that are not careful -/

/-- Two documents; between their insertions a search, then two searches at the same time, of which the
second reads the cached results before the first one stores them and stores its own afterwards. -/
def twoSearches : List (Ev Unit) :=
  [.issue (.insert [97] 1 ()), .work 0, .issue (.search [97])] ++ List.replicate 6 (.work 1) ++
  [.issue (.insert [97] 2 ()), .work 2, .issue (.search [97]), .issue (.search [97])] ++
  List.replicate 3 (.work 4) ++ List.replicate 6 (.work 3) ++ [.work 4] ++
  [.issue (.search [97])] ++ List.replicate 4 (.work 5)

/-- **C70** is false for two searches of a keyword at the same time: all calls have returned, nothing was
removed, and yet the second document, which one of the two searches has returned, is no longer found. It is
in no database any more: the cached results are without it, and its entry, which the server had before the two
searches, was removed. -/
theorem C70_searches_violated :
    ((CSys.init Toy.crypto).run twoSearches).calls.map returned =
      [some none, some (some [1]), some none, some (some [1, 2]), some (some [1]), some (some [1])] ∧
    Janus.Spec.run Janus.Spec.empty (issued twoSearches) = [[1], [1, 2], [1, 2], [1, 2]] ∧
    readCache ((CSys.init Toy.crypto).run twoSearches).server.cache (Toy.crypto.kwToken [97]) =
      .ok [(1, docTag Toy.crypto [97] 1)] ∧
    ((CSys.init Toy.crypto).run (twoSearches.take 11)).server.insEdb
      (Diana.updateToken Toy.crypto.ins (metaNat [97] 1) 0) ≠ none ∧
    ((CSys.init Toy.crypto).run twoSearches).server.insEdb
      (Diana.updateToken Toy.crypto.ins (metaNat [97] 1) 0) = none := by
  refine ⟨by decide +kernel, ?_, by decide +kernel, by decide +kernel, by decide +kernel⟩
  simp [twoSearches, issued, Janus.Spec.run, Janus.Spec.Store.set, Janus.Spec.empty, List.replicate]

/-- An insertion that is stored only after a search that was requested after it. -/
def lateInsert : List (Ev Unit) :=
  [.issue (.insert [97] 1 ()), .issue (.search [97])] ++ List.replicate 5 (.work 1) ++
  [.work 0, .issue (.search [97])] ++ List.replicate 4 (.work 2)

/-- **C70** is false for an insertion and a search of a keyword at the same time: both have returned, and a
later search does not find the document. -/
theorem C70_insert_violated :
    ((CSys.init Toy.crypto).run lateInsert).calls.map returned =
      [some none, some (some []), some (some [])] ∧
    Janus.Spec.run Janus.Spec.empty (issued lateInsert) = [[1], [1]] := by
  refine ⟨by decide +kernel, ?_⟩
  simp [lateInsert, issued, Janus.Spec.run, Janus.Spec.Store.set, Janus.Spec.empty, List.replicate]

/-- A removal that is stored only after a search that was requested after it. -/
def lateRemove : List (Ev Unit) :=
  [.issue (.insert [97] 1 ()), .work 0, .issue (.search [97])] ++ List.replicate 6 (.work 1) ++
  [.issue (.remove [97] 1), .issue (.search [97])] ++ List.replicate 5 (.work 3) ++
  [.work 2, .issue (.search [97])] ++ List.replicate 4 (.work 4)

/-- **C70** is false for a removal and a search of a keyword at the same time: both have returned, and a
later search still returns the document. -/
theorem C70_remove_violated :
    ((CSys.init Toy.crypto).run lateRemove).calls.map returned =
      [some none, some (some [1]), some none, some (some [1]), some (some [1])] ∧
    Janus.Spec.run Janus.Spec.empty (issued lateRemove) = [[1], [], []] := by
  refine ⟨by decide +kernel, ?_⟩
  simp [lateRemove, issued, Janus.Spec.run, Janus.Spec.Store.set, Janus.Spec.empty, List.replicate]

end Verif.Janus.Conc
