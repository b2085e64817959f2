import Verif.Runner.SessionEnd
import Verif.Runner.SessionLive
import Verif.Diana.Props

/-!
# C56: update sessions of the gRPC clients

In every schedule, also with failures, a search gives exactly the documents whose requests the server stored, and
the server stores no request twice and none of a call that threw. If sessions are started and ended while no
other call but searches is in progress, no null pointer is used, only `insert_in_session` throws and only
without a session, and without failures everything is stored when the session ended. In other cases
insertions are lost although all calls returned normally, or the behaviour is undefined.
-/

namespace Verif.Runner.Sess

open Verif

variable {Kw : Type}

/-! ## All schedules -/

section Sophos

variable {Seed ST DK : Type} [DecidableEq Kw]

/-- **C56**, Sophos: in every schedule of calls, of the server and of failures, a search gives exactly the
documents whose requests are stored when it runs, newest first. -/
theorem C56_sophos_search (c : Sophos.Crypto Kw Seed ST DK) (garbage : ST × DK) (acts : List (Act Kw))
    (p q : List (Event Kw)) (n : Nat) (w : Kw) (r : Option (List Index))
    (h : ((init (sophos c garbage)).run acts).trace = p ++ .found n w r :: q)
    (hfit : Sophos.Fits (hist p)) (hnc : Sophos.NoCollision c (hist p)) :
    r = some (storedDocs w p).reverse := by
  obtain ⟨as, bs, -, rfl, h2⟩ := found_state acts p q n w r rfl h
  rw [h2]
  exact find_sophos c garbage (base_init.run as) w hfit hnc

end Sophos

section Diana

variable [DecidableEq Kw]

/-- **C56**, Diana: the same, oldest first. -/
theorem C56_diana_search (c : Diana.Crypto Kw Index) (acts : List (Act Kw))
    (p q : List (Event Kw)) (n : Nat) (w : Kw) (r : Option (List Index))
    (h : ((init (diana c)).run acts).trace = p ++ .found n w r :: q)
    (hfit : ∀ v, (Diana.Spec.docs v (hist p)).length < 2 ^ 32)
    (hnc : Diana.NoCollision c (fun v => (Diana.Spec.docs v (hist p)).length)) :
    r = some (storedDocs w p) := by
  obtain ⟨as, bs, -, rfl, h2⟩ := found_state acts p q n w r rfl h
  rw [h2]
  exact find_diana c (base_init.run as) w hfit hnc

end Diana

section Generic

variable {S : Scheme Kw}

theorem stored_facts {s : State S} (h : Base s) : (stored s.trace).Nodup ∧
    ∀ p ∈ stored s.trace, p < (requests s.trace).length := by
  constructor
  · rw [List.nodup_iff_count_le_one]
    intro p
    have := h.occ p
    simp only [occ] at this
    split at this <;> omega
  · intro p hp
    have h1 := h.occ p
    have h2 := List.count_pos_iff.mpr hp
    rw [← numReqs_eq]
    simp only [occ] at h1
    split at h1
    · assumption
    · omega

/-- **C56**: in every schedule, also with failures, the server stores only what was requested, no request
twice, and none of a call that threw. -/
theorem C56_stored_once (acts : List (Act Kw)) :
    (stored ((init S).run acts).trace).Nodup ∧
    ∀ p ∈ stored ((init S).run acts).trace, ∃ n, RequestedBy ((init S).run acts).trace p n ∧
      Event.threw n ∉ ((init S).run acts).trace := by
  have hb : Base ((init S).run acts) := base_init.run acts
  obtain ⟨h1, h2⟩ := stored_facts hb
  refine ⟨h1, fun p hp => ?_⟩
  obtain ⟨⟨n, w, i⟩, he⟩ : ∃ x, (requests ((init S).run acts).trace)[p]? = some x :=
    ⟨_, List.getElem?_eq_getElem (h2 p hp)⟩
  refine ⟨n, ⟨w, i, he⟩, fun ht => ?_⟩
  have h3 := (hb.threw n ht).2 p ⟨w, i, he⟩
  have h4 := List.count_pos_iff.mpr hp
  simp only [occ] at h3
  omega

/-! ## Sessions that are started and ended while no other call is in progress -/

variable [DecidableEq Kw]

/-- **C56 (part that holds)**: if sessions are started and ended while no other call but searches is in
progress, then also with failures no null pointer is dereferenced and no stream is used after `WritesDone`.
Missing: sessions that are started or ended during other calls, for which this is false
(`C56_insert_end_violated`, `C56_end_end_violated`). -/
theorem C56_no_fault_partial (acts : List (Act Kw)) (hx : Exclusive ((init S).run acts).trace) :
    ((init S).run acts).fault = none :=
  ((ex_init (S := S)).run acts hx).2

/-- **C56 (part that holds)**: under the same condition, a call throws only if it is an `insert_in_session`, and only
while there is no session. Missing: as for `C56_no_fault_partial` (`C56_insert_throws_violated`). -/
theorem C56_throws_partial (acts : List (Act Kw)) (hx : Exclusive ((init S).run acts).trace)
    (p q : List (Event Kw)) (n : Nat) (h : ((init S).run acts).trace = p ++ .threw n :: q) :
    (scan p).isOpen = false ∧ ((∃ w i, Event.called n (.insertIn w i) ∈ p) ∨
      ∃ l, Event.called n (.insertList l) ∈ p) := by
  obtain ⟨as, rfl, h1, c, pc, h2, h3⟩ := threw_state (s := init S) (by intro h; cases h) ex_init acts p q n rfl h hx
  have hcal := ((ended_init (S := S)).run base_init as).called n c
  refine ⟨h1, ?_⟩
  rcases h3 with ⟨w, i, rfl⟩ | ⟨l, rfl⟩
  · exact .inl ⟨w, i, hcal.mpr ⟨pc, h2⟩⟩
  · exact .inr ⟨l, hcal.mpr ⟨pc, h2⟩⟩

/-- **C56 (part that holds)**: if moreover there is no failure of the network or of the server, then everything that
was requested by a call that returned is stored when there is no session: `end_update_session` waits for the
server, and `insert` without a session too. Missing: failures, and sessions that are started or ended during other
calls, for which this is false (`C56_broken_stream_violated`, `C56_insert_failed_violated`,
`C56_start_start_violated`). -/
theorem C56_session_partial (acts : List (Act Kw)) (ha : acts.all Act.good = true)
    (hx : Exclusive ((init S).run acts).trace) (ho : (scan ((init S).run acts).trace).isOpen = false) (p n : Nat)
    (hp : RequestedBy ((init S).run acts).trace p n) (hn : Event.returned n ∈ ((init S).run acts).trace) :
    p ∈ stored ((init S).run acts).trace := by
  have hb : Base ((init S).run acts) := base_init.run acts
  have he := ((ex_init (S := S)).run acts hx).1
  have hg := (good_init (S := S)).run base_init ex_init acts ha hx
  obtain ⟨⟨c, hc⟩, ht⟩ := ((ended_init (S := S)).run base_init acts).returned n hn
  refine hg.stored he ho hp ?_ hb ht
  intro d pc hd
  rw [hc] at hd
  cases hd
  rfl

theorem mem_active_search {s : State S} (hb : Base s) (he : Ex s)
    (hs : ∀ a ∈ (scan s.trace).active, a.2.isSearch = true) {p n : Nat} (hp : RequestedBy s.trace p n)
    (c : Call Kw) (pc : Pc S) (hc : s.calls[n]? = some (c, pc)) : pc = .over := by
  by_contra hne
  have h1 := hs (n, c) ((he.act n c).mpr ⟨pc, hc, hne⟩)
  have hbeg : pc = .begin := by
    by_contra hb2
    rw [shape_search (he.shape n c pc hc) hb2 hne] at h1
    cases h1
  subst hbeg
  exact hb.pre n c _ hc rfl p hp

omit [DecidableEq Kw] in
theorem documents_accepted [DecidableEq Kw] (w : Kw) (R : List (Nat × Kw × Index)) (D : List Nat) (P : Nat → Bool)
    (h : ∀ p x, R[p]? = some x → (p ∈ D ↔ P x.1 = true)) :
    Live.Spec.documents w (R.map (·.2)) D =
      (((R.filter (fun r => P r.1)).map (·.2)).filter (fun e => e.1 = w)).map (·.2) := by
  induction R using List.reverseRecOn with
  | nil => rfl
  | append_singleton R x ih =>
    obtain ⟨n, v, i⟩ := x
    have ih' := ih (fun p y hy => h p y (by
      rw [List.getElem?_append_left (List.getElem?_eq_some_iff.mp hy).1]; exact hy))
    have hx := h R.length (n, v, i) (by simp)
    rw [List.map_append, List.map_cons, List.map_nil, Live.Spec.documents, Live.entries_snoc, List.filter_append,
      List.map_append]
    rw [Live.Spec.documents] at ih'
    rw [ih', List.filter_append, List.map_append, List.filter_append, List.map_append]
    congr 1
    by_cases hv : v = w
    · by_cases hP : P n = true
      · have : R.length ∈ D := hx.mpr hP
        simp [hv, hP, this]
      · have : R.length ∉ D := fun hd => hP (hx.mp hd)
        simp [hv, hP, this]
    · by_cases hP : P n = true <;> simp [hv, hP]

/-- What is stored when there is no session and no insertion in progress -/
theorem storedDocs_accepted {s : State S} (hb : Base s) (he : Ex s) (hg : Good s)
    (ho : (scan s.trace).isOpen = false) (hs : ∀ a ∈ (scan s.trace).active, a.2.isSearch = true) (w : Kw) :
    storedDocs w s.trace = acceptedDocs w s.trace := by
  unfold storedDocs acceptedDocs accepted hist
  refine documents_accepted w _ _ (fun n => decide (Event.threw n ∉ s.trace)) ?_
  rintro p ⟨n, v, i⟩ hp
  have hr : RequestedBy s.trace p n := ⟨v, i, hp⟩
  simp only [decide_eq_true_eq]
  constructor
  · intro hp ht
    have h3 := (hb.threw n ht).2 p hr
    have h4 := List.count_pos_iff.mpr hp
    simp only [occ] at h3
    omega
  · intro ht
    exact hg.stored he ho hr (mem_active_search hb he hs hr) hb ht

/-- **C56 (part that holds)**: under the first condition and also after failures, no call waits for ever: as long as
calls are in progress, one of them can go on or the server can read a message, and this ends. Missing: sessions
that are started or ended during other calls, which are undefined behaviour in some cases. -/
theorem C56_completes_partial (acts : List (Act Kw)) (hx : Exclusive ((init S).run acts).trace) :
    ∃ acts' : List (Act Kw), (∀ a ∈ acts', ∃ m, a = .step m ∨ a = .recv m) ∧
      (scan ((init S).run (acts ++ acts')).trace).active = [] := by
  obtain ⟨h1, h2⟩ := (ex_init (S := S)).run acts hx
  obtain ⟨acts', h3, h4, h5⟩ := completes (held_init.run acts) h1 hx h2
  have hrun : (init S).run (acts ++ acts') = ((init S).run acts).run acts' := by simp [State.run]
  refine ⟨acts', h3, ?_⟩
  rw [hrun, List.eq_nil_iff_forall_not_mem]
  rintro ⟨n, c⟩ hm
  obtain ⟨pc, h6, h7⟩ := (h4.act n c).mp hm
  exact h7 (h5 n c pc h6)

end Generic

/-- **C56 (part that holds)**, Sophos: under these conditions, a search that runs while there is no session and no
insertion in progress gives exactly the documents inserted by the calls that did not throw, newest first. -/
theorem C56_sophos_exact_partial {Seed ST DK : Type} [DecidableEq Kw] (c : Sophos.Crypto Kw Seed ST DK)
    (garbage : ST × DK) (acts : List (Act Kw)) (ha : acts.all Act.good = true)
    (hx : Exclusive ((init (sophos c garbage)).run acts).trace)
    (p q : List (Event Kw)) (n : Nat) (w : Kw) (r : Option (List Index))
    (h : ((init (sophos c garbage)).run acts).trace = p ++ .found n w r :: q)
    (ho : (scan p).isOpen = false) (hs : ∀ a ∈ (scan p).active, a.2.isSearch = true)
    (hfit : Sophos.Fits (hist p)) (hnc : Sophos.NoCollision c (hist p)) :
    r = some (acceptedDocs w p).reverse := by
  obtain ⟨as, bs, hab, rfl, h2⟩ := found_state acts p q n w r rfl h
  rw [h] at hx
  rw [h2, find_sophos c garbage (base_init.run as) w hfit hnc]
  rw [hab, List.all_append, Bool.and_eq_true] at ha
  rw [storedDocs_accepted (base_init.run as) (ex_init.run as (exclusive_prefix hx)).1
    (good_init.run base_init ex_init as ha.1 (exclusive_prefix hx)) ho hs w]

/-- **C56 (part that holds)**, Diana: the same, oldest first. -/
theorem C56_diana_exact_partial [DecidableEq Kw] (c : Diana.Crypto Kw Index) (acts : List (Act Kw))
    (ha : acts.all Act.good = true) (hx : Exclusive ((init (diana c)).run acts).trace)
    (p q : List (Event Kw)) (n : Nat) (w : Kw) (r : Option (List Index))
    (h : ((init (diana c)).run acts).trace = p ++ .found n w r :: q)
    (ho : (scan p).isOpen = false) (hs : ∀ a ∈ (scan p).active, a.2.isSearch = true)
    (hfit : ∀ v, (Diana.Spec.docs v (hist p)).length < 2 ^ 32)
    (hnc : Diana.NoCollision c (fun v => (Diana.Spec.docs v (hist p)).length)) :
    r = some (acceptedDocs w p) := by
  obtain ⟨as, bs, hab, rfl, h2⟩ := found_state acts p q n w r rfl h
  rw [h] at hx
  rw [h2, find_diana c (base_init.run as) w hfit hnc]
  rw [hab, List.all_append, Bool.and_eq_true] at ha
  rw [storedDocs_accepted (base_init.run as) (ex_init.run as (exclusive_prefix hx)).1
    (good_init.run base_init ex_init as ha.1 (exclusive_prefix hx)) ho hs w]

/-! ## Examples -/

/-- Can be tested -/
theorem exclusive_iff [DecidableEq Kw] (t : List (Event Kw)) :
    Exclusive t ↔ ∀ k < t.length + 1, (scan (t.take k)).exclusive = true := by
  constructor
  · intro h k _
    exact h (t.take k) (t.drop k) (List.take_append_drop k t).symm
  · rintro h p q rfl
    simpa using h p.length (by simp; omega)

instance [DecidableEq Kw] (t : List (Event Kw)) : Decidable (Exclusive t) :=
  decidable_of_iff _ (exclusive_iff t).symm

namespace Toy

/-- A Sophos client and server -/
abbrev S : State (sophos Sophos.Toy.crypto (0, false)) := init _

/-- A Diana client and server -/
abbrev D : State (diana Diana.Toy.crypto) := init _

/-- Call number `n`, which is `c`, makes `k` steps. -/
def doCall (n : Nat) (c : Call Bool) (k : Nat) : List (Act Bool) := .call c :: List.replicate k (.step n)

/-- A refused insertion, one outside a session, a session with two insertions in two threads and one by
`insert`, and searches after and during the session -/
def acts : List (Act Bool) :=
  doCall 0 (.insertIn true 3) 3 ++ doCall 1 (.insert true 4) 3 ++ doCall 2 .start 3 ++
  [.call (.insertIn true 5), .call (.insertIn false 6), .step 3, .step 4, .step 4, .step 3, .step 3, .step 4, .step 4,
    .step 3, .step 4, .step 4, .step 3, .step 3, .step 3] ++ [.recv 0] ++ doCall 5 (.insert true 7) 6 ++
  doCall 6 (.search true) 1 ++ doCall 7 .finish 2 ++ [.recv 0, .recv 0, .step 7, .step 7, .step 7] ++
  doCall 8 (.search true) 1

/-- The same with an insertion of a list in the session -/
def actsD : List (Act Bool) :=
  doCall 0 (.insertList [(true, 3)]) 1 ++ doCall 1 (.insert true 4) 3 ++ doCall 2 .start 3 ++
  doCall 3 (.insertList [(true, 5), (false, 6), (true, 5)]) 7 ++ [.recv 0] ++ doCall 4 (.search true) 1 ++
  doCall 5 .finish 2 ++ [.recv 0, .recv 0, .step 5, .step 5, .step 5] ++ doCall 6 (.search true) 1

end Toy

/-- The schedule of Sophos: the first insertion throws, the search during the session sees a part, the one after it all. -/
example : (Toy.S.run Toy.acts).trace =
    [.called 0 (.insertIn true 3), .requested 0 true 3, .threw 0,
     .called 1 (.insert true 4), .requested 1 true 4, .stored 1, .returned 1, .called 2 .start, .returned 2,
     .called 3 (.insertIn true 5), .called 4 (.insertIn false 6), .requested 4 false 6, .requested 3 true 5,
     .returned 4, .returned 3, .stored 2, .called 5 (.insert true 7), .requested 5 true 7, .returned 5,
     .called 6 (.search true), .found 6 true (some [4]), .called 7 .finish, .stored 3, .stored 4,
     .returned 7, .called 8 (.search true), .found 8 true (some [7, 5, 4])] := by decide +kernel

/-- Non-vacuity of `C56_sophos_search`, for the search during the session -/
example : ∃ p q, (Toy.S.run Toy.acts).trace = p ++ .found 6 true (some [4]) :: q ∧
    Sophos.Fits (hist p) ∧ Sophos.NoCollision Sophos.Toy.crypto (hist p) ∧ (storedDocs true p).reverse = [4] := by
  refine ⟨(Toy.S.run Toy.acts).trace.take 20, (Toy.S.run Toy.acts).trace.drop 21, by decide +kernel, ?_, ?_,
    by decide +kernel⟩
  · intro w
    cases w <;> decide +kernel
  · exact Sophos.Toy.noCollision _ (by decide +kernel)

/-- Non-vacuity of `C56_sophos_exact_partial`, for the search after the session, and of the other theorems -/
example : Toy.acts.all Act.good = true ∧ Exclusive (Toy.S.run Toy.acts).trace ∧
    ∃ p q, (Toy.S.run Toy.acts).trace = p ++ .found 8 true (some [7, 5, 4]) :: q ∧ (scan p).isOpen = false ∧
      (∀ a ∈ (scan p).active, a.2.isSearch = true) ∧
      Sophos.Fits (hist p) ∧ Sophos.NoCollision Sophos.Toy.crypto (hist p) ∧
      (acceptedDocs true p).reverse = [7, 5, 4] := by
  refine ⟨by decide, by decide +kernel, (Toy.S.run Toy.acts).trace.take 26, [], by decide +kernel, by decide +kernel,
    by decide +kernel, ?_, ?_, by decide +kernel⟩
  · intro w
    cases w <;> decide +kernel
  · exact Sophos.Toy.noCollision _ (by decide +kernel)

/-- Non-vacuity of `C56_session_partial`: request 3 of call 3 -/
example : (scan (Toy.S.run Toy.acts).trace).isOpen = false ∧ RequestedBy (Toy.S.run Toy.acts).trace 3 3 ∧
    Event.returned 3 ∈ (Toy.S.run Toy.acts).trace :=
  ⟨by decide +kernel, ⟨true, 5, by decide +kernel⟩, by decide +kernel⟩

/-- Non-vacuity of `C56_completes_partial`: calls in progress in the middle of the schedule, after a failure -/
example : Exclusive (Toy.S.run (Toy.acts.take 20 ++ [.break 0])).trace ∧
    (scan (Toy.S.run (Toy.acts.take 20 ++ [.break 0])).trace).active =
      [(3, .insertIn true 5), (4, .insertIn false 6)] := by decide +kernel

/-- The schedule of Diana -/
example : (Toy.D.run Toy.actsD).trace =
    [.called 0 (.insertList [(true, 3)]), .threw 0,
     .called 1 (.insert true 4), .requested 1 true 4, .stored 0, .returned 1, .called 2 .start, .returned 2,
     .called 3 (.insertList [(true, 5), (false, 6), (true, 5)]), .requested 3 true 5, .requested 3 false 6,
     .requested 3 true 5, .returned 3, .stored 1, .called 4 (.search true), .found 4 true (some [4, 5]),
     .called 5 .finish, .stored 2, .stored 3, .returned 5, .called 6 (.search true),
     .found 6 true (some [4, 5, 5])] := by decide +kernel

/-- Non-vacuity of `C56_diana_search` and `C56_diana_exact_partial` -/
example : Toy.actsD.all Act.good = true ∧ Exclusive (Toy.D.run Toy.actsD).trace ∧
    ∃ p q, (Toy.D.run Toy.actsD).trace = p ++ .found 6 true (some [4, 5, 5]) :: q ∧ (scan p).isOpen = false ∧
      (∀ a ∈ (scan p).active, a.2.isSearch = true) ∧
      (∀ v, (Diana.Spec.docs v (hist p)).length < 2 ^ 32) ∧
      Diana.NoCollision Diana.Toy.crypto (fun v => (Diana.Spec.docs v (hist p)).length) ∧
      acceptedDocs true p = [4, 5, 5] := by
  refine ⟨by decide, by decide +kernel, (Toy.D.run Toy.actsD).trace.take 21, [], by decide +kernel, by decide +kernel,
    by decide +kernel, ?_, ?_, by decide +kernel⟩
  · intro w
    cases w <;> decide +kernel
  · exact Diana.Toy.noCollision _ (by decide +kernel)

/-- Non-vacuity of `C56_throws_partial` and `C56_stored_once`: the first call threw, and its request is not among the stored
ones. -/
example : Exclusive (Toy.S.run Toy.acts).trace ∧
    (∃ q, (Toy.S.run Toy.acts).trace =
      [.called 0 (.insertIn true 3), .requested 0 true 3] ++ .threw 0 :: q) ∧
    stored (Toy.S.run Toy.acts).trace = [1, 2, 3, 4] :=
  ⟨by decide +kernel, ⟨(Toy.S.run Toy.acts).trace.drop 3, by decide +kernel⟩, by decide +kernel⟩

/-! ## What fails -/

/-- **C56 is violated**: the stream breaks after `insert_in_session` returned. `end_update_session` returns normally,
and the insertion is lost. -/
theorem C56_broken_stream_violated : ∃ acts : List (Act Bool), Exclusive (Toy.S.run acts).trace ∧
    (Toy.S.run acts).trace =
      [.called 0 .start, .returned 0, .called 1 (.insertIn true 5), .requested 1 true 5, .returned 1,
       .called 2 .finish, .returned 2, .called 3 (.search true), .found 3 true (some [])] :=
  ⟨Toy.doCall 0 .start 3 ++ Toy.doCall 1 (.insertIn true 5) 6 ++ [.break 0] ++ Toy.doCall 2 .finish 5 ++
    Toy.doCall 3 (.search true) 1, by decide +kernel⟩

/-- **C56 is violated**: a failed `insert` outside a session returns normally, and the insertion is lost. -/
theorem C56_insert_failed_violated : ∃ acts : List (Act Bool), Exclusive (Toy.S.run acts).trace ∧
    (Toy.S.run acts).trace = [.called 0 (.insert true 5), .requested 0 true 5, .returned 0,
      .called 1 (.search true), .found 1 true (some [])] :=
  ⟨Toy.doCall 0 (.insert true 5) 2 ++ [.rpcFail 0 false] ++ Toy.doCall 1 (.search true) 1, by decide +kernel⟩

/-- **C56 is violated**: without any failure, an `insert` while a session is open returns before the server
stored anything, and a search that runs afterwards misses it. A session stays open when `load_inverted_index`
ends by an exception, for instance of the JSON parser. -/
theorem C56_open_session_violated : ∃ acts : List (Act Bool), acts.all Act.good = true ∧
    Exclusive (Toy.S.run acts).trace ∧ (Toy.S.run acts).trace =
      [.called 0 .start, .returned 0, .called 1 (.insert true 5), .requested 1 true 5, .returned 1,
       .called 2 (.search true), .found 2 true (some [])] :=
  ⟨Toy.doCall 0 .start 3 ++ Toy.doCall 1 (.insert true 5) 6 ++ Toy.doCall 2 (.search true) 1, by decide +kernel⟩

/-- **C56 is violated**: two calls of `start_update_session` at the same time replace the stream, and without any failure
an insertion is lost although all calls returned normally: no stream holds it any more, and a search misses it. -/
theorem C56_start_start_violated : ∃ acts : List (Act Bool), acts.all Act.good = true ∧
    (Toy.S.run acts).streams.all (fun z => z.queue.isEmpty) = true ∧ (Toy.S.run acts).trace =
      [.called 0 .start, .called 1 .start, .returned 0, .called 2 (.insertIn true 5), .requested 2 true 5,
       .returned 2, .returned 1, .called 3 .finish, .returned 3, .called 4 (.search true),
       .found 4 true (some [])] :=
  ⟨[.call .start, .call .start, .step 0, .step 1, .step 0, .step 0] ++ Toy.doCall 2 (.insertIn true 5) 6 ++
    [.step 1, .step 1] ++ Toy.doCall 3 .finish 5 ++ Toy.doCall 4 (.search true) 1, by decide +kernel⟩

/-- **C56 is violated**: `end_update_session` does not take the mutex. While an insertion is about to write, it
destroys the stream (null pointer), or ends it (write after `WritesDone`). -/
theorem C56_insert_end_violated : ∃ acts acts' : List (Act Bool),
    acts.all Act.good = true ∧ (Toy.S.run acts).fault = some .null ∧
    acts'.all Act.good = true ∧ (Toy.S.run acts').fault = some .writeAfterDone :=
  ⟨Toy.doCall 0 .start 3 ++ Toy.doCall 1 (.insertIn true 5) 4 ++ Toy.doCall 2 .finish 5 ++ [.step 1],
   Toy.doCall 0 .start 3 ++ Toy.doCall 1 (.insertIn true 5) 4 ++ Toy.doCall 2 .finish 2 ++ [.step 1],
   by decide +kernel⟩

/-- **C56 is violated**: two calls of `end_update_session` at the same time use the stream after `WritesDone`. -/
theorem C56_end_end_violated : ∃ acts : List (Act Bool), acts.all Act.good = true ∧
    (Toy.S.run acts).fault = some .writeAfterDone :=
  ⟨Toy.doCall 0 .start 3 ++ [.call .finish, .call .finish, .step 1, .step 2, .step 1, .step 2], by decide +kernel⟩

/-- **C56 is violated**: a plain `insert` that found the session open throws if the session ends meanwhile, and its
insertion is not done. -/
theorem C56_insert_throws_violated : ∃ acts : List (Act Bool), acts.all Act.good = true ∧
    (Toy.S.run acts).trace =
      [.called 0 .start, .returned 0, .called 1 (.insert true 5), .called 2 .finish, .returned 2,
       .requested 1 true 5, .threw 1] :=
  ⟨Toy.doCall 0 .start 3 ++ Toy.doCall 1 (.insert true 5) 1 ++ Toy.doCall 2 .finish 5 ++ [.step 1, .step 1],
   by decide +kernel⟩

/-- **C56**: a refused `insert_in_session` has used a value of the counter of its keyword (the request is made
before the test), the version for a list has not. -/
theorem C56_refused {S : Scheme Kw} (s : State S) (n : Nat) (c : Call Kw) (hf : s.fault = none)
    (hn : s.calls[n]? = some (c, .begin)) (hu : s.isUp = false) :
    (∀ w i, c = .insertIn w i → (s.run [.step n, .step n, .step n]).cli = (S.request s.cli w i).2 ∧
      (s.run [.step n, .step n, .step n]).trace = s.trace ++ [.requested n w i, .threw n]) ∧
    ∀ l, c = .insertList l → (s.run [.step n]).cli = s.cli ∧
      (s.run [.step n]).trace = s.trace ++ [.threw n] := by
  have hl := (List.getElem?_eq_some_iff.mp hn).1
  constructor
  · rintro w i rfl
    have hs : ∀ p : Call Kw × Pc S, (s.calls.set n p)[n]? = some p := fun p => by
      rw [List.getElem?_set_self hl]
    have h1 : s.step (.step n) = { s with calls := s.calls.set n (.insertIn w i, .single) } := by
      simp only [State.step, hf, hn, State.advance, State.goto]
    have h2 : (s.step (.step n)).step (.step n) = { s with
        cli := (S.request s.cli w i).2, trace := s.trace ++ [.requested n w i],
        calls := s.calls.set n (.insertIn w i, .check [(numReqs s.trace, (S.request s.cli w i).1)]) } := by
      rw [h1]
      simp only [State.step, hf, hs, State.advance, State.goto, State.request, List.set_set]
    simp only [State.run, List.foldl_cons, List.foldl_nil]
    rw [h2]
    simp [State.step, hf, hu, hs, State.advance, State.goto, State.throw]
  · rintro l rfl
    simp [State.run, State.step, State.advance, State.goto, State.throw, hf, hn, hu]

/-- Non-vacuity of `C56_refused` -/
example : (Toy.S.run (Toy.doCall 0 (.insertIn true 3) 0)).fault = none ∧
    (Toy.S.run (Toy.doCall 0 (.insertIn true 3) 0)).isUp = false ∧
    (Toy.S.run (Toy.doCall 0 (.insertIn true 3) 0)).calls[0]? = some (.insertIn true 3, .begin) := ⟨rfl, rfl, rfl⟩

end Verif.Runner.Sess
