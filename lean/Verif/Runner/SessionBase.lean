import Verif.Runner.SessionTr

/-!
# Update sessions: where the requests are

Holds for all the schedules, with any failures.
-/

namespace Verif.Runner.Sess

open Verif

variable {Kw : Type} {S : Scheme Kw}

/-- The messages that a call holds -/
def msgs : Pc S → List (Msg S)
  | .rpc m => [m]
  | .check ms => ms
  | .lock ms => ms
  | .write ms => ms
  | _ => []

/-- The call made no request yet. -/
def Pc.pre : Pc S → Bool
  | .begin => true
  | .direct => true
  | .single => true
  | .list => true
  | _ => false

/-- How many of the messages have number `p` -/
def cn (p : Nat) (ms : List (Msg S)) : Nat := ms.countP (·.1 == p)

/-- How often request `p` is stored, held by a call or in a stream -/
def occ (s : State S) (p : Nat) : Nat :=
  (stored s.trace).count p + (s.calls.map (fun c => cn p (msgs c.2))).sum +
    (s.streams.map (fun z => cn p z.queue)).sum

/-- The update requests for the insertions of the trace -/
def upds (S : Scheme Kw) (t : List (Event Kw)) : List S.Upd := (cliRun S S.cli0 (hist t)).1

theorem numReqs_eq (t : List (Event Kw)) : numReqs t = (requests t).length := by
  induction t with
  | nil => rfl
  | cons e t ih =>
    have : numReqs (e :: t) = numReqs [e] + numReqs t := numReqs_append [e] t
    rw [this, ih]
    cases e <;> simp [numReqs, requests, Nat.add_comm]

theorem cliRun_append (m : S.Cli) (l l' : List (Kw × Index)) :
    cliRun S m (l ++ l') =
      ((cliRun S m l).1 ++ (cliRun S (cliRun S m l).2 l').1, (cliRun S (cliRun S m l).2 l').2) := by
  induction l generalizing m with
  | nil => rfl
  | cons x l ih => obtain ⟨w, i⟩ := x; simp [cliRun, ih]

theorem cliRun_length (m : S.Cli) (l : List (Kw × Index)) : (cliRun S m l).1.length = l.length := by
  induction l generalizing m with
  | nil => rfl
  | cons x l ih => obtain ⟨w, i⟩ := x; simp [cliRun, ih]

theorem upds_length (t : List (Event Kw)) : (upds S t).length = numReqs t := by
  rw [upds, cliRun_length, numReqs_eq]; simp [hist]

theorem sum_set {α : Type} (f : α → Nat) {l : List α} {n : Nat} {x : α} (y : α) (h : l[n]? = some x) :
    ((l.set n y).map f).sum + f x = (l.map f).sum + f y := by
  induction l generalizing n with
  | nil => simp at h
  | cons a l ih =>
    cases n with
    | zero => simp at h; subst h; simp; omega
    | succ n =>
      simp only [List.getElem?_cons_succ] at h
      have := ih h
      simp only [List.set_cons_succ, List.map_cons, List.sum_cons]
      omega

theorem sum_modify_le {α : Type} (f : α → Nat) (l : List α) (n : Nat) (g : α → α) (h : ∀ x, f (g x) ≤ f x) :
    ((l.modify n g).map f).sum ≤ (l.map f).sum := by
  induction l generalizing n with
  | nil => simp
  | cons a l ih =>
    cases n with
    | zero => have := h a; simp; omega
    | succ n => have := ih n; simp; omega

theorem le_sum {α : Type} (f : α → Nat) {l : List α} {n : Nat} {x : α} (h : l[n]? = some x) :
    f x ≤ (l.map f).sum := by
  have := sum_set f x h
  have h2 : l.set n x = l := by
    apply List.ext_getElem?
    intro j
    rw [List.getElem?_set]
    split
    · rename_i e; subst e
      split
      · exact h.symm
      · rename_i hl; rw [List.getElem?_eq_none (by omega)]
    · rfl
  induction l generalizing n with
  | nil => simp at h
  | cons a l ih =>
    cases n with
    | zero => simp at h; subst h; simp
    | succ n =>
      simp at h
      have := ih h (sum_set f x h) (by simpa using h2)
      simp; omega

theorem getElem?_set_some {α : Type} {l : List α} {n j : Nat} {x y z : α} (h : l[n]? = some x)
    (hj : (l.set n y)[j]? = some z) : (j = n ∧ z = y) ∨ (j ≠ n ∧ l[j]? = some z) := by
  rw [List.getElem?_set] at hj
  have hl : n < l.length := (List.getElem?_eq_some_iff.mp h).1
  split at hj
  · rename_i e
    subst e
    exact .inl ⟨rfl, by simpa [hl] using hj.symm⟩
  · rename_i e
    exact .inr ⟨fun e' => e e'.symm, hj⟩

theorem getElem?_modify_some {α : Type} {l : List α} {n j : Nat} {g : α → α} {z : α}
    (hj : (l.modify n g)[j]? = some z) : ∃ x, l[j]? = some x ∧ (z = x ∨ z = g x) := by
  rw [List.getElem?_modify] at hj
  cases hx : l[j]? with
  | none => simp [hx] at hj
  | some x =>
    simp [hx] at hj
    refine ⟨x, rfl, ?_⟩
    split at hj
    · exact .inr hj.symm
    · exact .inl hj.symm

theorem cn_pos {p : Nat} {ms : List (Msg S)} {m : Msg S} (hm : m ∈ ms) (hp : m.1 = p) : 0 < cn p ms := by
  unfold cn
  rw [List.countP_pos_iff]
  exact ⟨m, hm, by simp [hp]⟩

theorem mem_of_cn {p : Nat} {ms : List (Msg S)} (h : 0 < cn p ms) : ∃ u, (p, u) ∈ ms := by
  unfold cn at h
  rw [List.countP_pos_iff] at h
  obtain ⟨⟨q, u⟩, hm, hp⟩ := h
  simp at hp
  exact ⟨u, hp ▸ hm⟩

theorem number_mem {U : Type} {k : Nat} {us : List U} {m : Nat × U} (h : m ∈ number k us) :
    k ≤ m.1 ∧ us[m.1 - k]? = some m.2 := by
  induction us generalizing k with
  | nil => simp [number] at h
  | cons u us ih =>
    simp only [number, List.mem_cons] at h
    rcases h with rfl | h
    · simp
    · obtain ⟨h1, h2⟩ := ih h
      refine ⟨by omega, ?_⟩
      rw [show m.1 - k = (m.1 - (k + 1)) + 1 by omega]
      simpa using h2

theorem cn_number (p k : Nat) (us : List S.Upd) :
    cn p (number k us) = if k ≤ p ∧ p < k + us.length then 1 else 0 := by
  induction us generalizing k with
  | nil => simp [number, cn]
  | cons u us ih =>
    have := ih (k + 1)
    simp only [cn, number, List.countP_cons] at this ⊢
    rw [this]
    by_cases hk : k = p
    · subst hk
      simp
      omega
    · have : ((k, u).1 == p) = false := by simpa using hk
      simp only [List.length_cons, this]
      split <;> split <;> simp_all <;> omega

/-- The messages of a call that made its requests -/
theorem asks_msgs {c : Call Kw} {pc : Pc S} {l : List (Kw × Index)} {pc' : List (Msg S) → Pc S}
    (h : Asks c pc l pc') (k : Nat) (m : S.Cli) :
    msgs (pc' (number k (cliRun S m l).1)) = number k (cliRun S m l).1 ∧ pc.pre = true ∧
      msgs pc = [] ∧ (pc' (number k (cliRun S m l).1)).pre = false := by
  cases h <;> simp [msgs, cliRun, number, Pc.pre]

/-- Where the requests are -/
structure Base (s : State S) : Prop where
  cli : s.cli = (cliRun S S.cli0 (hist s.trace)).2
  srv : s.srv = ((stored s.trace).filterMap fun p => (upds S s.trace)[p]?).foldl S.store S.srv0
  msgC : ∀ (n : Nat) c pc, s.calls[n]? = some (c, pc) → ∀ m ∈ msgs pc,
    (upds S s.trace)[m.1]? = some m.2 ∧ RequestedBy s.trace m.1 n
  msgS : ∀ (k : Nat) z, s.streams[k]? = some z → ∀ m ∈ z.queue, (upds S s.trace)[m.1]? = some m.2
  occ : ∀ p, occ s p ≤ if p < numReqs s.trace then 1 else 0
  pre : ∀ (n : Nat) c pc, s.calls[n]? = some (c, pc) → pc.pre = true → ∀ p, ¬ RequestedBy s.trace p n
  fresh : ∀ n, s.calls.length ≤ n → ∀ p, ¬ RequestedBy s.trace p n
  chk : ∀ (n : Nat) c ms, s.calls[n]? = some (c, .check ms) → ∀ p, RequestedBy s.trace p n → ∃ u, (p, u) ∈ ms
  threw : ∀ n, Event.threw n ∈ s.trace → (∃ c, s.calls[n]? = some (c, .over)) ∧
    ∀ p, RequestedBy s.trace p n → Sess.occ s p = 0

theorem base_init : Base (init S) := by
  constructor <;> simp [init, hist, requests, cliRun, stored, occ, RequestedBy]

/-- A message that is held by a call or in a stream -/
def InBag (s : State S) (m : Msg S) : Prop :=
  (∃ (n : Nat) (c : Call Kw) (pc : Pc S), s.calls[n]? = some (c, pc) ∧ m ∈ msgs pc) ∨
    ∃ (k : Nat) (z : Stream S), s.streams[k]? = some z ∧ m ∈ z.queue

/-- A step without new requests, that stores `st` -/
structure Quiet (s s' : State S) (st : List (Msg S)) : Prop where
  cli : s'.cli = s.cli
  srv : s'.srv = st.foldl (fun x m => S.store x m.2) s.srv
  stOk : ∀ m ∈ st, InBag s m
  req : requests s'.trace = requests s.trace
  sto : stored s'.trace = stored s.trace ++ st.map (·.1)
  calls : ∀ (j : Nat) c pc', s'.calls[j]? = some (c, pc') →
    (s.calls.length ≤ j ∧ pc' = .begin) ∨ ∃ pc, s.calls[j]? = some (c, pc) ∧ (∀ m ∈ msgs pc', m ∈ msgs pc) ∧
      (pc'.pre = true → pc.pre = true) ∧ (∀ ms, pc' = .check ms → pc = .check ms)
  over : ∀ (j : Nat) (c : Call Kw), s.calls[j]? = some (c, .over) → s'.calls[j]? = some (c, .over)
  len : s.calls.length ≤ s'.calls.length
  queues : ∀ (k : Nat) z, s'.streams[k]? = some z → ∀ m ∈ z.queue, InBag s m
  occ : ∀ p, Sess.occ s' p ≤ Sess.occ s p
  threw : ∀ n, Event.threw n ∈ s'.trace → Event.threw n ∈ s.trace ∨
    ∃ c pc, s.calls[n]? = some (c, pc) ∧ (pc.pre = true ∨ ∃ ms, pc = .check ms) ∧
      s'.calls[n]? = some (c, .over) ∧ ∀ m ∈ msgs pc, Sess.occ s' m.1 = 0

theorem Base.bag {s : State S} (h : Base s) {m : Msg S} (hm : InBag s m) :
    (upds S s.trace)[m.1]? = some m.2 := by
  rcases hm with ⟨n, c, pc, hn, hm⟩ | ⟨k, z, hz, hm⟩
  · exact (h.msgC n c pc hn m hm).1
  · exact h.msgS k z hz m hm

theorem Base.quiet {s s' : State S} {st : List (Msg S)} (h : Base s) (q : Quiet s s' st) : Base s' := by
  have hh : hist s'.trace = hist s.trace := by simp [hist, q.req]
  have hu : upds S s'.trace = upds S s.trace := by simp [upds, hh]
  have hr : ∀ p n, RequestedBy s'.trace p n ↔ RequestedBy s.trace p n := by
    intro p n; simp [RequestedBy, q.req]
  have hN : numReqs s'.trace = numReqs s.trace := by simp [numReqs_eq, q.req]
  constructor
  · rw [q.cli, h.cli, hh]
  · rw [q.srv, q.sto, hu, List.filterMap_append, List.foldl_append, ← h.srv]
    have : (st.map (·.1)).filterMap (fun p => (upds S s.trace)[p]?) = st.map (·.2) := by
      have hst := q.stOk
      clear q
      induction st with
      | nil => rfl
      | cons m st ih =>
        simp only [List.map_cons, List.filterMap_cons]
        rw [h.bag (hst m (by simp)), ih (fun m' hm' => hst m' (by simp [hm']))]
    rw [this, List.foldl_map]
  · intro n c pc hn m hm
    rw [hu, hr]
    rcases q.calls n c pc hn with ⟨_, rfl⟩ | ⟨pc0, h0, hs, -, -⟩
    · simp [msgs] at hm
    · exact h.msgC n c pc0 h0 m (hs m hm)
  · intro k z hz m hm
    rw [hu]
    exact h.bag (q.queues k z hz m hm)
  · intro p
    rw [hN]
    exact Nat.le_trans (q.occ p) (h.occ p)
  · intro n c pc hn hp p
    rw [hr]
    rcases q.calls n c pc hn with ⟨hl, rfl⟩ | ⟨pc0, h0, -, hs, -⟩
    · exact h.fresh n hl p
    · exact h.pre n c pc0 h0 (hs hp) p
  · intro n hl p
    rw [hr]
    exact h.fresh n (Nat.le_trans q.len hl) p
  · intro n c ms hn p hp
    rw [hr] at hp
    rcases q.calls n c _ hn with ⟨hl, he⟩ | ⟨pc0, h0, -, -, hs⟩
    · cases he
    · rw [hs ms rfl] at h0
      exact h.chk n c ms h0 p hp
  · intro n hn
    rcases q.threw n hn with h0 | ⟨c, pc, hc, hpc, ho, hz⟩
    · obtain ⟨⟨c, hc⟩, ho⟩ := h.threw n h0
      refine ⟨⟨c, q.over n c hc⟩, fun p hp => ?_⟩
      have := ho p ((hr p n).mp hp)
      have := q.occ p
      omega
    · refine ⟨⟨c, ho⟩, fun p hp => ?_⟩
      rw [hr] at hp
      rcases hpc with hpre | ⟨ms, rfl⟩
      · exact absurd hp (h.pre n c pc hc hpre p)
      · obtain ⟨u, hu⟩ := h.chk n c ms hc p hp
        exact hz (p, u) hu

end Verif.Runner.Sess
