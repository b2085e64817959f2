import Verif.Runner.SessionStep

/-!
# Update sessions that are started and ended while no other call is in progress
-/

namespace Verif.Runner.Sess

open Verif

variable {Kw : Type} {S : Scheme Kw}

/-- Where the different calls may be -/
def Shape : Call Kw → Pc S → Prop
  | _, .begin => True
  | _, .over => True
  | c, .direct => ∃ w i, c = .insert w i
  | c, .rpc _ => ∃ w i, c = .insert w i
  | c, .single => ∃ w i, c = .insert w i ∨ c = .insertIn w i
  | c, .check _ => ∃ w i, c = .insert w i ∨ c = .insertIn w i
  | c, .list => ∃ l, c = .insertList l
  | c, .lock _ => c.isSession = false ∧ c.isSearch = false
  | c, .write _ => c.isSession = false ∧ c.isSearch = false
  | c, .writesDone => c = .finish
  | c, .wait => c = .finish
  | c, .down => c = .finish
  | c, .reset => c = .finish
  | c, .opening => c = .start
  | c, .up => c = .start

/-- A session is being started or ended. -/
def Pc.mid : Pc S → Bool
  | .writesDone => true
  | .wait => true
  | .down => true
  | .reset => true
  | .opening => true
  | .up => true
  | _ => false

/-- The current stream -/
def HasStream (s : State S) (P : Stream S → Prop) : Prop :=
  ∃ (k : Nat) (z : Stream S), s.writer = some k ∧ s.streams[k]? = some z ∧ P z

/-- What is known of the session for a call at `pc` -/
def Loc (s : State S) (c : Call Kw) : Pc S → Prop
  | .begin => True
  | .over => True
  | .direct => s.writer = none
  | .rpc _ => s.writer = none
  | .single => (∃ w i, c = .insert w i) → s.writer.isSome = true
  | .check _ => (∃ w i, c = .insert w i) → s.writer.isSome = true
  | .list => s.writer.isSome = true
  | .lock _ => s.writer.isSome = true
  | .write _ => s.writer.isSome = true
  | .writesDone => s.isUp = true ∧ HasStream s (fun z => z.done = false)
  | .wait => s.isUp = true ∧ HasStream s (fun z => z.done = true)
  | .down => HasStream s (fun z => z.queue = [])
  | .reset => s.isUp = false ∧ HasStream s (fun z => z.queue = [])
  | .opening => s.writer = none ∧ s.isUp = false
  | .up => s.isUp = false ∧ HasStream s (fun z => z.done = false)

/-- The session when none is being started or ended -/
def Idle (s : State S) : Prop :=
  s.isUp = s.writer.isSome ∧ ∀ k, s.writer = some k → ∃ z, s.streams[k]? = some z ∧ z.done = false

theorem shape_search {c : Call Kw} {pc : Pc S} (h : Shape c pc) (h1 : pc ≠ .begin) (h2 : pc ≠ .over) :
    c.isSearch = false := by
  cases pc <;> simp only [Shape] at h <;> first
    | exact absurd rfl h1
    | exact absurd rfl h2
    | exact h.2
    | (subst h; rfl)
    | (obtain ⟨l, rfl⟩ := h; rfl)
    | (obtain ⟨w, i, rfl⟩ := h; rfl)
    | (obtain ⟨w, i, rfl | rfl⟩ := h <;> rfl)

theorem shape_mid {c : Call Kw} {pc : Pc S} (h : Shape c pc) (h1 : pc.mid = true) : c.isSession = true := by
  cases pc <;> simp [Pc.mid] at h1 <;> simp only [Shape] at h <;> (subst h; rfl)

/-- The session is the same, and streams keep their flags. -/
structure Frame (s s' : State S) : Prop where
  writer : s'.writer = s.writer
  isUp : s'.isUp = s.isUp
  streams : ∀ (k : Nat) z, s.streams[k]? = some z → ∃ z', s'.streams[k]? = some z' ∧ z'.done = z.done

theorem Frame.loc {s s' : State S} (f : Frame s s') {c : Call Kw} {pc : Pc S}
    (hq : pc.mid = true → ∀ (k : Nat) z, s.streams[k]? = some z → z.queue = [] →
      ∀ z', s'.streams[k]? = some z' → z'.queue = []) (h : Loc s c pc) : Loc s' c pc := by
  have hdone : ∀ b, HasStream s (fun z => z.done = b) → HasStream s' (fun z => z.done = b) := by
    rintro b ⟨k, z, h1, h2, h3⟩
    obtain ⟨z', h4, h5⟩ := f.streams k z h2
    exact ⟨k, z', by rw [f.writer, h1], h4, h5.trans h3⟩
  have hqueue : pc.mid = true → HasStream s (fun z => z.queue = []) → HasStream s' (fun z => z.queue = []) := by
    rintro hm ⟨k, z, h1, h2, h3⟩
    obtain ⟨z', h4, h5⟩ := f.streams k z h2
    exact ⟨k, z', by rw [f.writer, h1], h4, hq hm k z h2 h3 z' h4⟩
  cases pc with
  | begin => trivial
  | over => trivial
  | direct => simpa [Loc, f.writer] using h
  | rpc => simpa [Loc, f.writer] using h
  | single => simpa [Loc, f.writer] using h
  | check => simpa [Loc, f.writer] using h
  | list => simpa [Loc, f.writer] using h
  | lock => simpa [Loc, f.writer] using h
  | write => simpa [Loc, f.writer] using h
  | writesDone => exact ⟨by rw [f.isUp]; exact h.1, hdone _ h.2⟩
  | wait => exact ⟨by rw [f.isUp]; exact h.1, hdone _ h.2⟩
  | down => exact hqueue rfl h
  | reset => exact ⟨by rw [f.isUp]; exact h.1, hqueue rfl h.2⟩
  | opening => exact ⟨by rw [f.writer]; exact h.1, by rw [f.isUp]; exact h.2⟩
  | up => exact ⟨by rw [f.isUp]; exact h.1, hdone _ h.2⟩

theorem Frame.idle {s s' : State S} (f : Frame s s') (h : Idle s) : Idle s' := by
  refine ⟨by rw [f.writer, f.isUp]; exact h.1, fun k hk => ?_⟩
  rw [f.writer] at hk
  obtain ⟨z, h1, h2⟩ := h.2 k hk
  obtain ⟨z', h3, h4⟩ := f.streams k z h1
  exact ⟨z', h3, by rw [h4, h2]⟩

theorem frame_same {s s' : State S} (h1 : s'.writer = s.writer) (h2 : s'.isUp = s.isUp)
    (h3 : s'.streams = s.streams) : Frame s s' :=
  ⟨h1, h2, fun k z hz => ⟨z, by rw [h3]; exact hz, rfl⟩⟩

variable [DecidableEq Kw]

/-- The calls in progress -/
def ActOk (t : List (Event Kw)) (calls : List (Call Kw × Pc S)) : Prop :=
  ∀ n c, (n, c) ∈ (scan t).active ↔ ∃ pc, calls[n]? = some (c, pc) ∧ pc ≠ .over

/-- What holds when sessions are started and ended while no other call is in progress -/
structure Ex (s : State S) : Prop where
  act : ActOk s.trace s.calls
  shape : ∀ (n : Nat) c pc, s.calls[n]? = some (c, pc) → Shape c pc
  loc : ∀ (n : Nat) c pc, s.calls[n]? = some (c, pc) → Loc s c pc
  idle : (∀ (n : Nat) c pc, s.calls[n]? = some (c, pc) → pc.mid = false) → Idle s
  opn : (scan s.trace).isOpen = false → s.writer = none
  stOpen : ∀ n, (n, Call.start) ∈ (scan s.trace).active → (scan s.trace).isOpen = true

theorem scan_append (t u : List (Event Kw)) : scan (t ++ u) = u.foldl Scan.next (scan t) := by
  simp [scan]

theorem scan_requested (t : List (Event Kw)) (n : Nat) (l : List (Kw × Index)) :
    scan (t ++ l.map (fun x => Event.requested n x.1 x.2)) = scan t := by
  rw [scan_append]
  induction l with
  | nil => rfl
  | cons x l ih => simpa [Scan.next] using ih

theorem ex_init : Ex (init S) := by
  constructor <;> simp [init, ActOk, scan, Idle]

theorem ActOk.goto {t t' : List (Event Kw)} {calls : List (Call Kw × Pc S)} {n : Nat} {c : Call Kw}
    {pc pc' : Pc S} (h : ActOk t calls) (hn : calls[n]? = some (c, pc)) (h1 : pc ≠ .over) (h2 : pc' ≠ .over)
    (ht : scan t' = scan t) : ActOk t' (calls.set n (c, pc')) := by
  intro m d
  rw [ht, h m d]
  have hl := (List.getElem?_eq_some_iff.mp hn).1
  by_cases hm : m = n
  · subst hm
    simp only [hn, List.getElem?_set_self hl, Option.some.injEq, Prod.mk.injEq]
    constructor
    · rintro ⟨q, ⟨rfl, rfl⟩, hq⟩; exact ⟨_, ⟨rfl, rfl⟩, h2⟩
    · rintro ⟨q, ⟨rfl, rfl⟩, hq⟩; exact ⟨_, ⟨rfl, rfl⟩, h1⟩
  · rw [List.getElem?_set_ne (fun e => hm e.symm)]

theorem ActOk.over {t t' : List (Event Kw)} {calls : List (Call Kw × Pc S)} {n : Nat} {c : Call Kw}
    {pc : Pc S} (h : ActOk t calls) (hn : calls[n]? = some (c, pc))
    (ht : (scan t').active = (scan t).active.filter (·.1 ≠ n)) : ActOk t' (calls.set n (c, .over)) := by
  intro m d
  rw [ht, List.mem_filter, h m d]
  have hl := (List.getElem?_eq_some_iff.mp hn).1
  by_cases hm : m = n
  · subst hm
    simp [hl]
  · rw [List.getElem?_set_ne (fun e => hm e.symm)]
    simp [hm]

/-- Calls that are not compatible are not both in progress. -/
theorem Ex.apart {s : State S} (h : Ex s) (hx : (scan s.trace).exclusive = true) {n m : Nat} {c d : Call Kw}
    {pc q : Pc S} (hn : s.calls[n]? = some (c, pc)) (hm : s.calls[m]? = some (d, q)) (h1 : pc ≠ .over)
    (h2 : q ≠ .over) (hc : c.isSession = true) (hd : d.isSearch = false) : n = m := by
  unfold Scan.exclusive at hx
  rw [List.all_eq_true] at hx
  have := hx (n, c) ((h.act n c).mpr ⟨pc, hn, h1⟩)
  rw [List.all_eq_true] at this
  have := this (m, d) ((h.act m d).mpr ⟨q, hm, h2⟩)
  simpa [hc, hd] using this

/-- While a session is started or ended by call `n`, the other calls have not begun or are over. -/
theorem Ex.others {s : State S} (h : Ex s) (hx : (scan s.trace).exclusive = true) {n m : Nat} {c d : Call Kw}
    {pc q : Pc S} (hn : s.calls[n]? = some (c, pc)) (h1 : pc ≠ .over) (hc : c.isSession = true)
    (hm : s.calls[m]? = some (d, q)) (hne : m ≠ n) : q = .begin ∨ q = .over := by
  by_contra hq
  rw [not_or] at hq
  exact hne (h.apart hx hn hm h1 hq.2 hc (shape_search (h.shape m d q hm) hq.1 hq.2)).symm

/-- While an insertion is in progress, no session is started or ended. -/
theorem Ex.noMid {s : State S} (h : Ex s) (hx : (scan s.trace).exclusive = true) {n : Nat} {c : Call Kw}
    {pc : Pc S} (hn : s.calls[n]? = some (c, pc)) (h1 : pc ≠ .over) (hc : c.isSession = false)
    (hs : c.isSearch = false) : ∀ (m : Nat) d q, s.calls[m]? = some (d, q) → q.mid = false := by
  intro m d q hm
  by_contra hq
  have hq' : q.mid = true := by simpa using hq
  have hses := shape_mid (h.shape m d q hm) hq'
  have := h.apart hx hm hn (by rintro rfl; simp [Pc.mid] at hq') h1 hses hs
  subst this
  rw [hm] at hn
  cases hn
  rw [hses] at hc
  cases hc

/-- A step of call `n` that leaves the session as it is -/
theorem Ex.calm {s s' : State S} (h : Ex s) {n : Nat} {c : Call Kw} {pc pc' : Pc S}
    (hn : s.calls[n]? = some (c, pc)) (hc : s'.calls = s.calls.set n (c, pc'))
    (hw : s'.writer = s.writer) (hu : s'.isUp = s.isUp) (hz : s'.streams = s.streams)
    (ha : ActOk s'.trace s'.calls) (hs : Shape c pc') (hl : Loc s c pc') (hm : pc.mid = true → pc'.mid = true)
    (ho : (scan s'.trace).isOpen = false → s'.writer = none)
    (ht : ∀ n, (n, Call.start) ∈ (scan s'.trace).active → (scan s'.trace).isOpen = true) : Ex s' := by
  have f := frame_same hw hu hz
  have hq : ∀ (k : Nat) z, s.streams[k]? = some z → z.queue = [] →
      ∀ z', s'.streams[k]? = some z' → z'.queue = [] := by
    intro k z h1 h2 z' h3
    rw [hz, h1] at h3
    cases h3
    exact h2
  have hset : ∀ {m : Nat} {d q}, s'.calls[m]? = some (d, q) → (m = n ∧ d = c ∧ q = pc') ∨ s.calls[m]? = some (d, q) := by
    intro m d q hm
    rw [hc] at hm
    rcases getElem?_set_some hn hm with ⟨rfl, he⟩ | ⟨-, h⟩
    · cases he; exact .inl ⟨rfl, rfl, rfl⟩
    · exact .inr h
  refine ⟨ha, ?_, ?_, ?_, ho, ht⟩
  · intro m d q hm
    rcases hset hm with ⟨rfl, rfl, rfl⟩ | h1
    · exact hs
    · exact h.shape m d q h1
  · intro m d q hm
    rcases hset hm with ⟨rfl, rfl, rfl⟩ | h1
    · exact f.loc (fun _ => hq) hl
    · exact f.loc (fun _ => hq) (h.loc m d q h1)
  · intro hall
    refine f.idle (h.idle fun m d q h1 => ?_)
    by_cases hmn : m = n
    · subst hmn
      rw [hn] at h1
      cases h1
      by_contra hmid
      have := hall m c pc' (by rw [hc]; simp [(List.getElem?_eq_some_iff.mp hn).1])
      rw [hm (by simpa using hmid)] at this
      cases this
    · refine hall m d q ?_
      rw [hc, List.getElem?_set_ne (fun e => hmn e.symm)]
      exact h1

/-- A step of call `n` that starts or ends a session -/
theorem Ex.turn {s s' : State S} (h : Ex s) (hx : (scan s.trace).exclusive = true) {n : Nat} {c : Call Kw}
    {pc pc' : Pc S} (hn : s.calls[n]? = some (c, pc)) (hc : s'.calls = s.calls.set n (c, pc'))
    (h1 : pc ≠ .over) (hses : c.isSession = true)
    (ha : ActOk s'.trace s'.calls) (hs : Shape c pc') (hl : Loc s' c pc') (hi : pc'.mid = false → Idle s')
    (ho : (scan s'.trace).isOpen = false → s'.writer = none)
    (ht : ∀ n, (n, Call.start) ∈ (scan s'.trace).active → (scan s'.trace).isOpen = true) : Ex s' := by
  have hset : ∀ {m : Nat} {d q}, s'.calls[m]? = some (d, q) →
      (m = n ∧ d = c ∧ q = pc') ∨ (q = .begin ∨ q = .over) := by
    intro m d q hm
    rw [hc] at hm
    rcases getElem?_set_some hn hm with ⟨rfl, he⟩ | ⟨hne, h0⟩
    · cases he; exact .inl ⟨rfl, rfl, rfl⟩
    · exact .inr (h.others hx hn h1 hses h0 hne)
  refine ⟨ha, ?_, ?_, ?_, ho, ht⟩
  · intro m d q hm
    rcases hset hm with ⟨rfl, rfl, rfl⟩ | rfl | rfl
    · exact hs
    · trivial
    · trivial
  · intro m d q hm
    rcases hset hm with ⟨rfl, rfl, rfl⟩ | rfl | rfl
    · exact hl
    · trivial
    · trivial
  · intro hall
    exact hi (hall n c pc' (by rw [hc]; simp [(List.getElem?_eq_some_iff.mp hn).1]))

theorem next_returned (t : List (Event Kw)) (n : Nat) :
    scan (t ++ [.returned n]) = ⟨(scan t).active.filter (·.1 ≠ n),
      (scan t).isOpen && decide ((n, Call.finish) ∉ (scan t).active)⟩ := by
  rw [scan_append]; rfl

theorem next_threw (t : List (Event Kw)) (n : Nat) :
    scan (t ++ [.threw n]) = ⟨(scan t).active.filter (·.1 ≠ n), (scan t).isOpen⟩ := by
  rw [scan_append]; rfl

theorem next_found (t : List (Event Kw)) (n : Nat) (w : Kw) (r : Option (List Index)) :
    scan (t ++ [.found n w r]) = ⟨(scan t).active.filter (·.1 ≠ n), (scan t).isOpen⟩ := by
  rw [scan_append]; rfl

theorem next_stored (t : List (Event Kw)) (p : Nat) : scan (t ++ [.stored p]) = scan t := by
  rw [scan_append]; rfl

theorem next_called (t : List (Event Kw)) (n : Nat) (c : Call Kw) :
    scan (t ++ [.called n c]) = ⟨(scan t).active ++ [(n, c)], (scan t).isOpen || decide (c = .start)⟩ := by
  rw [scan_append]; rfl

/-- The call `n`, which is not `end_update_session`, returns. -/
theorem Ex.returned_isOpen {s : State S} (h : Ex s) {n : Nat} {c : Call Kw} {pc : Pc S}
    (hn : s.calls[n]? = some (c, pc)) (hc : c ≠ .finish) :
    (scan (s.trace ++ [.returned n])).isOpen = (scan s.trace).isOpen := by
  rw [next_returned]
  have : (n, Call.finish) ∉ (scan s.trace).active := by
    intro hm
    obtain ⟨q, hq, -⟩ := (h.act n _).mp hm
    rw [hn] at hq
    cases hq
    exact hc rfl
  simp [this]

/-- When `end_update_session` returns, no `start_update_session` is in progress. -/
theorem Ex.finish_start {s : State S} (h : Ex s) (hx : (scan s.trace).exclusive = true) {n : Nat}
    {pc : Pc S} (hn : s.calls[n]? = some (.finish, pc)) (h1 : pc ≠ .over) (m : Nat) :
    (m, Call.start) ∉ (scan s.trace).active := by
  intro hm
  obtain ⟨q, hq, h2⟩ := (h.act m _).mp hm
  have := h.apart hx hn hq h1 h2 rfl rfl
  subst this
  rw [hn] at hq
  cases hq

end Verif.Runner.Sess
