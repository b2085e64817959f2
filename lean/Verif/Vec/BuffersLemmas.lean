import Verif.Vec.BuffersSpec

/-!
# Lemmas on the memory of the asynchronous accesses
-/

namespace Verif.Vec.Buf

def Event.isSub (b : Nat) : Event → Bool
  | .submitted b' => b' == b
  | _ => false

def Event.isCb (b : Nat) : Event → Bool
  | .callback b' _ _ => b' == b
  | _ => false

def Event.isWrote (b : Nat) : Event → Bool
  | .wrote b' => b' == b
  | _ => false

def Event.isNew (b : Nat) : Event → Bool
  | .newReq b' => b' == b
  | _ => false

def Event.isDel (b : Nat) : Event → Bool
  | .delReq b' => b' == b
  | _ => false

/-- The buffers of a call whose request is not submitted -/
def Call.rest (u : Call) : List Nat := u.bufs.filter (fun b => !u.sub.contains b)

def inflN (s : State) (b : Nat) : Nat := (s.inflight.map Req.buf).count b

def pend (calls : List Call) (b : Nat) : Nat := (calls.map (fun u => u.rest.count b)).sum

/-- The invariant of a call in progress -/
structure CallInv (c : Cfg) (t : List Event) (u : Call) : Prop where
  subl : (u.sub ++ u.todo).Sublist u.bufs
  nodup : u.bufs.Nodup
  alloc : ∀ b ∈ u.bufs, Event.alloc b u.kind ∈ t
  subm : ∀ b ∈ u.bufs, t.countP (Event.isSub b) = u.sub.count b
  single : u.kind ≠ .gets → u.bufs.length ≤ 1
  req : c.page.isSome = true → ∀ b ∈ u.todo, t.countP (Event.isNew b) = 1
  fail : u.failed = true → u.sub.length < u.bufs.length

/-- The invariant -/
structure Inv (c : Cfg) (s : State) : Prop where
  part : ∀ b, s.trace.countP (Event.releases b) + s.trace.countP (Event.forgets b) + inflN s b +
    s.owned.count b + pend s.calls b = if b < s.next then 1 else 0
  subm : ∀ b, s.trace.countP (Event.isSub b) =
    inflN s b + s.trace.countP (Event.isCb b) + s.trace.countP (Event.isWrote b)
  once : ∀ b, s.trace.countP (Event.isSub b) ≤ 1
  reqs : c.page.isSome = true → ∀ b, s.trace.countP (Event.isSub b) =
    inflN s b + s.trace.countP (Event.isDel b)
  calls : ∀ u ∈ s.calls, CallInv c s.trace u
  disj : (s.calls.flatMap Call.bufs).Nodup
  kinds : ∀ r ∈ s.inflight, Event.alloc r.buf r.kind ∈ s.trace
  bound : ∀ b k, Event.alloc b k ∈ s.trace → b < s.next
  all : ∀ b, b < s.next → Allocated s.trace b
  uniq : ∀ b k k', Event.alloc b k ∈ s.trace → Event.alloc b k' ∈ s.trace → k = k'
  safe : Safe s.trace
  newReq : c.page.isSome = true → ∀ b, 0 < s.trace.countP (Event.isSub b) →
    s.trace.countP (Event.isNew b) = 1
  fresh : ∀ b, s.next ≤ b → s.trace.countP (Event.isNew b) = 0 ∧ s.trace.countP (Event.isSub b) = 0
  wrote : ∀ b, Event.wrote b ∈ s.trace → Event.alloc b .push ∈ s.trace
  returned : ∀ k bs, Event.returned k bs ∈ s.trace → ∀ b ∈ bs, Event.alloc b k ∈ s.trace ∧
    s.trace.countP (Event.isSub b) = 1
  threw : ∀ k e bs, Event.threw k e bs ∈ s.trace → ∀ b ∈ bs, s.trace.countP (Event.isSub b) = 0 ∧
    s.trace.countP (Event.releases b) + s.trace.countP (Event.forgets b) = 1 ∧
    Event.alloc b k ∈ s.trace

/-! ## Traces -/

theorem Allocated.append {t : List Event} {b : Nat} (h : Allocated t b) (l : List Event) :
    Allocated (t ++ l) b := by
  obtain ⟨k, hk⟩ := h
  exact ⟨k, List.mem_append_left _ hk⟩

theorem Safe.snoc {t : List Event} {e : Event} (h : Safe t)
    (he : ∀ b, e.uses b = true → Allocated t b ∧ releases t b = 0) : Safe (t ++ [e]) := by
  intro p e' q hpq b hb
  rcases List.eq_nil_or_concat q with rfl | ⟨q', x, rfl⟩
  · have := List.append_inj' hpq rfl
    obtain ⟨rfl, h2⟩ := this
    simp at h2
    subst h2
    exact he b hb
  · have hpq' : t ++ [e] = (p ++ e' :: q') ++ [x] := by simp [hpq]
    have := (List.append_inj' hpq' rfl).1
    exact h p e' q' this b hb

theorem Safe.append {t l : List Event} (h : Safe t) (hl : ∀ e ∈ l, ∀ b, e.uses b = false) :
    Safe (t ++ l) := by
  induction l generalizing t with
  | nil => simpa using h
  | cons e l ih =>
    have : t ++ e :: l = (t ++ [e]) ++ l := by simp
    rw [this]
    refine ih (h.snoc ?_) (fun x hx => hl x (List.mem_cons_of_mem _ hx))
    intro b hb
    rw [hl e (List.mem_cons_self ..)] at hb
    cases hb

theorem releases_frees (l : List Nat) (b : Nat) :
    (l.map Event.free).countP (Event.releases b) = l.count b := by
  simp [List.countP_map, Function.comp_def, Event.releases, List.count, BEq.comm]

theorem Safe.frees {t : List Event} {l : List Nat} (h : Safe t) (hl : l.Nodup)
    (ha : ∀ b ∈ l, Allocated t b ∧ releases t b = 0) : Safe (t ++ l.map Event.free) := by
  induction l generalizing t with
  | nil => simpa using h
  | cons a l ih =>
    have : t ++ (a :: l).map Event.free = (t ++ [Event.free a]) ++ l.map Event.free := by simp
    rw [this]
    rw [List.nodup_cons] at hl
    refine ih (h.snoc ?_) hl.2 ?_
    · intro b hb
      have : a = b := by simpa [Event.uses] using hb
      subst this
      exact ha a (List.mem_cons_self ..)
    · intro b hb
      have := ha b (List.mem_cons_of_mem _ hb)
      refine ⟨this.1.append _, ?_⟩
      have hab : a ≠ b := fun h => hl.1 (h ▸ hb)
      simpa [releases, List.countP_append, Event.releases, hab] using this.2

theorem mem_of_isSub {t : List Event} {b : Nat} : Event.submitted b ∈ t ↔
    0 < t.countP (Event.isSub b) := by
  rw [List.countP_pos_iff]
  constructor
  · intro h
    exact ⟨_, h, by simp [Event.isSub]⟩
  · rintro ⟨e, he, h⟩
    cases e <;> simp [Event.isSub] at h
    subst h
    exact he

theorem mem_of_isWrote {t : List Event} {b : Nat} (h : 0 < t.countP (Event.isWrote b)) :
    Event.wrote b ∈ t := by
  rw [List.countP_pos_iff] at h
  obtain ⟨e, he, h⟩ := h
  cases e <;> simp [Event.isWrote] at h
  subst h
  exact he

/-! ## Calls -/

theorem pend_append (l l' : List Call) (b : Nat) : pend (l ++ l') b = pend l b + pend l' b := by
  simp [pend]

theorem pend_set {calls : List Call} {j : Nat} {u : Call} (w : Call) (hj : calls[j]? = some u) (b : Nat) :
    pend (calls.set j w) b + u.rest.count b = pend calls b + w.rest.count b := by
  induction calls generalizing j with
  | nil => simp at hj
  | cons a l ih =>
    cases j with
    | zero =>
      simp at hj; subst hj
      simp [pend]
      omega
    | succ j =>
      simp at hj
      have := ih hj
      simp [pend] at this ⊢
      omega

theorem pend_eraseIdx {calls : List Call} {j : Nat} {u : Call} (hj : calls[j]? = some u) (b : Nat) :
    pend (calls.eraseIdx j) b + u.rest.count b = pend calls b := by
  induction calls generalizing j with
  | nil => simp at hj
  | cons a l ih =>
    cases j with
    | zero =>
      simp at hj; subst hj
      simp [pend]
      omega
    | succ j =>
      simp at hj
      have := ih hj
      simp [pend] at this ⊢
      omega

theorem rest_le_pend {calls : List Call} {u : Call} (h : u ∈ calls) (b : Nat) :
    u.rest.count b ≤ pend calls b := by
  obtain ⟨j, hj⟩ := List.mem_iff_getElem?.1 h
  have := pend_eraseIdx hj b
  omega

theorem count_eraseIdx {α : Type} {l : List α} {f : α → Nat} {i : Nat} {a : α} (h : l[i]? = some a)
    (b : Nat) : ((l.eraseIdx i).map f).count b + (if f a = b then 1 else 0) = (l.map f).count b := by
  induction l generalizing i with
  | nil => simp at h
  | cons x l ih =>
    cases i with
    | zero =>
      simp at h; subst h
      simp [List.count_cons]
    | succ i =>
      simp at h
      have := ih h
      simp [List.count_cons] at this ⊢
      omega

theorem bufs_set {calls : List Call} {j : Nat} {u w : Call} (hj : calls[j]? = some u)
    (h : w.bufs = u.bufs) : (calls.set j w).flatMap Call.bufs = calls.flatMap Call.bufs := by
  induction calls generalizing j with
  | nil => simp at hj
  | cons a l ih =>
    cases j with
    | zero =>
      simp at hj; subst hj
      simp [h]
    | succ j =>
      simp at hj
      simp [ih hj]

theorem disj_set {calls : List Call} (hd : (calls.flatMap Call.bufs).Nodup) {j : Nat} {u w v : Call}
    (hj : calls[j]? = some u) (hv : v ∈ calls.set j w) :
    v = w ∨ (v ∈ calls ∧ ∀ b ∈ u.bufs, b ∉ v.bufs) := by
  induction calls generalizing j with
  | nil => simp at hj
  | cons a l ih =>
    simp only [List.flatMap_cons, List.nodup_append, List.mem_flatMap] at hd
    cases j with
    | zero =>
      simp at hj; subst hj
      simp only [List.set_cons_zero, List.mem_cons] at hv
      rcases hv with hv | hv
      · exact .inl hv
      · exact .inr ⟨List.mem_cons_of_mem _ hv, fun b hb hb' => hd.2.2 b hb b ⟨v, hv, hb'⟩ rfl⟩
    | succ j =>
      simp at hj
      simp only [List.set_cons_succ, List.mem_cons] at hv
      rcases hv with rfl | hv
      · exact .inr ⟨List.mem_cons_self .., fun b hb hb' =>
          hd.2.2 b hb' b ⟨u, List.mem_of_getElem? hj, hb⟩ rfl⟩
      · rcases ih hd.2.1 hj hv with h | h
        · exact .inl h
        · exact .inr ⟨List.mem_cons_of_mem _ h.1, h.2⟩

theorem disj_eraseIdx {calls : List Call} (hd : (calls.flatMap Call.bufs).Nodup) {j : Nat} {u v : Call}
    (hj : calls[j]? = some u) (hv : v ∈ calls.eraseIdx j) :
    v ∈ calls ∧ ∀ b ∈ u.bufs, b ∉ v.bufs := by
  induction calls generalizing j with
  | nil => simp at hj
  | cons a l ih =>
    simp only [List.flatMap_cons, List.nodup_append, List.mem_flatMap] at hd
    cases j with
    | zero =>
      simp at hj; subst hj
      simp only [List.eraseIdx_cons_zero] at hv
      exact ⟨List.mem_cons_of_mem _ hv, fun b hb hb' => hd.2.2 b hb b ⟨v, hv, hb'⟩ rfl⟩
    | succ j =>
      simp at hj
      simp only [List.eraseIdx_cons_succ, List.mem_cons] at hv
      rcases hv with rfl | hv
      · exact ⟨List.mem_cons_self .., fun b hb hb' =>
          hd.2.2 b hb' b ⟨u, List.mem_of_getElem? hj, hb⟩ rfl⟩
      · have h := ih hd.2.1 hj hv
        exact ⟨List.mem_cons_of_mem _ h.1, h.2⟩

theorem prepare_bufs (size n : Nat) (rs : List (Nat × Option Nat)) :
    (prepare size n rs).1.map (·.1) = List.range' n (prepare size n rs).1.length := by
  induction rs generalizing n with
  | nil => rfl
  | cons r rs ih =>
    obtain ⟨i, mem⟩ := r
    unfold prepare
    split
    · rfl
    · cases mem with
      | none => rfl
      | some a => simp [ih, List.range'_succ]

theorem prepare_length (size n : Nat) (rs : List (Nat × Option Nat)) :
    (prepare size n rs).1.length ≤ rs.length := by
  induction rs generalizing n with
  | nil => simp [prepare]
  | cons r rs ih =>
    obtain ⟨i, mem⟩ := r
    unfold prepare
    split
    · simp
    · cases mem with
      | none => simp
      | some a => simp [ih]

theorem passing_sublist (c : Cfg) (stop : Bool) (l : List (Nat × Nat × Nat)) :
    (c.passing stop l).Sublist (l.map (·.1)) := by
  unfold Cfg.passing
  split
  · exact List.nil_sublist _
  · exact List.filter_sublist.map _

end Verif.Vec.Buf
