import Verif.Vec.Spec

/-!
# Lemmas on the on-disk vector
-/

namespace Verif.Vec

variable {sz : Nat}

/-! ## Files -/

theorem getElem?_writeBytes_in (f : List UInt8) (off : Nat) (bs : List UInt8) (k : Nat)
    (hk : k < bs.length) : (writeBytes f off bs)[off + k]? = bs[k]? := by
  unfold writeBytes
  have hl : ((f ++ List.replicate (off - f.length) 0).take off).length = off := by
    simp; omega
  rw [List.append_assoc, List.getElem?_append_right (by omega), hl,
    List.getElem?_append_left (by omega)]
  congr 1; omega

theorem getElem?_writeBytes_out (f : List UInt8) (off : Nat) (bs : List UInt8) (j : Nat) (b : UInt8)
    (hj : j < off ∨ off + bs.length ≤ j) (hf : f[j]? = some b) :
    (writeBytes f off bs)[j]? = some b := by
  unfold writeBytes
  have hl : ((f ++ List.replicate (off - f.length) 0).take off).length = off := by
    simp; omega
  have hjl : j < f.length := (List.getElem?_eq_some_iff.mp hf).1
  rw [List.append_assoc]
  rcases hj with hj | hj
  · rw [List.getElem?_append_left (by omega), List.getElem?_take_of_lt hj,
      List.getElem?_append_left hjl, hf]
  · rw [List.getElem?_append_right (by omega), hl, List.getElem?_append_right (by omega),
      List.getElem?_drop, ← hf]
    congr 1; omega

theorem length_writeBytes (f : List UInt8) (off : Nat) (bs : List UInt8) :
    (writeBytes f off bs).length = max f.length (off + bs.length) := by
  simp [writeBytes]; omega

theorem getElem?_resize (f : List UInt8) (n j : Nat) (b : UInt8) (hj : j < n) (hf : f[j]? = some b) :
    (resize f n)[j]? = some b := by
  have hjl : j < f.length := (List.getElem?_eq_some_iff.mp hf).1
  unfold resize
  rw [List.getElem?_append_left (by simp; omega), List.getElem?_take_of_lt hj, hf]

theorem length_resize (f : List UInt8) (n : Nat) : (resize f n).length = n := by
  simp [resize]; omega

/-! ## Slots -/

/-- Slot `i` of the file contains `x`. -/
def Slot (f : List UInt8) (i : Nat) (x : Val sz) : Prop :=
  ∀ k (hk : k < sz), f[i * sz + k]? = some x[k]

theorem slot_bytes {f : List UInt8} {i : Nat} {x : Val sz} (h : Slot f i x) :
    (f.drop (i * sz)).take sz = x.toList := by
  apply List.ext_getElem?
  intro k
  by_cases hk : k < sz
  · rw [List.getElem?_take_of_lt hk, List.getElem?_drop, h k hk]
    simp [hk]
  · rw [List.getElem?_eq_none (by simp; omega), List.getElem?_eq_none (by simp; omega)]

theorem slot_length {f : List UInt8} {i : Nat} {x : Val sz} (hsz : 0 < sz) (h : Slot f i x) :
    (i + 1) * sz ≤ f.length := by
  have := h (sz - 1) (by omega)
  have := (List.getElem?_eq_some_iff.mp this).1
  rw [Nat.add_mul]; omega

theorem slot_write_self (f : List UInt8) (i : Nat) (x : Val sz) :
    Slot (writeBytes f (i * sz) x.toList) i x := by
  intro k hk
  rw [getElem?_writeBytes_in _ _ _ _ (by simpa using hk)]
  simp [hk]

theorem slot_write_ne {f : List UInt8} {i j : Nat} {x : Val sz} (y : Val sz) (hij : i ≠ j)
    (h : Slot f i x) : Slot (writeBytes f (j * sz) y.toList) i x := by
  intro k hk
  refine getElem?_writeBytes_out _ _ _ _ _ ?_ (h k hk)
  rcases Nat.lt_or_gt_of_ne hij with h' | h'
  · left
    have := Nat.mul_le_mul_right sz (show i + 1 ≤ j by omega)
    rw [Nat.add_mul] at this; omega
  · right
    have := Nat.mul_le_mul_right sz (show j + 1 ≤ i by omega)
    rw [Nat.add_mul] at this
    simp; omega

theorem slot_resize {f : List UInt8} {i n : Nat} {x : Val sz} (hi : i < n) (h : Slot f i x) :
    Slot (resize f (n * sz)) i x := by
  intro k hk
  refine getElem?_resize _ _ _ _ ?_ (h k hk)
  have := Nat.mul_le_mul_right sz (show i + 1 ≤ n by omega)
  rw [Nat.add_mul] at this; omega

theorem get_of_slot {v : Vec sz} {i : Nat} {x : Val sz} (hi : i ≤ v.size) (hc : v.committed = true)
    (h : Slot v.file i x) : v.get i = .ok x := by
  unfold Vec.get
  rw [if_neg (by omega), if_neg (by simp [hc])]
  simp only [slot_bytes h]
  rw [dif_pos (by simp)]
  congr 1

theorem asyncGet_of_slot {v : Vec sz} {i : Nat} {x : Val sz} (hi : i ≤ v.size)
    (hs : v.sched = true) (hc : v.committed = true) (h : Slot v.file i x) :
    v.asyncGet i = .ok (some x) := by
  unfold Vec.asyncGet
  rw [if_neg (by simp [hs]), if_neg (by simp [hc]), if_neg (by omega)]
  simp only [slot_bytes h]
  rw [dif_pos (by simp)]
  congr 2

/-! ## Invariant -/

/-- The vector holds the values of `acc`. -/
structure Holds (sync : Bool) (v : Vec sz) (acc : List (Val sz)) : Prop where
  size : v.size = acc.length
  pend : ∀ r ∈ v.pending, acc[r.1]? = some r.2
  slot : ∀ (i : Nat) x, acc[i]? = some x → (i, x) ∈ v.pending ∨ Slot v.file i x
  off : sync = true → v.committed = false → v.offset = v.size * sz
  nopend : sync = true ∨ v.committed = true → v.pending = []
  sched : v.pending ≠ [] → v.sched = true

theorem slot_writeReq {f : List UInt8} {acc : List (Val sz)} {i : Nat} {x : Val sz}
    {r : Nat × Val sz} (hr : acc[r.1]? = some r.2) (hi : acc[i]? = some x)
    (h : Slot f i x ∨ r = (i, x)) : Slot (writeReq f r) i x := by
  unfold writeReq
  by_cases hir : i = r.1
  · subst hir
    have : r.2 = x := by rw [hr] at hi; exact Option.some.inj hi
    subst this
    exact slot_write_self _ _ _
  · rcases h with h | h
    · exact slot_write_ne _ hir h
    · exact absurd (by rw [h]) hir

theorem slot_foldl {acc : List (Val sz)} {i : Nat} {x : Val sz} (hi : acc[i]? = some x) :
    ∀ (l : List (Nat × Val sz)) (f : List UInt8), (∀ r ∈ l, acc[r.1]? = some r.2) →
      ((i, x) ∈ l ∨ Slot f i x) → Slot (l.foldl writeReq f) i x := by
  intro l
  induction l with
  | nil => intro f _ h; simpa using h
  | cons r l ih =>
    intro f hl h
    rw [List.foldl_cons]
    apply ih _ (fun r hr => hl r (List.mem_cons_of_mem _ hr))
    rcases h with h | h
    · rcases List.mem_cons.mp h with h | h
      · exact Or.inr (slot_writeReq (hl r (by simp)) hi (Or.inr h.symm))
      · exact Or.inl h
    · exact Or.inr (slot_writeReq (hl r (by simp)) hi (Or.inl h))

theorem Holds.wait {sync : Bool} {v : Vec sz} {acc : List (Val sz)} (h : Holds sync v acc) :
    Holds sync v.wait acc where
  size := h.size
  pend := by simp [Vec.wait]
  slot := fun i x hi => Or.inr (slot_foldl hi _ _ h.pend (h.slot i x hi))
  off := h.off
  nopend := fun _ => rfl
  sched := by simp [Vec.wait]

theorem mem_eraseIdx_or {α : Type} {l : List α} {i : Nat} {r a : α} (hr : l[i]? = some r)
    (ha : a ∈ l) : a ∈ l.eraseIdx i ∨ a = r := by
  obtain ⟨j, hj⟩ := List.getElem?_of_mem ha
  by_cases h : j = i
  · subst h; rw [hr] at hj; exact Or.inr (Option.some.inj hj).symm
  · left
    rw [List.mem_eraseIdx_iff_getElem?]
    exact ⟨j, h, hj⟩

theorem Holds.complete {sync : Bool} {v : Vec sz} {acc : List (Val sz)} (h : Holds sync v acc)
    (i : Nat) : Holds sync (v.complete i) acc := by
  unfold Vec.complete
  cases hr : v.pending[i]? with
  | none => exact h
  | some r =>
    have hrm : r ∈ v.pending := List.mem_of_getElem? hr
    refine ⟨h.size, fun q hq => h.pend q (List.mem_of_mem_eraseIdx hq), ?_, h.off, ?_, ?_⟩
    · intro k x hk
      rcases h.slot k x hk with hm | hs
      · rcases mem_eraseIdx_or hr hm with hm | hm
        · exact Or.inl hm
        · exact Or.inr (slot_writeReq (h.pend r hrm) hk (Or.inr hm.symm))
      · exact Or.inr (slot_writeReq (h.pend r hrm) hk (Or.inl hs))
    · intro hc
      have := h.nopend hc
      simp [this] at hr
    · intro _
      exact h.sched (fun hn => by simp [hn] at hrm)

theorem Holds.reserve {sync : Bool} {v : Vec sz} {acc : List (Val sz)} (h : Holds sync v acc)
    (n : Nat) : Holds sync (v.reserve n) acc := by
  unfold Vec.reserve
  split
  · rename_i hc
    refine ⟨h.size, h.pend, ?_, h.off, h.nopend, h.sched⟩
    intro i x hi
    rcases h.slot i x hi with hm | hs
    · exact Or.inl hm
    · refine Or.inr (slot_resize ?_ hs)
      have := (List.getElem?_eq_some_iff.mp hi).1
      have := h.size
      omega
  · exact h

theorem Holds.commit {sync : Bool} {v : Vec sz} {acc : List (Val sz)} (h : Holds sync v acc) :
    Holds sync v.commit acc := by
  unfold Vec.commit
  cases hc : v.committed with
  | true => simpa using h
  | false =>
    cases hs : v.sched with
    | true =>
      have hw := h.wait
      exact ⟨hw.size, hw.pend, hw.slot, by simp, fun _ => rfl, by simp [Vec.wait]⟩
    | false =>
      have hp : v.pending = [] := by
        cases hq : v.pending with
        | nil => rfl
        | cons a l => have := h.sched (by simp [hq]); simp [hs] at this
      exact ⟨h.size, h.pend, h.slot, by simp, fun _ => by simpa using hp,
        fun hn => absurd hp (by simpa using hn)⟩

theorem Holds.push {v : Vec sz} {acc : List (Val sz)} (h : Holds true v acc)
    (hc : v.committed = false) (x : Val sz) : Holds true (v.pushBack x sz).1 (acc ++ [x]) := by
  have hp := h.nopend (Or.inl rfl)
  have ho := h.off rfl hc
  unfold Vec.pushBack
  simp only [hc, Bool.false_eq_true, ↓reduceIte, Nat.min_self, ne_eq, not_true_eq_false]
  have ht : x.toList.take sz = x.toList := by rw [List.take_of_length_le]; simp
  rw [ht]
  refine ⟨by simp [h.size], by simp [hp], ?_, fun _ _ => ?_, fun _ => hp, fun hn => absurd hp hn⟩
  · intro i y hi
    right
    simp only [ho, h.size]
    by_cases hl : i < acc.length
    · rw [List.getElem?_append_left hl] at hi
      rcases h.slot i y hi with hm | hs
      · simp [hp] at hm
      · exact slot_write_ne _ (by omega) hs
    · rw [List.getElem?_append_right (by omega)] at hi
      obtain ⟨hlt, he⟩ := List.getElem?_eq_some_iff.mp hi
      simp at hlt
      have : i = acc.length := by omega
      subst this
      simp at he
      subst he
      exact slot_write_self _ _ _
  · simp only [ho, Nat.add_mul, Nat.one_mul]

theorem Holds.asyncPush {v : Vec sz} {acc : List (Val sz)} (h : Holds false v acc)
    (hc : v.committed = false) (hs : v.sched = true) (x : Val sz) :
    Holds false (v.asyncPushBack x).1 (acc ++ [x]) := by
  unfold Vec.asyncPushBack
  rw [if_neg (by simp [hs])]
  refine ⟨by simp [h.size], ?_, ?_, by simp, by simp [hc], fun _ => hs⟩
  · intro r hr
    simp only [List.mem_append, List.mem_singleton] at hr
    rcases hr with hr | hr
    · have := h.pend r hr
      rw [List.getElem?_append_left (List.getElem?_eq_some_iff.mp this).1, this]
    · subst hr
      simp [h.size]
  · intro i y hi
    by_cases hl : i < acc.length
    · rw [List.getElem?_append_left hl] at hi
      rcases h.slot i y hi with hm | hs
      · left; simp [hm]
      · exact Or.inr hs
    · rw [List.getElem?_append_right (by omega)] at hi
      obtain ⟨hlt, he⟩ := List.getElem?_eq_some_iff.mp hi
      simp at hlt
      have : i = acc.length := by omega
      subst this
      simp at he
      subst he
      left; simp [h.size]

theorem Holds.setDirect {sync : Bool} {v v' : Vec sz} {acc : List (Val sz)} (h : Holds sync v acc)
    (hm : sync = false ∨ v.committed = true) (b : Bool) (hv : v.setDirect b = some v') :
    Holds sync v' acc ∧ v'.committed = v.committed ∧ v'.sched = v.sched := by
  unfold Vec.setDirect at hv
  split at hv
  · cases hv; exact ⟨h, rfl, rfl⟩
  · split at hv
    · cases hv
    · cases hv
      have hw := h.wait
      refine ⟨⟨hw.size, hw.pend, hw.slot, ?_, hw.nopend, hw.sched⟩, rfl, rfl⟩
      intro hs hc
      rcases hm with hm | hm
      · simp [hs] at hm
      · have : v.committed = false := hc
        simp [this] at hm

theorem pushBack_committed {v : Vec sz} (hc : v.committed = true) (x : Val sz) (w : Nat) :
    v.pushBack x w = (v, .error .runtimeError) := by
  simp [Vec.pushBack, hc]

theorem commit_committed (v : Vec sz) : v.commit.committed = true := by
  unfold Vec.commit
  cases h : v.committed <;> simp [h]

theorem commit_sched (v : Vec sz) : v.commit.sched = v.sched := by
  unfold Vec.commit
  cases h : v.committed <;> cases h2 : v.sched <;> simp [Vec.wait, h2]

theorem pushBack_flags (v : Vec sz) (x : Val sz) (w : Nat) :
    (v.pushBack x w).1.committed = v.committed ∧ (v.pushBack x w).1.sched = v.sched := by
  unfold Vec.pushBack
  split
  · simp
  · dsimp only
    split <;> simp

theorem complete_flags (v : Vec sz) (i : Nat) :
    (v.complete i).committed = v.committed ∧ (v.complete i).sched = v.sched := by
  unfold Vec.complete; split <;> simp

theorem reserve_flags (v : Vec sz) (n : Nat) :
    (v.reserve n).committed = v.committed ∧ (v.reserve n).sched = v.sched := by
  unfold Vec.reserve; split <;> simp

theorem asyncPushBack_flags (v : Vec sz) (x : Val sz) :
    (v.asyncPushBack x).1.committed = v.committed ∧ (v.asyncPushBack x).1.sched = v.sched := by
  unfold Vec.asyncPushBack; split <;> simp

/-- The values added by a sequence of operations, from a state of the vector -/
theorem holds_run (sync : Bool) : ∀ (ops : List (Op sz)) (v v' : Vec sz) (acc : List (Val sz)),
    Holds sync v acc → Spec.Clean sync v.committed ops → v.run ops = some v' →
    Holds sync v' (acc ++ (if v.committed then [] else Spec.pushed v.sched ops)) ∧
      v'.committed = (v.committed || Spec.hasCommit ops) ∧ v'.sched = v.sched := by
  intro ops
  induction ops with
  | nil =>
    intro v v' acc h _ hr
    cases hr
    refine ⟨?_, by simp [Spec.hasCommit], rfl⟩
    cases v.committed <;> simpa [Spec.pushed] using h
  | cons op ops ih =>
    intro v v' acc h hcl hr
    rw [Vec.run] at hr
    cases op with
    | reserve n =>
      simp only [Vec.step, Option.bind_some] at hr
      have hf := reserve_flags v n
      have := ih _ _ _ (h.reserve n) (by rw [hf.1]; exact hcl) hr
      rwa [hf.1, hf.2] at this
    | push x =>
      simp only [Vec.step, Option.bind_some] at hr
      have hf := pushBack_flags v x sz
      cases hc : v.committed with
      | true =>
        rw [pushBack_committed hc] at hr
        have := ih _ _ _ h hcl.2 hr
        simpa [hc, Spec.hasCommit] using this
      | false =>
        have hs : sync = true := by
          rcases hcl.1 with h' | h'
          · exact h'
          · simp [hc] at h'
        subst hs
        have := ih _ _ _ (h.push hc x) (by rw [hf.1]; exact hcl.2) hr
        rw [hf.1, hf.2] at this
        simpa [hc, Spec.hasCommit, Spec.pushed] using this
    | pushFail x w =>
      simp only [Vec.step, Option.bind_some] at hr
      have hc := hcl.1
      rw [pushBack_committed hc] at hr
      have := ih _ _ _ h hcl.2 hr
      simpa [hc, Spec.hasCommit] using this
    | asyncPush x =>
      simp only [Vec.step, Option.bind_some] at hr
      obtain ⟨⟨hs, hc⟩, hcl⟩ := hcl
      subst hs
      have hf := asyncPushBack_flags v x
      cases hsc : v.sched with
      | false =>
        have he : (v.asyncPushBack x).1 = v := by simp [Vec.asyncPushBack, hsc]
        rw [he] at hr
        have := ih _ _ _ h hcl hr
        simpa [hc, hsc, Spec.hasCommit, Spec.pushed] using this
      | true =>
        have := ih _ _ _ (h.asyncPush hc hsc x) (by rw [hf.1]; exact hcl) hr
        rw [hf.1, hf.2] at this
        simpa [hc, hsc, Spec.hasCommit, Spec.pushed] using this
    | complete i =>
      simp only [Vec.step, Option.bind_some] at hr
      have hf := complete_flags v i
      have := ih _ _ _ (h.complete i) (by rw [hf.1]; exact hcl) hr
      rwa [hf.1, hf.2] at this
    | commit =>
      simp only [Vec.step, Option.bind_some] at hr
      have := ih _ _ _ h.commit (by rw [commit_committed]; exact hcl) hr
      rw [commit_committed, commit_sched] at this
      refine ⟨?_, by simpa [Spec.hasCommit] using this.2.1, this.2.2⟩
      cases v.committed <;> simpa [Spec.pushed] using this.1
    | setDirect b =>
      simp only [Vec.step] at hr
      cases hd : v.setDirect b with
      | none => simp [hd] at hr
      | some v1 =>
        rw [hd, Option.bind_some] at hr
        obtain ⟨h1, h2, h3⟩ := h.setDirect hcl.1 b hd
        have := ih _ _ _ h1 (by rw [h2]; exact hcl.2) hr
        rwa [h2, h3] at this

theorem holds_open (sync sched direct : Bool) : Holds sync (Vec.open sz [] sched direct) [] where
  size := rfl
  pend := by simp [Vec.open]
  slot := by simp
  off := by simp [Vec.open]
  nopend := by simp [Vec.open]
  sched := by simp [Vec.open]

end Verif.Vec

namespace Verif.Vec

variable {sz : Nat}

/-! ## Length of the file -/

/-- The file has at most `M` slots, with those being written. -/
def Bounded (M : Nat) (v : Vec sz) : Prop :=
  v.file.length ≤ M * sz ∧ ∀ r ∈ v.pending, r.1 < M

theorem length_writeReq_le {M : Nat} {f : List UInt8} {r : Nat × Val sz} (hf : f.length ≤ M * sz)
    (hr : r.1 < M) : (writeReq f r).length ≤ M * sz := by
  unfold writeReq
  rw [length_writeBytes]
  have := Nat.mul_le_mul_right sz (show r.1 + 1 ≤ M by omega)
  rw [Nat.add_mul] at this
  simp; omega

theorem Bounded.wait {M : Nat} {v : Vec sz} (h : Bounded M v) : Bounded M v.wait := by
  refine ⟨?_, by simp [Vec.wait]⟩
  obtain ⟨hf, hp⟩ := h
  unfold Vec.wait
  dsimp only
  generalize v.file = f at hf
  generalize v.pending = l at hp
  induction l generalizing f with
  | nil => exact hf
  | cons r l ih =>
    rw [List.foldl_cons]
    exact ih _ (length_writeReq_le hf (hp r (by simp))) (fun q hq => hp q (by simp [hq]))

theorem Bounded.complete {M : Nat} {v : Vec sz} (h : Bounded M v) (i : Nat) :
    Bounded M (v.complete i) := by
  unfold Vec.complete
  cases hr : v.pending[i]? with
  | none => exact h
  | some r =>
    exact ⟨length_writeReq_le h.1 (h.2 r (List.mem_of_getElem? hr)),
      fun q hq => h.2 q (List.mem_of_mem_eraseIdx hq)⟩

theorem Bounded.commit {M : Nat} {v : Vec sz} (h : Bounded M v) : Bounded M v.commit := by
  unfold Vec.commit
  cases v.committed with
  | true => exact h
  | false =>
    cases v.sched with
    | true => exact h.wait
    | false => exact h

theorem Bounded.setDirect {M : Nat} {v v' : Vec sz} (h : Bounded M v) (b : Bool)
    (hv : v.setDirect b = some v') : Bounded M v' := by
  unfold Vec.setDirect at hv
  split at hv
  · cases hv; exact h
  · split at hv
    · cases hv
    · cases hv; exact h.wait

theorem Bounded.reserve {M n : Nat} {v : Vec sz} (h : Bounded M v) (hn : n ≤ M) :
    Bounded M (v.reserve n) := by
  unfold Vec.reserve
  split
  · refine ⟨?_, h.2⟩
    rw [length_resize]
    exact Nat.mul_le_mul_right sz hn
  · exact h

theorem Bounded.push {M : Nat} {v : Vec sz} (h : Bounded M v) (ho : v.offset = v.size * sz)
    (hc : v.committed = false) (hM : v.size < M) (x : Val sz) :
    Bounded M (v.pushBack x sz).1 := by
  unfold Vec.pushBack
  simp only [hc, Bool.false_eq_true, ↓reduceIte, Nat.min_self, ne_eq, not_true_eq_false]
  refine ⟨?_, h.2⟩
  have ht : x.toList.take sz = x.toList := by rw [List.take_of_length_le]; simp
  rw [ht, ho]
  exact length_writeReq_le (r := (v.size, x)) h.1 hM

theorem Bounded.asyncPush {M : Nat} {v : Vec sz} (h : Bounded M v) (hM : v.size < M) (x : Val sz) :
    Bounded M (v.asyncPushBack x).1 := by
  unfold Vec.asyncPushBack
  split
  · exact h
  · refine ⟨h.1, ?_⟩
    intro r hr
    simp only [List.mem_append, List.mem_singleton] at hr
    rcases hr with hr | hr
    · exact h.2 r hr
    · subst hr; exact hM

theorem bounded_run (sync : Bool) (M : Nat) : ∀ (ops : List (Op sz)) (v v' : Vec sz)
    (acc : List (Val sz)), Holds sync v acc → Spec.Clean sync v.committed ops →
    v.run ops = some v' → Bounded M v → (∀ n, Op.reserve n ∈ ops → n ≤ M) →
    acc.length + (if v.committed then 0 else (Spec.pushed v.sched ops).length) ≤ M →
    Bounded M v' := by
  intro ops
  induction ops with
  | nil => intro v v' acc _ _ hr hb _ _; cases hr; exact hb
  | cons op ops ih =>
    intro v v' acc h hcl hr hb hres hM
    rw [Vec.run] at hr
    have hres' : ∀ n, Op.reserve n ∈ ops → n ≤ M := fun n hn => hres n (by simp [hn])
    cases op with
    | reserve n =>
      simp only [Vec.step, Option.bind_some] at hr
      have hf := reserve_flags v n
      exact ih _ _ _ (h.reserve n) (by rw [hf.1]; exact hcl) hr (hb.reserve (hres n (by simp))) hres'
        (by rw [hf.1, hf.2]; exact hM)
    | push x =>
      simp only [Vec.step, Option.bind_some] at hr
      have hf := pushBack_flags v x sz
      cases hc : v.committed with
      | true =>
        rw [pushBack_committed hc] at hr
        exact ih _ _ _ h hcl.2 hr hb hres' (by simpa [hc] using hM)
      | false =>
        have hs : sync = true := by
          rcases hcl.1 with h' | h'
          · exact h'
          · simp [hc] at h'
        subst hs
        simp only [hc, Bool.false_eq_true, ↓reduceIte, Spec.pushed, List.length_cons] at hM
        refine ih _ _ _ (h.push hc x) (by rw [hf.1]; exact hcl.2) hr
          (hb.push (h.off rfl hc) hc (by rw [h.size]; omega) x) hres' ?_
        rw [hf.1, hf.2]
        simp only [hc, Bool.false_eq_true, ↓reduceIte, List.length_append, List.length_singleton]
        omega
    | pushFail x w =>
      simp only [Vec.step, Option.bind_some] at hr
      have hc := hcl.1
      rw [pushBack_committed hc] at hr
      exact ih _ _ _ h hcl.2 hr hb hres' (by simpa [hc] using hM)
    | asyncPush x =>
      simp only [Vec.step, Option.bind_some] at hr
      obtain ⟨⟨hs, hc⟩, hcl⟩ := hcl
      subst hs
      have hf := asyncPushBack_flags v x
      cases hsc : v.sched with
      | false =>
        have he : (v.asyncPushBack x).1 = v := by simp [Vec.asyncPushBack, hsc]
        rw [he] at hr
        exact ih _ _ _ h hcl hr hb hres' (by simpa [hc, hsc, Spec.pushed] using hM)
      | true =>
        simp only [hc, hsc, Bool.false_eq_true, ↓reduceIte, Spec.pushed, List.length_cons] at hM
        refine ih _ _ _ (h.asyncPush hc hsc x) (by rw [hf.1]; exact hcl) hr
          (hb.asyncPush (by rw [h.size]; omega) x) hres' ?_
        rw [hf.1, hf.2]
        simp only [hc, hsc, Bool.false_eq_true, ↓reduceIte, List.length_append, List.length_singleton]
        omega
    | complete i =>
      simp only [Vec.step, Option.bind_some] at hr
      have hf := complete_flags v i
      exact ih _ _ _ (h.complete i) (by rw [hf.1]; exact hcl) hr (hb.complete i) hres'
        (by rw [hf.1, hf.2]; exact hM)
    | commit =>
      simp only [Vec.step, Option.bind_some] at hr
      refine ih _ _ _ h.commit (by rw [commit_committed]; exact hcl) hr hb.commit hres' ?_
      rw [commit_committed]
      simp only [↓reduceIte]
      omega
    | setDirect b =>
      simp only [Vec.step] at hr
      cases hd : v.setDirect b with
      | none => simp [hd] at hr
      | some v1 =>
        rw [hd, Option.bind_some] at hr
        obtain ⟨h1, h2, h3⟩ := h.setDirect hcl.1 b hd
        exact ih _ _ _ h1 (by rw [h2]; exact hcl.2) hr (hb.setDirect b hd) hres'
          (by rw [h2, h3]; exact hM)

theorem bounded_open (M : Nat) (sched direct : Bool) : Bounded M (Vec.open sz [] sched direct) := by
  simp [Bounded, Vec.open]

/-- The file left by the destructor -/
theorem destroy_eq {sync : Bool} {v : Vec sz} {acc : List (Val sz)} (h : Holds sync v acc) :
    v.destroy = v.commit.file := by
  unfold Vec.destroy
  cases hc : v.committed with
  | true =>
    have hp := h.nopend (Or.inr hc)
    cases hs : v.sched <;> simp [Vec.commit, hc, Vec.wait, hp]
  | false => simp

/-! ## Non-empty files -/

theorem run_nonempty (hsz : 0 < sz) : ∀ (ops : List (Op sz)) (v v' : Vec sz),
    v.file ≠ [] → v.run ops = some v' → v'.file ≠ [] := by
  have hw : ∀ (f : List UInt8) off bs, f ≠ [] → writeBytes f off bs ≠ [] := by
    intro f off bs hf hn
    have h1 := length_writeBytes f off bs
    rw [hn] at h1
    have : f.length ≠ 0 := by simpa using hf
    simp at h1; omega
  have hfold : ∀ (l : List (Nat × Val sz)) (f : List UInt8), f ≠ [] → l.foldl writeReq f ≠ [] := by
    intro l
    induction l with
    | nil => intro f h; exact h
    | cons r l ih => intro f h; rw [List.foldl_cons]; exact ih _ (hw _ _ _ h)
  intro ops
  induction ops with
  | nil => intro v v' h hr; cases hr; exact h
  | cons op ops ih =>
    intro v v' h hr
    rw [Vec.run] at hr
    cases op with
    | reserve n =>
      simp only [Vec.step, Option.bind_some] at hr
      refine ih _ _ ?_ hr
      unfold Vec.reserve
      split
      · rename_i hc
        intro hn
        have h1 := length_resize v.file (n * sz)
        dsimp only at hn
        rw [hn] at h1
        have := Nat.mul_pos (show 0 < n by omega) hsz
        simp at h1; omega
      · exact h
    | push x =>
      simp only [Vec.step, Option.bind_some] at hr
      refine ih _ _ ?_ hr
      unfold Vec.pushBack
      split
      · exact h
      · dsimp only
        split <;> exact hw _ _ _ h
    | pushFail x w =>
      simp only [Vec.step, Option.bind_some] at hr
      refine ih _ _ ?_ hr
      unfold Vec.pushBack
      split
      · exact h
      · dsimp only
        split <;> exact hw _ _ _ h
    | asyncPush x =>
      simp only [Vec.step, Option.bind_some] at hr
      refine ih _ _ ?_ hr
      unfold Vec.asyncPushBack
      split <;> exact h
    | complete i =>
      simp only [Vec.step, Option.bind_some] at hr
      refine ih _ _ ?_ hr
      unfold Vec.complete
      split
      · exact h
      · exact hw _ _ _ h
    | commit =>
      simp only [Vec.step, Option.bind_some] at hr
      refine ih _ _ ?_ hr
      unfold Vec.commit
      cases v.committed with
      | true => exact h
      | false =>
        cases v.sched with
        | true => exact hfold _ _ h
        | false => exact h
    | setDirect b =>
      simp only [Vec.step] at hr
      cases hd : v.setDirect b with
      | none => simp [hd] at hr
      | some v1 =>
        rw [hd, Option.bind_some] at hr
        refine ih _ _ ?_ hr
        unfold Vec.setDirect at hd
        split at hd
        · cases hd; exact h
        · split at hd
          · cases hd
          · cases hd; exact hfold _ _ h

end Verif.Vec
