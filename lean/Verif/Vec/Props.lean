import Verif.Vec.Lemmas
import Verif.Tethys.StoreProps

/-!
# Properties of the on-disk vector (C34, C35, C36)

The operations run from a new vector, on an empty or absent file; `Op.complete` interleaves the
completions of the asynchronous writes in any order.
-/

namespace Verif.Vec

variable {sz : Nat}

namespace Sample

/-- Values of two bytes for the examples -/
def val (n : Nat) : Val 2 := #v[UInt8.ofNat n, 255]

/-- Synchronous pushes, with a reservation that is used up, and a push after the commit -/
def syncOps : List (Op 2) :=
  [.push (val 1), .reserve 3, .push (val 2), .push (val 3), .commit, .push (val 4), .setDirect true]

/-- Asynchronous pushes done in another order, with a change of the access mode -/
def asyncOps : List (Op 2) :=
  [.asyncPush (val 1), .asyncPush (val 2), .complete 1, .setDirect true, .asyncPush (val 3), .commit]

/-- The vector after some operations on a new file -/
def after (ops : List (Op 2)) : Option (Vec 2) := (Vec.open 2 [] true false).run ops

end Sample

/-! ## C34 -/

/-- **C34**, partial: for the sequences of operations of `Spec.Clean`. Element `i` of the committed vector
is the `i`-th pushed value, with `get` and with `async_get`; an index larger than the size is rejected,
and so is the size itself when no more space was reserved than what was used.

The full claim, for all sequences of operations, is false: see `C34_reserved_read`,
`C34_async_push_after_commit`, `C34_mixed_pushes`, `C34_failed_write` and `C34_direct_access`. -/
theorem C34_get_partial (sync sched direct : Bool) (ops : List (Op sz)) (v : Vec sz) (hsz : 0 < sz)
    (hcl : Spec.Clean sync false ops) (hc : Spec.hasCommit ops = true)
    (hr : (Vec.open sz [] sched direct).run ops = some v) :
    v.size = (Spec.pushed sched ops).length ∧
      (∀ (i : Nat) x, (Spec.pushed sched ops)[i]? = some x →
        v.get i = .ok x ∧ (sched = true → v.asyncGet i = .ok (some x))) ∧
      (∀ i, (Spec.pushed sched ops).length < i → v.get i = .error .invalidArgument) ∧
      ((∀ n, Op.reserve n ∈ ops → n ≤ (Spec.pushed sched ops).length) →
        v.get (Spec.pushed sched ops).length = .error .runtimeError) := by
  have h0 := holds_open (sz := sz) sync sched direct
  have hf : (Vec.open sz [] sched direct).committed = false ∧
      (Vec.open sz [] sched direct).sched = sched := ⟨rfl, rfl⟩
  obtain ⟨h1, h2, h3⟩ := holds_run sync ops _ _ _ h0 hcl hr
  simp only [hf.1, hf.2, Bool.false_eq_true, ↓reduceIte, List.nil_append, Bool.false_or, hc] at h1 h2 h3
  have hsize := h1.size
  refine ⟨hsize, ?_, ?_, ?_⟩
  · intro i x hi
    have hlt := (List.getElem?_eq_some_iff.mp hi).1
    have hp := h1.nopend (Or.inr h2)
    have hs : Slot v.file i x := by
      rcases h1.slot i x hi with hm | hs
      · simp [hp] at hm
      · exact hs
    exact ⟨get_of_slot (by omega) h2 hs, fun hsc => asyncGet_of_slot (by omega) (by rw [h3, hsc]) h2 hs⟩
  · intro i hi
    unfold Vec.get
    rw [if_pos (by omega)]
  · intro hres
    have hb := bounded_run sync (Spec.pushed sched ops).length ops _ _ _ h0 hcl hr
      (bounded_open _ _ _) hres (by simp [hf.1, hf.2])
    unfold Vec.get
    rw [if_neg (by omega), if_neg (by simp [h2])]
    dsimp only
    rw [dif_neg]
    have := hb.1
    simp only [List.length_take, List.length_drop]
    omega

/-- The hypotheses hold for concrete sequences of both kinds. -/
example : Spec.Clean true false Sample.syncOps ∧ Spec.hasCommit Sample.syncOps = true ∧
    (Sample.after Sample.syncOps).isSome = true ∧
    Spec.pushed true Sample.syncOps = [Sample.val 1, Sample.val 2, Sample.val 3] := by decide +kernel

example : Spec.Clean false false Sample.asyncOps ∧ Spec.hasCommit Sample.asyncOps = true ∧
    (Sample.after Sample.asyncOps).map (fun v => v.get 1) = some (.ok (Sample.val 2)) := by
  decide +kernel

/-- The same values are found when the file is opened again, even if `commit` was not called before the
destruction of the vector; the size is right when no more space was reserved than what was used. -/
theorem C34_reopen (sync sched direct sched' direct' : Bool) (ops : List (Op sz)) (v : Vec sz)
    (hsz : 0 < sz) (hcl : Spec.Clean sync false ops)
    (hr : (Vec.open sz [] sched direct).run ops = some v) :
    (∀ (i : Nat) x, (Spec.pushed sched ops)[i]? = some x →
        (Vec.open sz v.destroy sched' direct').get i = .ok x) ∧
      ((∀ n, Op.reserve n ∈ ops → n ≤ (Spec.pushed sched ops).length) →
        (Vec.open sz v.destroy sched' direct').size = (Spec.pushed sched ops).length) := by
  have h0 := holds_open (sz := sz) sync sched direct
  have hf : (Vec.open sz [] sched direct).committed = false ∧
      (Vec.open sz [] sched direct).sched = sched := ⟨rfl, rfl⟩
  obtain ⟨h1, -, -⟩ := holds_run sync ops _ _ _ h0 hcl hr
  simp only [hf.1, hf.2, Bool.false_eq_true, ↓reduceIte, List.nil_append] at h1
  have hd := destroy_eq h1
  have h2 := h1.commit
  have hslot : ∀ (i : Nat) x, (Spec.pushed sched ops)[i]? = some x → Slot v.destroy i x := by
    intro i x hi
    rw [hd]
    rcases h2.slot i x hi with hm | hs
    · simp [h2.nopend (Or.inr (commit_committed v))] at hm
    · exact hs
  have hopen : ∀ f : List UInt8, f ≠ [] → Vec.open sz f sched' direct' =
      ⟨f, 0, f.length / sz, true, direct', sched', []⟩ := by
    intro f hne
    have : 0 < f.length := by cases f <;> simp_all
    unfold Vec.open
    rw [if_pos this]
  constructor
  · intro i x hi
    have hs := hslot i x hi
    have hl := slot_length hsz hs
    have hne : v.destroy ≠ [] := by
      intro hn
      rw [hn] at hl
      have := Nat.mul_pos (show 0 < i + 1 by omega) hsz
      simp at hl; omega
    rw [hopen _ hne]
    have : i + 1 ≤ v.destroy.length / sz := (Nat.le_div_iff_mul_le hsz).mpr hl
    exact get_of_slot (by dsimp only; omega) rfl hs
  · intro hres
    have hb := (bounded_run sync (Spec.pushed sched ops).length ops _ _ _ h0 hcl hr
      (bounded_open _ _ _) hres (by simp [hf.1, hf.2])).commit.1
    rw [← hd] at hb
    by_cases hn : (Spec.pushed sched ops).length = 0
    · have : v.destroy = [] := by
        rw [hn, Nat.zero_mul] at hb
        exact List.length_eq_zero_iff.mp (by omega)
      rw [this, hn]; rfl
    · have hx : (Spec.pushed sched ops)[(Spec.pushed sched ops).length - 1]? =
          some ((Spec.pushed sched ops)[(Spec.pushed sched ops).length - 1]'(by omega)) :=
        List.getElem?_eq_getElem (by omega)
      have hl := slot_length hsz (hslot _ _ hx)
      rw [show (Spec.pushed sched ops).length - 1 + 1 = (Spec.pushed sched ops).length by omega] at hl
      have hle : v.destroy.length = (Spec.pushed sched ops).length * sz := by omega
      have hne : v.destroy ≠ [] := by
        intro h; rw [h] at hle
        have := Nat.mul_pos (show 0 < (Spec.pushed sched ops).length by omega) hsz
        simp only [List.length_nil] at hle; omega
      rw [hopen _ hne]
      dsimp only
      rw [hle, Nat.mul_div_cancel _ hsz]

example : (Sample.after Sample.syncOps).map (fun v => (Vec.open 2 v.destroy true true).get 2) =
    some (.ok (Sample.val 3)) := by decide +kernel

/-- How the builder of Tethys uses the vector (tethys_store_builder.hpp L180-274): the table that is
read afterwards is the list of its pages. -/
theorem C34_table (pages : List (Val sz)) (sched direct sched' direct' : Bool) (hsz : 0 < sz) :
    ∃ v, (Vec.open sz [] sched direct).run
        (.reserve pages.length :: pages.map .push ++ [.commit]) = some v ∧
      (Vec.open sz v.destroy sched' direct').size = pages.length ∧
      ∀ (i : Nat) x, pages[i]? = some x → (Vec.open sz v.destroy sched' direct').get i = .ok x := by
  have hpush : ∀ (l : List (Val sz)), Spec.pushed sched (l.map Op.push ++ [.commit]) = l := by
    intro l
    induction l with
    | nil => rfl
    | cons x l ih => simp [Spec.pushed, ih]
  have hclean : ∀ (l : List (Val sz)), Spec.Clean true false (l.map Op.push ++ [.commit]) := by
    intro l
    induction l with
    | nil => trivial
    | cons x l ih => exact ⟨Or.inl rfl, ih⟩
  have hrun : ∀ (l : List (Val sz)) (w : Vec sz), ∃ v, w.run (l.map Op.push ++ [.commit]) = some v := by
    intro l
    induction l with
    | nil => intro w; exact ⟨_, rfl⟩
    | cons x l ih => intro w; exact ih _
  obtain ⟨v, hv⟩ := hrun pages ((Vec.open sz [] sched direct).reserve pages.length)
  refine ⟨v, hv, ?_⟩
  have h := C34_reopen true sched direct sched' direct'
    (.reserve pages.length :: (pages.map Op.push ++ [Op.commit])) v hsz (hclean pages) hv
  have hp : Spec.pushed sched (.reserve pages.length :: (pages.map Op.push ++ [.commit])) = pages := by
    simpa [Spec.pushed] using hpush pages
  rw [hp] at h
  refine ⟨h.2 ?_, h.1⟩
  intro n hn
  simp at hn
  omega

/-- The rejections, in all the states: pushing synchronously after the commit, and reading before it or
at an index larger than the size; a rejected push does not change the vector. -/
theorem C34_rejections (v : Vec sz) :
    (∀ x w, v.committed = true → v.pushBack x w = (v, .error .runtimeError)) ∧
      (∀ i, v.committed = false → ∃ e, v.get i = .error e) ∧
      (∀ i, v.committed = false → v.asyncGet i = .error .runtimeError) ∧
      (∀ i, v.size < i → v.get i = .error .invalidArgument) ∧
      (∀ i, v.size < i → ∃ e, v.asyncGet i = .error e) := by
  refine ⟨fun x w h => pushBack_committed h x w, ?_, ?_, ?_, ?_⟩
  · intro i h
    unfold Vec.get
    simp only [h, if_true]
    split <;> exact ⟨_, rfl⟩
  · intro i h
    unfold Vec.asyncGet
    simp only [h, if_true]
    split <;> rfl
  · intro i h
    unfold Vec.get
    rw [if_pos h]
  · intro i h
    unfold Vec.asyncGet
    simp only [gt_iff_lt, h, if_true]
    split
    · exact ⟨_, rfl⟩
    · split <;> exact ⟨_, rfl⟩

/-- No operation dereferences a null scheduler when the vector has one. -/
theorem C34_defined (ops : List (Op sz)) (v : Vec sz) (h : v.sched = true) :
    ∃ v', v.run ops = some v' := by
  induction ops generalizing v with
  | nil => exact ⟨v, rfl⟩
  | cons op ops ih =>
    rw [Vec.run]
    cases op with
    | reserve n => exact ih _ (by rw [(reserve_flags v n).2, h])
    | push x => exact ih _ (by rw [(pushBack_flags v x sz).2, h])
    | pushFail x w => exact ih _ (by rw [(pushBack_flags v x w).2, h])
    | asyncPush x => exact ih _ (by rw [(asyncPushBack_flags v x).2, h])
    | complete i => exact ih _ (by rw [(complete_flags v i).2, h])
    | commit => exact ih _ (by rw [commit_sched, h])
    | setDirect b =>
      simp only [Vec.step]
      unfold Vec.setDirect
      split
      · exact ih _ h
      · rw [if_neg (by simp [h])]
        exact ih _ h

/-- Without scheduler, changing the access mode dereferences the null pointer
(awonvm_vector.hpp L315). -/
theorem C34_direct_access_without_scheduler :
    (Vec.open 2 [] false false).run [.push (Sample.val 1), .commit, .setDirect true] = none := by
  rfl

/-- C34 is violated: the index equal to the size is not rejected, and zeros are returned when more space
was reserved (`index > m_size`, awonvm_vector.hpp L336). -/
theorem C34_reserved_read :
    (Sample.after [.reserve 2, .push (Sample.val 1), .commit]).map
      (fun v => (v.size, v.get 1, (Vec.open 2 v.destroy true false).size)) =
    some (1, .ok #v[0, 0], 2) := by decide +kernel

/-- C34 is violated: `async_push_back` is accepted after the commit. -/
theorem C34_async_push_after_commit (v : Vec sz) (x : Val sz) (hs : v.sched = true) :
    (v.asyncPushBack x).2 = .ok v.size ∧ (v.asyncPushBack x).1.size = v.size + 1 := by
  unfold Vec.asyncPushBack
  rw [if_neg (by simp [hs])]
  exact ⟨rfl, rfl⟩

example : (Sample.after Sample.asyncOps).map (fun v => (v.committed, (v.asyncPushBack (Sample.val 9)).2)) =
    some (true, .ok 3) := by decide +kernel

/-- C34 is violated: an asynchronous push followed by a synchronous one; the second value is written
over the first one, and cannot be read. -/
theorem C34_mixed_pushes :
    (Sample.after [.asyncPush (Sample.val 1), .complete 0, .push (Sample.val 2), .commit]).map
      (fun v => (v.size, v.get 0, v.get 1)) =
    some (2, .ok (Sample.val 2), .error .runtimeError) := by decide +kernel

/-- C34 is violated: after a `push_back` that fails (full disk), the next value is at the wrong place. -/
theorem C34_failed_write :
    (Sample.after [.pushFail (Sample.val 1) 0, .push (Sample.val 2), .commit]).map
      (fun v => (v.size, v.get 0, v.get 1)) =
    some (2, .ok (Sample.val 2), .error .runtimeError) := by decide +kernel

/-- C34 is violated: changing the access mode moves the next synchronous push to the beginning of the
file. -/
theorem C34_direct_access :
    (Sample.after [.push (Sample.val 1), .setDirect true, .push (Sample.val 2), .commit]).map
      (fun v => (v.size, v.get 0, v.get 1)) =
    some (2, .ok (Sample.val 2), .error .runtimeError) := by decide +kernel

/-! ## C35 -/

/-- **C35**, partial: while nothing was written and no space was reserved, the file found after a crash
is not presented as a committed table. The full claim is false: see `C35_crash_undetected`. -/
theorem C35_crash_partial (ops : List (Op sz)) (v : Vec sz) (sched direct sched' direct' : Bool)
    (hops : ∀ op ∈ ops, op = .reserve 0 ∨ ∃ x, op = .asyncPush x)
    (hr : (Vec.open sz [] sched direct).run ops = some v) :
    (Vec.open sz v.file sched' direct').committed = false := by
  have key : ∀ (ops : List (Op sz)) (w v : Vec sz), w.file = [] →
      (∀ op ∈ ops, op = .reserve 0 ∨ ∃ x, op = .asyncPush x) → w.run ops = some v → v.file = [] := by
    intro ops
    induction ops with
    | nil => intro w v h _ hr; cases hr; exact h
    | cons op ops ih =>
      intro w v h hops hr
      rw [Vec.run] at hr
      rcases hops op (by simp) with rfl | ⟨x, rfl⟩
      · simp only [Vec.step, Option.bind_some] at hr
        refine ih _ _ ?_ (fun o ho => hops o (by simp [ho])) hr
        unfold Vec.reserve
        split
        · omega
        · exact h
      · simp only [Vec.step, Option.bind_some] at hr
        refine ih _ _ ?_ (fun o ho => hops o (by simp [ho])) hr
        unfold Vec.asyncPushBack
        split <;> exact h
  have := key ops _ v rfl hops hr
  rw [this]
  rfl

example : (Sample.after [.asyncPush (Sample.val 1), .reserve 0]).isSome = true := by decide +kernel

/-- C35 is violated for all the constructions, at all the crash points after the first reservation or
the first push: the file is presented as a committed table. The pending asynchronous writes are
lost in the crash. -/
theorem C35_crash_undetected (post : List (Op sz)) (op : Op sz) (v1 v2 : Vec sz) (hsz : 0 < sz)
    (sched' direct' : Bool) (hc : v1.committed = false)
    (hop : (∃ x, op = .push x) ∨ ∃ n, op = .reserve n ∧ v1.size < n)
    (h2 : v1.run (op :: post) = some v2) :
    (Vec.open sz v2.file sched' direct').committed = true := by
  rw [Vec.run] at h2
  have hne : ∀ w : Vec sz, v1.step op = some w → w.file ≠ [] := by
    intro w hw
    rcases hop with ⟨x, rfl⟩ | ⟨n, rfl, hn⟩
    · simp only [Vec.step, Option.some.injEq] at hw
      subst hw
      unfold Vec.pushBack
      simp only [hc, Bool.false_eq_true, ↓reduceIte, Nat.min_self, ne_eq, not_true_eq_false]
      intro hn
      have h1 := length_writeBytes v1.file v1.offset (x.toList.take sz)
      rw [hn] at h1
      simp at h1
      omega
    · simp only [Vec.step, Option.some.injEq] at hw
      subst hw
      unfold Vec.reserve
      rw [if_pos ⟨hc, hn⟩]
      intro hnil
      have h1 := length_resize v1.file (n * sz)
      dsimp only at hnil
      rw [hnil] at h1
      have := Nat.mul_pos (show 0 < n by omega) hsz
      simp at h1; omega
  cases hs : v1.step op with
  | none => simp [hs] at h2
  | some w =>
    rw [hs, Option.bind_some] at h2
    have := run_nonempty hsz post w v2 (hne w hs) h2
    have hl : 0 < v2.file.length := by
      cases h : v2.file <;> simp_all
    unfold Vec.open
    rw [if_pos hl]

/-- A crash in the middle of a construction: the table looks committed, with two values of which the
second one was never written. -/
example : (Sample.after [.reserve 2, .push (Sample.val 1)]).map
      (fun v => (v.committed, (Vec.open 2 v.file true false).committed,
        (Vec.open 2 v.file true false).get 1)) =
    some (false, true, .ok #v[0, 0]) := by decide +kernel

/-- C35 is violated by the store of Tethys as well: a crash between `commit` and the writing of the stash
(tethys_store_builder.hpp L274-304) is not detected, and values are missing without an error. -/
theorem C35_tethys_stash :
    (match Tethys.buildStore 104 2 Tethys.Sample.hash .separate Tethys.Sample.lists none with
      | .error f => Except.error f
      | .ok files => match Tethys.Store.open Tethys.Sample.hash { files with stash := none } with
        | .error f => Except.error f
        | .ok st => st.getList .separate (Tethys.Sample.K 3)) = .ok [9, 10, 11, 12] ∧
    Tethys.Sample.query 104 2 .separate Tethys.Sample.lists none (Tethys.Sample.K 3) =
      .ok [9, 10, 11, 12, 8] := by decide +kernel

/-! ## C36 -/

/-- **C36**, partial: moving a vector that is empty and not committed preserves its answers. The new
vector always keeps the file, the descriptor, the access mode and the scheduler. -/
theorem C36_move_partial (o : Obj sz) :
    (o.move.1.vec.file = o.vec.file ∧ o.move.1.fd = o.fd ∧ o.move.1.vec.direct = o.vec.direct ∧
        o.move.1.vec.sched = o.vec.sched ∧ o.move.1.vec.pending = o.vec.pending) ∧
      (o.vec.size = 0 → o.vec.committed = false →
        o.move.1.vec.size = o.vec.size ∧ ∀ i, o.move.1.vec.get i = o.vec.get i) := by
  refine ⟨⟨rfl, rfl, rfl, rfl, rfl⟩, ?_⟩
  intro h1 h2
  have : o.move.1.vec = o.vec := by
    unfold Obj.move
    dsimp only
    rw [← h1, ← h2]
  rw [this]
  exact ⟨rfl, fun _ => rfl⟩

/-- C36 is violated by every non-empty vector: the new vector is empty and refuses the reads. -/
theorem C36_move_loses_content (o : Obj sz) (h : 0 < o.vec.size) :
    o.move.1.vec.size ≠ o.vec.size ∧ ∀ i, ∃ e, o.move.1.vec.get i = .error e := by
  refine ⟨?_, fun i => (C34_rejections o.move.1.vec).2.1 i rfl⟩
  unfold Obj.move
  dsimp only
  omega

/-- C36 is violated: a later push on the new vector is accepted although the old one was committed. -/
theorem C36_move_uncommits (o : Obj sz) (x : Val sz) :
    (o.move.1.vec.pushBack x sz).2 = .ok 0 := by
  unfold Obj.move Vec.pushBack
  simp

/-- C36 is violated by every vector: destroying the moved-from vector closes the standard input of the
process. -/
theorem C36_moved_from_closes_stdin (o : Obj sz) (opened : List Nat) :
    0 ∉ o.move.2.destroy opened ∧ ∀ d ∈ opened, d ≠ 0 → d ∈ o.move.2.destroy opened := by
  refine ⟨by simp [Obj.move, Obj.destroy], ?_⟩
  intro d hd h0
  simp [Obj.move, Obj.destroy, hd, h0]

/-- A committed vector with three values, on descriptor 5 -/
example : ((Sample.after Sample.syncOps).map (fun v =>
      ((Obj.move ⟨v, 5⟩).1.vec.get 0, v.get 0, (Obj.move ⟨v, 5⟩).2.destroy [0, 1, 2, 5]))) =
    some (.error .runtimeError, .ok (Sample.val 1), [1, 2, 5]) := by decide +kernel

end Verif.Vec
