import Verif.Vec.Direct

/-!
# C90: the on-disk vector with direct access
-/

namespace Verif.Vec.Direct

open Spec

variable {sz : Nat}

theorem passes_of {e : Env} {d : Bool} {a n : Nat} (ha : e.block ∣ a) (hs : e.block ∣ sz) (hn : sz ∣ n) : e.passes d a sz n = true := by
  have h : e.block ∣ n := Nat.dvd_trans hs hn
  simp [Env.passes, Nat.mod_eq_zero_of_dvd ha, Nat.mod_eq_zero_of_dvd hs, Nat.mod_eq_zero_of_dvd h]

theorem accepts_of {e : Env} {a n : Nat} (h : ∀ p, e.page = some p → p ∣ a ∧ 512 ∣ sz) (hn : sz ∣ n) : e.accepts a sz n = true := by
  unfold Env.accepts
  split
  · rfl
  · rename_i p hp
    obtain ⟨h1, h2⟩ := h p hp
    simp [Nat.mod_eq_zero_of_dvd h1, Nat.mod_eq_zero_of_dvd h2, Nat.mod_eq_zero_of_dvd (Nat.dvd_trans h2 hn)]

/-- The offset of the descriptor stays a multiple of the size of an element. -/
theorem plainStep_offset {v : Vec sz} (h : sz ∣ v.offset) {o : Op sz} {r : Vec sz × Out sz} (hr : plainStep v o = some r) : sz ∣ r.1.offset := by
  cases o with
  | reserve n =>
    obtain rfl := Option.some.inj hr
    simp only [Vec.reserve]
    split <;> exact h
  | push a x =>
    obtain rfl := Option.some.inj hr
    simp only [Vec.pushBack]
    split
    · exact h
    · split <;> (simp only [Nat.min_self]; exact Nat.dvd_add h (Nat.dvd_refl _))
  | asyncPush a x =>
    obtain rfl := Option.some.inj hr
    simp only [Vec.asyncPushBack]
    split <;> exact h
  | complete i =>
    obtain rfl := Option.some.inj hr
    simp only [Vec.complete]
    split <;> exact h
  | commit =>
    obtain rfl := Option.some.inj hr
    simp only [Vec.commit]
    split
    · exact h
    · split <;> exact h
  | setDirect b =>
    obtain ⟨w, hw, rfl⟩ := Option.map_eq_some_iff.mp hr
    unfold Vec.setDirect at hw
    split at hw
    · obtain rfl := Option.some.inj hw
      exact h
    · split at hw
      · cases hw
      · obtain rfl := Option.some.inj hw
        exact Nat.dvd_zero _
  | get a i => obtain rfl := Option.some.inj hr; exact h
  | asyncGet a i => obtain rfl := Option.some.inj hr; exact h

theorem step_eq {e : Env} (hs : e.block ∣ sz) (ha : e.block ∣ e.align) (hp : ∀ p, e.page = some p → p ∣ e.align ∧ 512 ∣ sz)
    {v : Vec sz} (h : sz ∣ v.offset) (o : Op sz) (ho : Op.aligned e.align o) : step e v o = plainStep v o := by
  cases o with
  | push a x =>
    have hal : e.align ∣ a := ho
    have : pushBack e v a x = v.pushBack x sz := by
      unfold pushBack
      split
      · rename_i hc
        simp [Vec.pushBack, hc]
      · simp [Nat.mod_eq_zero_of_dvd hal, passes_of (Nat.dvd_trans ha hal) hs h]
    simp only [step, plainStep, this]
  | asyncPush a x =>
    have hal : e.align ∣ a := ho
    have : asyncPushBack e v a x = v.asyncPushBack x := by
      unfold asyncPushBack
      split
      · rename_i hc
        simp [Vec.asyncPushBack, hc]
      · simp [accepts_of (fun p e' => ⟨Nat.dvd_trans (hp p e').1 hal, (hp p e').2⟩) (Nat.dvd_mul_left sz v.size),
          passes_of (Nat.dvd_trans ha hal) hs (Nat.dvd_mul_left sz v.size)]
    simp only [step, plainStep, this]
  | get a i =>
    have hal : e.align ∣ a := ho
    have : get e v a i = v.get i := by
      unfold get
      split
      · rename_i hc
        simp [Vec.get, hc]
      · split
        · rename_i hi hc
          simp [Vec.get, hc, hi]
        · simp [passes_of (Nat.dvd_trans ha hal) hs (Nat.dvd_mul_left sz i)]
    simp only [step, plainStep, this]
  | asyncGet a i =>
    have hal : e.align ∣ a := ho
    have : asyncGet e v a i = v.asyncGet i := by
      unfold asyncGet
      split
      · rename_i hc
        simp [Vec.asyncGet, hc]
      · split
        · rename_i hc' hc
          simp [Vec.asyncGet, hc]
        · split
          · rename_i h1 h2 hi
            simp [Vec.asyncGet, h1, h2, hi]
          · simp [accepts_of (fun p e' => ⟨Nat.dvd_trans (hp p e').1 hal, (hp p e').2⟩) (Nat.dvd_mul_left sz i),
              passes_of (Nat.dvd_trans ha hal) hs (Nat.dvd_mul_left sz i)]
    simp only [step, plainStep, this]
  | _ => rfl

theorem run_eq {e : Env} (hs : e.block ∣ sz) (ha : e.block ∣ e.align) (hp : ∀ p, e.page = some p → p ∣ e.align ∧ 512 ∣ sz)
    (os : List (Op sz)) : ∀ v : Vec sz, sz ∣ v.offset → (∀ o ∈ os, Op.aligned e.align o) → run e v os = plainRun v os := by
  induction os with
  | nil => exact fun v _ _ => rfl
  | cons o os ih =>
    intro v h ho
    simp only [run, plainRun]
    rw [step_eq hs ha hp h o (ho o (List.mem_cons_self ..))]
    cases hr : plainStep v o with
    | none => rfl
    | some r =>
      simp only [Option.bind_some]
      rw [ih r.1 (plainStep_offset h hr) (fun o' h' => ho o' (List.mem_cons_of_mem _ h'))]

/-- When the block size of the device divides the size and the alignment of the elements, and the scheduler for Linux has a page size
that divides the alignment and elements of a multiple of 512 bytes, a vector gives exactly the results of one with buffered access, with
all sequences of calls and changes of the access mode, if `push_back` gets aligned values. -/
theorem C90_same_partial (e : Env) (hs : e.block ∣ sz) (ha : e.block ∣ e.align)
    (hp : ∀ p, e.page = some p → p ∣ e.align ∧ 512 ∣ sz) (file : List UInt8) (sched direct : Bool) (os : List (Op sz))
    (ho : ∀ o ∈ os, Op.aligned e.align o) :
    run e (Vec.open sz file sched direct) os = plainRun (Vec.open sz file sched direct) os := by
  refine run_eq hs ha hp os _ ?_ ho
  unfold Vec.open
  split <;> exact Nat.dvd_zero _

/-- Elements of 4 bytes, blocks of 2 bytes -/
def sampleOps : List (Op 4) :=
  [.push 8 #v[1, 2, 3, 4], .push 4 #v[5, 6, 7, 8], .commit, .get 4 1, .setDirect false, .asyncGet 12 0]

example : (2 ∣ 4) ∧ (∀ o ∈ sampleOps, Op.aligned 4 o) := by
  refine ⟨by decide, ?_⟩
  intro o ho
  simp only [sampleOps, List.mem_cons, List.not_mem_nil, or_false] at ho
  rcases ho with rfl | rfl | rfl | rfl | rfl | rfl <;> first | trivial | (simp only [Op.aligned]; decide)

example : (run ⟨2, 4, none⟩ (Vec.open 4 [] true true) sampleOps).map (fun r => r.1.file) = some [1, 2, 3, 4, 5, 6, 7, 8] := by decide +kernel

/-- In direct mode a value that is not aligned is refused before anything is changed. -/
theorem C90_refused (e : Env) (v : Vec sz) (addr : Nat) (x : Val sz) (hd : v.direct = true) (hc : v.committed = false)
    (ha : ¬ e.align ∣ addr) : pushBack e v addr x = (v, .error .invalidArgument) := by
  unfold pushBack
  rw [if_neg (by simp [hc]), if_pos]
  simp only [hd, Bool.true_and, bne_iff_ne]
  exact fun h => ha (Nat.dvd_of_mod_eq_zero h)

example : ∃ v : Vec 4, v.direct = true ∧ v.committed = false ∧ ¬ 4 ∣ 6 := ⟨Vec.open 4 [] true true, rfl, rfl, by decide⟩

/-- The exact condition for reads: all elements of a committed vector with direct access can be read, wherever the compiler puts the
variable, if and only if the block size divides the size and the alignment of the elements. -/
theorem C90_readable (e : Env) (hsz : 0 < sz) (file : List UInt8) (sched : Bool) (hf : sz ≤ file.length) :
    (∀ addr i, e.align ∣ addr → i < file.length / sz → ∃ x : Val sz, x.toList = (file.drop (i * sz)).take sz ∧
      get e (Vec.open sz file sched true) addr i = .ok x) ↔ e.block ∣ sz ∧ e.block ∣ e.align := by
  have hv : Vec.open sz file sched true = ⟨file, 0, file.length / sz, true, true, sched, []⟩ := by
    unfold Vec.open
    rw [if_pos (by omega)]
  have hn : 0 < file.length / sz := Nat.div_pos hf hsz
  constructor
  · intro h
    obtain ⟨x, -, hx⟩ := h e.align 0 (Nat.dvd_refl _) hn
    rw [hv] at hx
    unfold get at hx
    rw [if_neg (by simp), if_neg (by simp)] at hx
    split at hx
    · rename_i hp
      simp only [Env.passes, Bool.not_true, Bool.false_or, Bool.and_eq_true, beq_iff_eq] at hp
      exact ⟨Nat.dvd_of_mod_eq_zero hp.1.2, Nat.dvd_of_mod_eq_zero hp.1.1⟩
    · cases hx
  · rintro ⟨hs, ha⟩ addr i hal hi
    have hl : ((file.drop (i * sz)).take sz).length = sz := by
      have := (Nat.le_div_iff_mul_le hsz).mp hi
      rw [Nat.succ_mul] at this
      simp only [List.length_take, List.length_drop]
      omega
    refine ⟨⟨((file.drop (i * sz)).take sz).toArray, by simpa using hl⟩, by simp, ?_⟩
    rw [hv]
    unfold get
    rw [if_neg (by simp; omega), if_neg (by simp), if_pos (passes_of (Nat.dvd_trans ha hal) hs (Nat.dvd_mul_left sz i))]
    simp [Vec.get, hl, Nat.not_lt.mpr (Nat.le_of_lt hi)]

example : (4 ≤ ([1, 2, 3, 4, 5, 6, 7, 8] : List UInt8).length) ∧ ((2 ∣ 4) ∧ 2 ∣ 4) ∧ ¬ ((8 ∣ 4) ∧ 8 ∣ 4) := by decide

/-- The change of the access mode by `Oceanus::async_get` (oceanus.hpp L227-235) makes all elements unreadable when pages are smaller
than the blocks of the device: with a thread pool every callback gets the null pointer, and every `get` throws. -/
theorem C90_small_pages_violated (e : Env) (hsz : 0 < sz) (hb : sz < e.block) (hp : e.page = none) (file : List UInt8) (hf : sz ≤ file.length) :
    ∃ v, (Vec.open sz file true false).setDirect true = some v ∧ ∀ addr i, i < file.length / sz →
      asyncGet e v addr i = .ok none ∧ get e v addr i = .error .runtimeError ∧
      ∃ x : Val sz, asyncGet e (Vec.open sz file true false) addr i = .ok (some x) ∧ get e (Vec.open sz file true false) addr i = .ok x := by
  have hv : Vec.open sz file true false = ⟨file, 0, file.length / sz, true, false, true, []⟩ := by
    unfold Vec.open
    rw [if_pos (by omega)]
  refine ⟨⟨file, 0, file.length / sz, true, true, true, []⟩, by rw [hv]; rfl, fun addr i hi => ?_⟩
  have hx : ∀ off, e.passes true addr sz off = false := by
    intro off
    have : sz % e.block ≠ 0 := by rw [Nat.mod_eq_of_lt hb]; omega
    simp [Env.passes, this]
  have hl : ((file.drop (i * sz)).take sz).length = sz := by
    have := (Nat.le_div_iff_mul_le hsz).mp hi
    rw [Nat.succ_mul] at this
    simp only [List.length_take, List.length_drop]
    omega
  have hi' := Nat.not_lt.mpr (Nat.le_of_lt hi)
  refine ⟨?_, ?_, ⟨((file.drop (i * sz)).take sz).toArray, by simpa using hl⟩, ?_, ?_⟩
  · simp [asyncGet, Env.accepts, hp, hx, hi']
  · simp [get, hx, hi']
  · rw [hv]
    simp [asyncGet, Env.accepts, hp, Env.passes, hi', Vec.asyncGet, hl]
  · rw [hv]
    simp [get, Env.passes, hi', Vec.get, hl]

/-- Lost values: with a thread pool and elements whose size is not a multiple of the block size, `async_push_back` in direct mode returns
the positions, `commit` ends and no error is reported; the file stays empty. -/
theorem C90_lost_violated (e : Env) (hp : e.page = none) (hs : ¬ e.block ∣ sz) (a : Nat) (x : Val sz) :
    ∃ v, run e (Vec.open sz [] true true) [.asyncPush a x, .commit] = some (v, [.pos (.ok 0), .none]) ∧
      v.committed = true ∧ v.size = 1 ∧ v.file = [] := by
  have hx : ∀ off, e.passes true a sz off = false := by
    intro off
    have : sz % e.block ≠ 0 := fun h => hs (Nat.dvd_of_mod_eq_zero h)
    simp [Env.passes, this]
  refine ⟨⟨[], 0, 1, true, true, true, []⟩, ?_, rfl, rfl, rfl⟩
  simp [run, step, asyncPushBack, Vec.open, Env.accepts, hp, hx, Vec.commit, Vec.wait]

example : ¬ 512 ∣ 100 := by decide

/-- Wrong positions: when the alignment of the elements is not a multiple of the block size, `push_back` accepts an aligned value, and
the write fails; the exception is thrown after the position was counted, and the next value, which was written at position 0, has
position 1. -/
theorem C90_shift_violated (e : Env) (hs : e.block ∣ sz) (ha : ¬ e.block ∣ e.align) (x y : Val sz) :
    ∃ v, run e (Vec.open sz [] true true) [.push e.align x, .push (e.block * e.align) y, .commit, .get (e.block * e.align) 0] =
        some (v, [.pos (.error .runtimeError), .pos (.ok 1), .none, .value (.ok y)]) ∧ v.size = 2 ∧ v.file = y.toList := by
  have hx : ∀ off, e.passes true e.align sz off = false := by
    intro off
    have : e.align % e.block ≠ 0 := fun h => ha (Nat.dvd_of_mod_eq_zero h)
    simp [Env.passes, this]
  have hy : ∀ off, sz ∣ off → e.passes true (e.block * e.align) sz off = true := fun off h => passes_of (Nat.dvd_mul_right ..) hs h
  have h0 : e.passes true (e.block * e.align) sz 0 = true := hy 0 (Nat.dvd_zero _)
  refine ⟨⟨y.toList, sz, 2, true, true, true, []⟩, ?_, rfl, rfl⟩
  simp [run, step, pushBack, get, Vec.open, hx, h0, Vec.commit, Vec.wait, Vec.pushBack, Vec.get, writeBytes, List.take_of_length_le]
  exact Array.toArray_toList

example : (512 ∣ 1024) ∧ ¬ 512 ∣ 64 := by decide

end Verif.Vec.Direct
