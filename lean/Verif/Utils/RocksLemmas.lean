import Verif.Utils.RocksSpec

/-!
# Lemmas on the wrappers of RocksDB
-/

namespace Verif.Rocks

open Verif Verif.Rocks.Spec

theorem take_append_of_length {l : Bytes} {n : Nat} (h : l.length = n) (r : Bytes) :
    (l ++ r).take n = l := by
  subst h; simp

/-- What was written is read back. -/
theorem copyOut_enc {V : Type} (L : Layout V) (v : V) : copyOut L (L.enc v) = .ok v := by
  unfold copyOut
  rw [if_pos (by rw [L.enc_length]; omega), take_append_of_length (L.enc_length v), L.dec_enc]

theorem copyOut_error_iff {V : Type} (L : Layout V) (value : Bytes) :
    copyOut L value = .error .outOfBounds ↔ value.length + 1 < L.size := by
  unfold copyOut
  split
  · rename_i h
    constructor
    · intro e; cases e
    · intro h'; omega
  · rename_i h
    exact ⟨fun _ => by omega, fun _ => rfl⟩

theorem get_of_enc {V : Type} (L : Layout V) {db : DB} {k : Bytes} {v : V}
    (h : db k = some (L.enc v)) : get L db k = .ok (some v) := by
  unfold get
  rw [h]
  simp only [copyOut_enc]

theorem get_of_none {V : Type} (L : Layout V) {db : DB} {k : Bytes} (h : db k = none) :
    get L db k = .ok none := by
  unfold get; rw [h]

theorem get_error_iff {V : Type} (L : Layout V) {db : DB} {k value : Bytes}
    (h : db k = some value) :
    get L db k = .error .outOfBounds ↔ value.length + 1 < L.size := by
  rw [← copyOut_error_iff L value]
  unfold get
  rw [h]
  dsimp only
  cases copyOut L value with
  | ok v => simp
  | error f => simp

section

variable {τ : Type} {V : τ → Type}

theorem run_append (L : ∀ t, Layout (V t)) (db : DB) (a b : List (Write V)) :
    run L db (a ++ b) = (match run L db a with
      | .ok db' => run L db' b
      | .error f => .error f) := by
  induction a generalizing db with
  | nil => rfl
  | cons w a ih =>
    simp only [List.cons_append, run]
    cases step L db w with
    | ok db' => exact ih db'
    | error f => rfl

theorem step_ok_iff (L : ∀ t, Layout (V t)) (db : DB) (w : Write V) :
    (∃ db', step L db w = .ok db') ↔ InBounds w := by
  cases w with
  | put k t v => simp [step, InBounds]
  | remove k => simp [step, InBounds]
  | removePtr buf len =>
    simp only [step, InBounds, removePtr, slice]
    split <;> rename_i h <;> split at h <;> simp_all

/-- An operation changes only its key. -/
theorem step_other (L : ∀ t, Layout (V t)) {db db' : DB} {w : Write V} (h : step L db w = .ok db')
    {k : Bytes} (hk : keyOf w ≠ k) : db' k = db k := by
  cases w with
  | put k' t v =>
    simp only [step, Except.ok.injEq] at h; subst h
    exact Map.put_of_ne _ _ (fun e => hk e.symm)
  | remove k' =>
    simp only [step, Except.ok.injEq] at h; subst h
    exact Map.erase_of_ne _ (fun e => hk e.symm)
  | removePtr buf len =>
    simp only [step, removePtr, slice] at h
    split at h
    · rename_i key hs
      split at hs
      · cases hs; cases h
        exact Map.erase_of_ne _ (fun e => hk e.symm)
      · cases hs
    · cases h

theorem step_removal (L : ∀ t, Layout (V t)) {db db' : DB} {w : Write V}
    (h : step L db w = .ok db') (hr : IsRemoval w) : db' (keyOf w) = none := by
  cases w with
  | put k' t v => exact hr.elim
  | remove k' =>
    simp only [step, Except.ok.injEq] at h; subst h
    exact Map.erase_self _ _
  | removePtr buf len =>
    simp only [step, removePtr, slice] at h
    split at h
    · rename_i key hs
      split at hs
      · cases hs; cases h
        exact Map.erase_self _ _
      · cases hs
    · cases h

theorem run_other (L : ∀ t, Layout (V t)) {db db' : DB} {h : List (Write V)}
    (hr : run L db h = .ok db') {k : Bytes} (hk : ∀ w ∈ h, keyOf w ≠ k) : db' k = db k := by
  induction h generalizing db with
  | nil => simp only [run, Except.ok.injEq] at hr; rw [hr]
  | cons w h ih =>
    simp only [run] at hr
    split at hr
    · rename_i db1 h1
      rw [ih hr (fun x hx => hk x (List.mem_cons_of_mem _ hx)),
        step_other L h1 (hk w List.mem_cons_self)]
    · cases hr

/-- A history that succeeded, cut at one of its operations. -/
theorem run_split (L : ∀ t, Layout (V t)) {db db' : DB} {a b : List (Write V)} {w : Write V}
    (hr : run L db (a ++ w :: b) = .ok db') :
    ∃ d1 d2, run L db a = .ok d1 ∧ step L d1 w = .ok d2 ∧ run L d2 b = .ok db' := by
  rw [run_append] at hr
  cases ha : run L db a with
  | error f => rw [ha] at hr; cases hr
  | ok d1 =>
    rw [ha] at hr
    simp only [run] at hr
    cases hw : step L d1 w with
    | error f => rw [hw] at hr; cases hr
    | ok d2 => rw [hw] at hr; exact ⟨d1, d2, rfl, hw, hr⟩

theorem run_holds (L : ∀ t, Layout (V t)) {db : DB} {h : List (Write V)}
    (hr : run L Map.empty h = .ok db) {k : Bytes} {t : τ} {v : V t} (hh : Holds h k t v) :
    db k = some ((L t).enc v) := by
  obtain ⟨a, b, rfl, hb⟩ := hh
  obtain ⟨d1, d2, _, h2, h3⟩ := run_split L hr
  rw [run_other L h3 hb]
  simp only [step, Except.ok.injEq] at h2
  subst h2
  exact Map.put_self _ _ _

theorem run_absent (L : ∀ t, Layout (V t)) {db : DB} {h : List (Write V)}
    (hr : run L Map.empty h = .ok db) {k : Bytes} (hh : Absent h k) : db k = none := by
  rcases hh with hh | ⟨a, w, b, rfl, hk, hw, hb⟩
  · rw [run_other L hr hh]; rfl
  · obtain ⟨d1, d2, _, h2, h3⟩ := run_split L hr
    rw [run_other L h3 hb, ← hk]
    exact step_removal L h2 hw

end

/-! ## Counters -/

/-- The byte strings of `db` are the integers of `m`. -/
def Rep (db : DB) (m : Map Bytes UInt32) : Prop := ∀ k, db k = (m k).map u32.enc

theorem rep_empty : Rep Map.empty Map.empty := fun _ => rfl

theorem rep_get {db : DB} {m : Map Bytes UInt32} (h : Rep db m) (k : Bytes) :
    get u32 db k = .ok (m k) := by
  cases hm : m k with
  | none => exact get_of_none _ (by rw [h k, hm]; rfl)
  | some v => exact get_of_enc _ (by rw [h k, hm]; rfl)

theorem rep_put {db : DB} {m : Map Bytes UInt32} (h : Rep db m) (k : Bytes) (v : UInt32) :
    Rep (put u32 db k v) (m.put k v) := by
  intro k'
  unfold put
  rw [Map.put_apply, Map.put_apply]
  split
  · rfl
  · exact h k'

theorem rep_erase {db : DB} {m : Map Bytes UInt32} (h : Rep db m) (k : Bytes) :
    Rep (db.erase k) (m.erase k) := by
  intro k'
  rw [Map.erase_apply, Map.erase_apply]
  split
  · rfl
  · exact h k'

theorem rep_next {db : DB} {m : Map Bytes UInt32} (h : Rep db m) (k : Bytes) (d : UInt32) :
    counterNext db k d = .ok (match m k with | some v => v + 1 | none => d) := by
  unfold counterNext
  rw [rep_get h k]
  cases m k <;> rfl

theorem rep_step {db : DB} {m : Map Bytes UInt32} (h : Rep db m) (o : CounterOp) :
    ∃ db', counterStep db o = .ok ((mapStep m o).1, db') ∧ Rep db' (mapStep m o).2 := by
  cases o with
  | get k =>
    refine ⟨db, ?_, h⟩
    simp only [counterStep, counterGet, rep_get h k]
    rfl
  | getAndIncrement k =>
    refine ⟨_, ?_, rep_put h k (Counter.getAndIncrement m k).1⟩
    simp only [counterStep, counterGetAndIncrement, rep_next h k]
    simp only [mapStep, Counter.getAndIncrement, Counter.nextValue, Counter.get]
    cases m k <;> rfl
  | increment k d =>
    simp only [counterStep, counterIncrement, rep_next h k, mapStep, Counter.increment, Counter.get]
    cases m k with
    | none => exact ⟨_, rfl, rep_put h k d⟩
    | some v => exact ⟨_, rfl, rep_put h k (v + 1)⟩
  | set k v => exact ⟨_, rfl, rep_put h k v⟩
  | removeKey k => exact ⟨_, rfl, rep_erase h k⟩

theorem rep_run {db : DB} {m : Map Bytes UInt32} (h : Rep db m) (os : List CounterOp) :
    ∃ db', counterRun db os = .ok ((mapRun m os).1, db') ∧ Rep db' (mapRun m os).2 := by
  induction os generalizing db m with
  | nil => exact ⟨db, rfl, h⟩
  | cons o os ih =>
    obtain ⟨d1, h1, r1⟩ := rep_step h o
    obtain ⟨d2, h2, r2⟩ := ih r1
    exact ⟨d2, by simp only [counterRun, h1, h2, mapRun], r2⟩

/-- What a call does to the counter of `k`. -/
theorem mapStep_val (m : Map Bytes UInt32) (o : CounterOp) (k : Bytes) :
    ((isIncr k o = false ∧ isReset k o = false) → (mapStep m o).2 k = m k) ∧
    (∀ v, isIncr k o = true → m k = some v → (mapStep m o).2 k = some (v + 1)) ∧
    (∀ v, isIncr k o = true → m k = none → Starts k v o → (mapStep m o).2 k = some v) := by
  cases o with
  | get k' => simp [isIncr, isReset, mapStep]
  | getAndIncrement k' =>
    by_cases hk : k' = k
    · subst hk
      refine ⟨by simp [isIncr], fun v _ hv => ?_, fun v _ hv hs => ?_⟩
      · simp [mapStep, Counter.getAndIncrement, Counter.get, Counter.nextValue, hv]
      · simp only [Starts] at hs
        simp [mapStep, Counter.getAndIncrement, Counter.get, Counter.nextValue, hv, hs]
    · simp [isIncr, isReset, hk, mapStep, Counter.getAndIncrement, Map.put_apply, Ne.symm hk]
  | increment k' d =>
    by_cases hk : k' = k
    · subst hk
      refine ⟨by simp [isIncr], fun v _ hv => ?_, fun v _ hv hs => ?_⟩
      · simp [mapStep, Counter.increment, Counter.get, hv]
      · simp only [Starts] at hs
        simp [mapStep, Counter.increment, Counter.get, hv, hs]
    · refine ⟨fun _ => ?_, by simp [isIncr, hk], by simp [isIncr, hk]⟩
      simp only [mapStep, Counter.increment]
      cases Counter.get m k' <;> exact Map.put_of_ne _ _ (Ne.symm hk)
  | set k' v =>
    by_cases hk : k' = k
    · simp [isIncr, isReset, hk]
    · simp [isIncr, isReset, hk, mapStep, Counter.set, Map.put_apply, Ne.symm hk]
  | removeKey k' =>
    by_cases hk : k' = k
    · simp [isIncr, isReset, hk]
    · simp [isIncr, isReset, hk, mapStep, Counter.removeKey, Map.erase_apply, Ne.symm hk]

theorem mapRun_append (m : Map Bytes UInt32) (a b : List CounterOp) :
    (mapRun m (a ++ b)).2 = (mapRun (mapRun m a).2 b).2 := by
  induction a generalizing m with
  | nil => rfl
  | cons o a ih => simp only [List.cons_append, mapRun, ih]

theorem mapRun_other (m : Map Bytes UInt32) (b : List CounterOp) (k : Bytes)
    (h : ∀ o ∈ b, isIncr k o = false ∧ isReset k o = false) : (mapRun m b).2 k = m k := by
  induction b generalizing m with
  | nil => rfl
  | cons o b ih =>
    simp only [mapRun]
    rw [ih _ (fun x hx => h x (List.mem_cons_of_mem _ hx)),
      (mapStep_val m o k).1 (h o List.mem_cons_self)]

theorem mapRun_noCounter {os : List CounterOp} {k : Bytes} (h : NoCounter os k) :
    (mapRun Map.empty os).2 k = none := by
  obtain ⟨a, b, rfl, ha, hb⟩ := h
  rw [mapRun_append, mapRun_other _ _ _ hb]
  rcases ha with rfl | ⟨a', rfl⟩
  · rfl
  · rw [mapRun_append]
    exact Map.erase_self _ _

theorem mapRun_incr (m : Map Bytes UInt32) (b : List CounterOp) (k : Bytes) (v : UInt32)
    (hm : m k = some v) (h : ∀ o ∈ b, isReset k o = false) :
    (mapRun m b).2 k = some (v + UInt32.ofNat (b.countP (isIncr k))) := by
  induction b generalizing m v with
  | nil => rw [show (mapRun m []).2 k = m k from rfl, hm]; simp
  | cons o b ih =>
    have hb : ∀ x ∈ b, isReset k x = false := fun x hx => h x (List.mem_cons_of_mem _ hx)
    simp only [mapRun]
    cases hi : isIncr k o with
    | false =>
      rw [ih _ v (by rw [(mapStep_val m o k).1 ⟨hi, h o List.mem_cons_self⟩, hm]) hb,
        List.countP_cons_of_neg (by simp [hi])]
    | true =>
      rw [ih _ (v + 1) ((mapStep_val m o k).2.1 v hi hm) hb, List.countP_cons_of_pos hi]
      congr 1
      rw [UInt32.ofNat_add, UInt32.add_assoc, UInt32.add_comm 1]
      rfl

theorem mapRun_hasValue {os : List CounterOp} {k : Bytes} {v : UInt32} (h : HasValue os k v) :
    (mapRun Map.empty os).2 k = some v := by
  obtain ⟨a, o, b, base, rfl, hs, hc, hb, rfl⟩ := h
  rw [mapRun_append]
  simp only [mapRun]
  refine mapRun_incr _ b k base ?_ hb
  rcases hc with hc | rfl
  · have hn := mapRun_noCounter hc
    cases o with
    | get k' => exact hs.elim
    | getAndIncrement k' =>
      exact (mapStep_val _ _ k).2.2 base (by simpa [isIncr] using hs.1) hn hs
    | increment k' d =>
      exact (mapStep_val _ _ k).2.2 base (by simpa [isIncr] using hs.1) hn hs
    | set k' d =>
      obtain ⟨rfl, rfl⟩ := hs
      exact Map.put_self _ _ _
    | removeKey k' => exact hs.elim
  · exact Map.put_self _ _ _

end Verif.Rocks
