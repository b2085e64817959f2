import Verif.Tethys.Async
import Verif.Tethys.StoreProps

/-! # Properties of the asynchronous lookups (C28) -/

namespace Verif.Tethys.Async

/-- The environment of a lookup of `key` in a store (tethys_store.hpp L292-324, L347-360), when both
reads succeed -/
def envOf (s : Store) (enc : ValueEncoder) (key : CoreKey) (p : BucketPair) : Env where
  index t := if t then p.i1 else p.i0
  bucket t := some (if t then p.b1 else p.b0)
  decode b0 i0 b1 i1 := enc.decode key b0 i0 b1 i1
  stash := (s.stash key).getD []

/-- The result when `f` completes first -/
def result (env : Env) (f : Bool) (b : Bool → List UInt8) : Except Fault (List Index) :=
  match env.decode (b f) (env.index f) (b !f) (env.index !f) with
  | .ok r => .ok (r ++ env.stash)
  | .error e => .error e

/-- The states of an execution without fault in which `f` increments the counter first, by the
positions of the two callbacks -/
inductive Shape (env : Env) (b : Bool → List UInt8) : AState → Prop
  | init (s : AState) (hpc : ∀ t, s.pc t = .start)
      (h : s.counter = 0 ∧ s.bucket0 = none ∧ s.bucket1 = none ∧ s.alive = true ∧ s.calls = [] ∧
        s.fault = none) : Shape env b s
  | running (s : AState) (f : Bool)
      (hc : s.counter = if s.pc (!f) = .start then 1 else 2)
      (hf : s.pc f = .first ∨ s.pc f = .firstBucket ∨ s.pc f = .done)
      (hs : s.pc (!f) = .start ∨ s.pc (!f) = .second ∨ s.pc (!f) = .secondBucket ∨ s.pc (!f) = .decode)
      (hi0 : s.pc f ≠ .first → s.index0 = some (env.index f))
      (hb0 : s.bucket0 = if s.pc f = .done then some (b f) else none)
      (hi1 : s.pc (!f) = .secondBucket ∨ s.pc (!f) = .decode → s.index1 = some (env.index !f))
      (hb1 : s.pc (!f) = .decode → s.bucket1 = some (b !f))
      (h : s.alive = true ∧ s.calls = [] ∧ s.fault = none) : Shape env b s
  | decoded (s : AState) (f : Bool) (r : List Index) (hr : result env f b = .ok r)
      (hf : s.pc f = .done)
      (hs : s.pc (!f) = .delete r ∧ s.alive = true ∧ s.calls = [] ∨
        s.pc (!f) = .call r ∧ s.alive = false ∧ s.calls = [] ∨
        s.pc (!f) = .done ∧ s.alive = false ∧ s.calls = [r])
      (h : s.fault = none) : Shape env b s
  | faulty (s : AState) (h : s.fault = some .nullDeref ∨
        ∃ f e, result env f b = .error e ∧ s.fault = some (.decoder e))
      (hc : s.calls = []) : Shape env b s

theorem shape_step {env : Env} {b : Bool → List UInt8} (hb : ∀ t, env.bucket t = some (b t)) {s : AState}
    (h : Shape env b s) (t : Bool) : Shape env b (step env s t) := by
  have hbt := hb t
  clear hb
  cases h with
  | init hpc h =>
    obtain ⟨h1, h2, h3, h4, h5, h6⟩ := h
    unfold step
    simp only [h6, ne_eq, not_true_eq_false, if_false, hpc t, h4, h1, reduceCtorEq]
    simp only [Nat.zero_add, if_true]
    refine .running _ t ?_ ?_ ?_ ?_ ?_ ?_ ?_ ?_ <;>
      simp_all [AState.goto, -Bool.forall_bool]
  | running f hc hf hs hi0 hb0 hi1 hb1 h =>
    obtain ⟨h4, h5, h6⟩ := h
    by_cases htf : t = f
    · subst htf
      unfold step
      simp only [h6, ne_eq, not_true_eq_false, if_false]
      rcases hf with hf | hf | hf
      · simp only [hf, h4, reduceCtorEq, if_false]
        refine .running _ t ?_ ?_ ?_ ?_ ?_ ?_ ?_ ?_ <;>
          simp_all [AState.goto]
      · simp only [hf, h4, reduceCtorEq, if_false]
        refine .running _ t ?_ ?_ ?_ ?_ ?_ ?_ ?_ ?_ <;>
          simp_all [AState.goto]
      · simp only [hf]
        exact .running _ t hc (by simp [hf]) hs hi0 hb0 hi1 hb1 ⟨h4, h5, h6⟩
    · have ht : t = !f := by cases t <;> cases f <;> simp_all
      subst ht
      unfold step
      simp only [h6, ne_eq, not_true_eq_false, if_false]
      rcases hs with hs | hs | hs | hs
      · simp only [hs, if_true] at hc
        simp only [hs, h4, reduceCtorEq, if_false, hc]
        refine .running _ f ?_ ?_ ?_ ?_ ?_ ?_ ?_ ?_ <;>
          simp_all [AState.goto]
      · simp only [hs, h4, reduceCtorEq, if_false]
        refine .running _ f ?_ ?_ ?_ ?_ ?_ ?_ ?_ ?_ <;>
          simp_all [AState.goto]
      · simp only [hs, h4, reduceCtorEq, if_false]
        refine .running _ f ?_ ?_ ?_ ?_ ?_ ?_ ?_ ?_ <;>
          simp_all [AState.goto]
      · simp only [hs, h4, reduceCtorEq, if_false]
        by_cases hd : s.pc f = .done
        · rw [hb0, if_pos hd, hb1 hs, hi0 (by simp [hd]), hi1 (Or.inr hs)]
          simp only [Option.getD_some]
          cases hdec : env.decode (b f) (env.index f) (b !f) (env.index !f) with
          | error e =>
            simp only
            refine .faulty _ (Or.inr ⟨f, e, ?_, rfl⟩) h5
            unfold result; rw [hdec]
          | ok r =>
            simp only
            refine .decoded _ f (r ++ env.stash) ?_ ?_ ?_ ?_
            · unfold result; rw [hdec]
            · simp [AState.goto, hd]
            · simp [AState.goto, h4, h5]
            · simp [AState.goto, h6]
        · rw [hb0, if_neg hd]
          exact .faulty _ (Or.inl rfl) h5
  | decoded f r hr hf hs h =>
    unfold step
    simp only [h, ne_eq, not_true_eq_false, if_false]
    by_cases htf : t = f
    · subst htf
      simp only [hf]
      exact .decoded _ t r hr hf hs h
    · have ht : t = !f := by cases t <;> cases f <;> simp_all
      subst ht
      rcases hs with ⟨h1, h2, h3⟩ | ⟨h1, h2, h3⟩ | ⟨h1, h2, h3⟩
      · simp only [h1, h2, reduceCtorEq, if_false]
        refine .decoded _ f r hr ?_ ?_ ?_ <;> simp_all [AState.goto]
      · simp only [h1]
        refine .decoded _ f r hr ?_ ?_ ?_ <;> simp_all [AState.goto]
      · simp only [h1]
        exact .decoded _ f r hr hf (Or.inr (Or.inr ⟨h1, h2, h3⟩)) h
  | faulty h hc =>
    have : s.fault ≠ none := by
      rcases h with h | ⟨f, e, -, h⟩ <;> rw [h] <;> simp
    unfold step
    rw [if_pos this]
    exact .faulty _ h hc

theorem shape_run {env : Env} {b : Bool → List UInt8} (hb : ∀ t, env.bucket t = some (b t))
    (sched : List Bool) {s : AState} (h : Shape env b s) : Shape env b (run env s sched) := by
  induction sched generalizing s with
  | nil => exact h
  | cons t sched ih => exact ih (shape_step hb h t)

theorem shape_init (env : Env) (b : Bool → List UInt8) : Shape env b AState.init :=
  .init _ (fun _ => rfl) ⟨rfl, rfl, rfl, rfl, rfl, rfl⟩

theorem decodeBuckets_swap {key : CoreKey} {b0 b1 : List UInt8} {r : List Index}
    (h : decodeBuckets key b0 b1 = .ok r) : ∃ r', decodeBuckets key b1 b0 = .ok r' ∧ r'.Perm r := by
  unfold decodeBuckets at h ⊢
  cases h0 : decodeSingle key b0 with
  | error e => rw [h0] at h; simp at h
  | ok r0 =>
    cases h1 : decodeSingle key b1 with
    | error e => rw [h0, h1] at h; simp at h
    | ok r1 =>
      rw [h0, h1] at h
      cases h
      exact ⟨r1 ++ r0, rfl, List.perm_append_comm⟩

theorem decode_swap {enc : ValueEncoder} {key : CoreKey} {b0 b1 : List UInt8} {i0 i1 : Nat}
    {r : List Index} (h : enc.decode key b0 i0 b1 i1 = .ok r) :
    ∃ r', enc.decode key b1 i1 b0 i0 = .ok r' ∧ r'.Perm r := by
  cases enc with
  | separate => exact decodeBuckets_swap h
  | encrypt c k => exact decodeBuckets_swap h

theorem result_ok {s : Store} {enc : ValueEncoder} {key : CoreKey} {p : BucketPair} {l : List Index}
    (hg : s.getBuckets key = .ok p) (hl : s.getList enc key = .ok l) (f : Bool) :
    ∃ r, result (envOf s enc key p) f (fun t => if t then p.b1 else p.b0) = .ok r ∧ r.Perm l := by
  unfold Store.getList at hl
  simp only at hl
  rw [hg] at hl
  simp only at hl
  cases hd : enc.decode key p.b0 p.i0 p.b1 p.i1 with
  | error e => rw [hd] at hl; simp at hl
  | ok r =>
    rw [hd] at hl
    cases hl
    cases f with
    | false => exact ⟨r ++ (s.stash key).getD [], by simp [result, envOf, hd], List.Perm.refl _⟩
    | true =>
      obtain ⟨r', h1, h2⟩ := decode_swap hd
      exact ⟨r' ++ (s.stash key).getD [], by simp [result, envOf, h1], h2.append_right _⟩

/-! ## A concrete store -/

namespace Sample

/-- The concrete lists, in two pages of 104 bytes -/
def store : Store := match openStore 104 2 Tethys.Sample.hash .separate Tethys.Sample.lists none with
  | .ok s => s
  | .error _ => ⟨[], Tethys.Sample.hash, Map.empty⟩

/-- The buckets of the third key -/
def pair : BucketPair := match store.getBuckets (Tethys.Sample.K 3) with
  | .ok p => p
  | .error _ => ⟨0, 0, [], []⟩

end Sample

/-- **C28**, in every interleaving, when both reads succeed: the user callback is called at most once,
and with what `get_list` returns, up to the order; if both callbacks terminate, it has been called
exactly once, and the state is freed; the state is never accessed after it is freed. The full property
would also exclude the null dereference, which `C28_race` shows to be possible: the counter is
incremented before the bucket is stored. -/
theorem C28_once_partial (s : Store) (enc : ValueEncoder) (key : CoreKey) (p : BucketPair)
    (l : List Index) (hg : s.getBuckets key = .ok p) (hl : s.getList enc key = .ok l)
    (sched : List Bool) (f : AState) (hf : f = run (envOf s enc key p) AState.init sched) :
    f.calls.length ≤ 1 ∧ (∀ r ∈ f.calls, r.Perm l) ∧
    (f.fault = none ∨ f.fault = some .nullDeref) ∧
    (f.fault = none → (∀ t, f.pc t = .done) → f.calls.length = 1 ∧ f.alive = false) := by
  have hb : ∀ t, (envOf s enc key p).bucket t = some ((fun t => if t then p.b1 else p.b0) t) :=
    fun t => rfl
  have hsh := shape_run hb sched (shape_init (envOf s enc key p) _)
  rw [← hf] at hsh
  cases hsh with
  | init hpc h =>
    obtain ⟨-, -, -, -, h5, h6⟩ := h
    refine ⟨by simp [h5], by simp [h5], Or.inl h6, fun _ h => ?_⟩
    have := h true
    rw [hpc] at this
    simp at this
  | running g hc hf' hs hi0 hb0 hi1 hb1 h =>
    obtain ⟨h4, h5, h6⟩ := h
    refine ⟨by simp [h5], by simp [h5], Or.inl h6, fun _ h => ?_⟩
    have := h (!g)
    rcases hs with h' | h' | h' | h' <;> rw [h'] at this <;> simp at this
  | decoded g r hr hf' hs h =>
    obtain ⟨r', h1, h2⟩ := result_ok hg hl g
    rw [h1] at hr
    cases hr
    rcases hs with ⟨h3, h4, h5⟩ | ⟨h3, h4, h5⟩ | ⟨h3, h4, h5⟩
    · refine ⟨by simp [h5], by simp [h5], Or.inl h, fun _ h => ?_⟩
      have := h (!g)
      rw [h3] at this; simp at this
    · refine ⟨by simp [h5], by simp [h5], Or.inl h, fun _ h => ?_⟩
      have := h (!g)
      rw [h3] at this; simp at this
    · refine ⟨by simp [h5], ?_, Or.inl h, fun _ _ => ⟨by simp [h5], h4⟩⟩
      intro r hr
      rw [h5] at hr
      rw [List.mem_singleton.mp hr]
      exact h2
  | faulty h hc =>
    refine ⟨by simp [hc], by simp [hc], ?_, ?_⟩
    · rcases h with h | ⟨g, e, h1, -⟩
      · exact Or.inr h
      · obtain ⟨r', h2, -⟩ := result_ok hg hl g
        rw [h1] at h2; simp at h2
    · intro h0
      rcases h with h | ⟨g, e, -, h⟩ <;> rw [h] at h0 <;> simp at h0

/-- The hypotheses hold in the concrete store. -/
example : (∃ p, Sample.store.getBuckets (Tethys.Sample.K 3) = .ok p) ∧
    Sample.store.getList .separate (Tethys.Sample.K 3) = .ok [9, 10, 11, 12, 8] := by
  refine ⟨?_, by decide +kernel⟩
  cases h : Sample.store.getBuckets (Tethys.Sample.K 3) with
  | ok p => exact ⟨p, rfl⟩
  | error f =>
    have : (match Sample.store.getBuckets (Tethys.Sample.K 3) with
      | .ok _ => true
      | .error _ => false) = true := by decide +kernel
    rw [h] at this
    simp at this

theorem step_done {env : Env} {s : AState} {t : Bool} (h : s.pc t = .done) : step env s t = s := by
  unfold step
  split
  · rfl
  · rw [h]

theorem run_replicate_done {env : Env} {s : AState} {t : Bool} (h : s.pc t = .done) (k : Nat) :
    run env s (List.replicate k t) = s := by
  induction k with
  | zero => rfl
  | succ k ih =>
    rw [List.replicate_succ]
    show run env (step env s t) (List.replicate k t) = s
    rw [step_done h, ih]

theorem run_append (env : Env) (s : AState) (xs ys : List Bool) :
    run env s (xs ++ ys) = run env (run env s xs) ys := List.foldl_append ..

theorem first_run (env : Env) (t : Bool) :
    run env AState.init (List.replicate 3 t) =
      { AState.init with
        counter := 1, index0 := some (env.index t), bucket0 := env.bucket t,
        pc := fun u => if u = t then .done else .start } := by
  simp [run, List.replicate, List.foldl, step, AState.init, AState.goto]
  funext u
  by_cases h : u = t <;> simp [h]

theorem second_run (env : Env) (b : Bool → List UInt8) (hb : ∀ t, env.bucket t = some (b t)) (t : Bool)
    (r : List Index) (hr : result env t b = .ok r) (s : AState) (hs : s = { AState.init with
        counter := 1, index0 := some (env.index t), bucket0 := env.bucket t,
        pc := fun u => if u = t then .done else .start }) :
    (run env s (List.replicate 6 !t)).calls = [r] ∧ (run env s (List.replicate 6 !t)).fault = none ∧
    (run env s (List.replicate 6 !t)).alive = false ∧ (run env s (List.replicate 6 !t)).pc (!t) = .done := by
  subst hs
  unfold result at hr
  cases hd : env.decode (b t) (env.index t) (b !t) (env.index !t) with
  | error e => rw [hd] at hr; simp at hr
  | ok r' =>
    rw [hd] at hr
    cases hr
    simp [run, List.replicate, step, AState.init, AState.goto, hb, hd]

/-- **C28**, for callbacks that do not overlap, as with the single notification thread of the Linux
scheduler: in either order, the user callback is called exactly once with what `get_list` returns, up
to the order. -/
theorem C28_serialised (s : Store) (enc : ValueEncoder) (key : CoreKey) (p : BucketPair)
    (l : List Index) (hg : s.getBuckets key = .ok p) (hl : s.getList enc key = .ok l)
    (t : Bool) (k m : Nat) (hk : 3 ≤ k) (hm : 6 ≤ m) :
    ∃ r, r.Perm l ∧
      (run (envOf s enc key p) AState.init (List.replicate k t ++ List.replicate m !t)).calls = [r] ∧
      (run (envOf s enc key p) AState.init (List.replicate k t ++ List.replicate m !t)).fault = none ∧
      (run (envOf s enc key p) AState.init (List.replicate k t ++ List.replicate m !t)).alive = false := by
  obtain ⟨r, hr, hperm⟩ := result_ok hg hl t
  refine ⟨r, hperm, ?_⟩
  obtain ⟨k, rfl⟩ := Nat.exists_eq_add_of_le hk
  obtain ⟨m, rfl⟩ := Nat.exists_eq_add_of_le hm
  have hb : ∀ t, (envOf s enc key p).bucket t = some ((fun t => if t then p.b1 else p.b0) t) :=
    fun t => rfl
  have h1 : run (envOf s enc key p) AState.init (List.replicate (3 + k) t) =
      run (envOf s enc key p) AState.init (List.replicate 3 t) := by
    rw [List.replicate_add, run_append]
    exact run_replicate_done (by rw [first_run]; simp) k
  rw [run_append, h1, first_run]
  obtain ⟨h2, h3, h4, h5⟩ := second_run _ _ hb t r hr _ rfl
  rw [List.replicate_add, run_append, run_replicate_done h5]
  exact ⟨h2, h3, h4⟩

/-- Two orders in the concrete store -/
example :
    (run (envOf Sample.store .separate (Tethys.Sample.K 3) Sample.pair) AState.init
      [true, true, true, false, false, false, false, false, false]).calls = [[9, 10, 11, 12, 8]] := by
  decide +kernel

/-- A null pointer is dereferenced when the second callback overtakes the first one between its
increment and its write of the bucket. -/
theorem C28_race :
    (run (envOf Sample.store .separate (Tethys.Sample.K 3) Sample.pair) AState.init
      [false, true, true, true, true]).fault = some .nullDeref := by
  decide +kernel

/-- A failed read gives a null pointer, which is dereferenced whatever the order. -/
theorem C28_failed_read (env : Env) (t : Bool) (h : env.bucket false = none ∨ env.bucket true = none) :
    (run env AState.init (List.replicate 3 t ++ List.replicate 6 !t)).fault = some .nullDeref := by
  rw [run_append, first_run]
  have : env.bucket t = none ∨ env.bucket (!t) = none := by cases t <;> simp_all [or_comm]
  rcases this with h | h
  · simp [run, List.replicate, step, AState.init, AState.goto, h]
  · cases env.bucket t <;> simp [run, List.replicate, step, AState.init, AState.goto, h]

end Verif.Tethys.Async
