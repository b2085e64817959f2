import Verif.Janus.PowerLemmas

/-! # Janus and loss of power: what holds without a look at the cryptography -/

set_option linter.unusedSectionVars false

namespace Verif.Janus.Power

open Verif
open Verif.Power (Db)

variable {PK KS CT Rand V W : Type} {α β : Type}

/-! ## All contents of a database -/

/-- What holds now and after any loss -/
structure DbAll (P : α → Prop) (d : Db α) : Prop where
  states : ∀ x ∈ d.states, P x
  first : P d.first

theorem DbAll.cur {P : α → Prop} {d : Db α} (h : DbAll P d) : P d.cur := by
  obtain ⟨l, x⟩ := d
  cases l with
  | nil => exact h.first
  | cons y l => exact h.states y (by simp)

theorem DbAll.write {P : α → Prop} {d : Db α} (h : DbAll P d) {x : α} (hx : P x) : DbAll P (d.write x) :=
  ⟨fun y hy => by
    simp only [Db.write, List.mem_cons] at hy
    rcases hy with rfl | hy
    · exact hx
    · exact h.states y hy, h.first⟩

theorem DbAll.lose {P : α → Prop} {d : Db α} (h : DbAll P d) (k : Nat) : DbAll P (d.lose k) :=
  ⟨fun y hy => h.states y (List.mem_of_mem_drop hy), h.first⟩

theorem DbAll.flush {P : α → Prop} {d : Db α} (h : DbAll P d) : DbAll P (flush d) :=
  ⟨fun y hy => by simp [Power.flush] at hy, h.cur⟩

theorem DbAll.writes {P : α → Prop} {l : List α} (hl : ∀ x ∈ l, P x) {d : Db α} (h : DbAll P d) :
    DbAll P (writes d l) := by
  induction l generalizing d with
  | nil => exact h
  | cons x l ih => exact ih (fun y hy => hl y (by simp [hy])) (h.write (hl x (by simp)))

theorem DbAll.mono {P P' : α → Prop} (hP : ∀ x, P x → P' x) {d : Db α} (h : DbAll P d) : DbAll P' d :=
  ⟨fun x hx => hP x (h.states x hx), hP _ h.first⟩

/-! ## No failure -/

/-- The cache can be read. -/
def Readable (m : Map (Vector UInt8 16) (List UInt8)) : Prop := ∀ k, ∃ l, readCache m k = .ok l

theorem step_ok (c : Crypto PK KS CT Rand) (s : Sys KS CT) (h : DbAll Readable s.cache) (op : Op Rand) :
    ∃ s' out, step c s op = .ok (s', out) ∧ DbAll Readable s'.cache := by
  cases op with
  | insert w i r d => exact ⟨_, _, rfl, h⟩
  | remove w i d => exact ⟨_, _, rfl, h⟩
  | search w d =>
    cases d with
    | false => exact ⟨_, _, rfl, h⟩
    | true =>
      obtain ⟨s1, out, h1, h2⟩ := Faults.step_ok c ⟨s.client, s.server⟩ h.cur (.search w fine)
      simp only [Faults.step, ← searchRequest_eq, ← search_eq] at h1
      cases hse : search c s.server (searchRequest c s.client w).1 with
      | error e => rw [hse] at h1; exact absurd h1 (by simp)
      | ok x =>
        obtain ⟨res, srv⟩ := x
        rw [hse] at h1
        obtain ⟨hs1, -⟩ := Prod.mk.inj (Except.ok.inj h1)
        rw [← hs1] at h2
        exact ⟨_, _, by simp only [step, if_true, hse]; rfl, h.write h2⟩
  | clientLoss a b d => exact ⟨_, _, rfl, h⟩
  | serverLoss a b d => exact ⟨_, _, rfl, h.lose d⟩
  | flush => exact ⟨_, _, rfl, h⟩

theorem run_ok (c : Crypto PK KS CT Rand) (ops : List (Op Rand)) (s : Sys KS CT)
    (h : DbAll Readable s.cache) : ∃ s' outs, run c s ops = .ok (s', outs) := by
  induction ops generalizing s with
  | nil => exact ⟨_, _, rfl⟩
  | cons op ops ih =>
    obtain ⟨s1, out, h1, h2⟩ := step_ok c s h op
    obtain ⟨s2, outs, h3⟩ := ih s1 h2
    exact ⟨s2, out ++ outs, by simp only [run, h1, h3]⟩

theorem readable_init : DbAll Readable (Sys.init : Sys KS CT).cache :=
  ⟨fun x hx => by simp [Sys.init] at hx, fun _ => ⟨[], rfl⟩⟩

/-! ## The machine returns documents that were inserted -/

theorem empties_all {P : (Str × Nat → Nat → Option V) → Prop}
    (hP : ∀ f k p, P f → P (Spec.setSlot f k p none)) (k : Str × Nat) (ps : List Nat)
    (f : Str × Nat → Nat → Option V) (h : P f) : ∀ g ∈ Spec.empties k f ps, P g := by
  induction ps generalizing f with
  | nil => simp [Spec.empties]
  | cons p ps ih =>
    simp only [Spec.empties]
    split
    · intro g hg
      rcases List.mem_cons.mp hg with rfl | hg
      · exact hP f k p h
      · exact ih _ (hP f k p h) g hg
    · exact ih f h

/-- Slots hold what is allowed for their keyword. -/
def SlotsIn (A : Str → V → Prop) (f : Str × Nat → Nat → Option V) : Prop :=
  ∀ w e p x, f (w, e) p = some x → A w x

theorem slotsIn_empty {A : Str → V → Prop} (f : Str × Nat → Nat → Option V) (k : Str × Nat) (p : Nat)
    (h : SlotsIn A f) : SlotsIn A (Spec.setSlot f k p none) := by
  intro w e q x hx
  simp only [Spec.setSlot] at hx
  split at hx
  · exact absurd hx (by simp)
  · exact h w e q x hx

theorem slotsIn_set {A : Str → V → Prop} (f : Str × Nat → Nat → Option V) (w : Str) (e p : Nat) (x : V)
    (hx : A w x) (h : SlotsIn A f) : SlotsIn A (Spec.setSlot f (w, e) p (some x)) := by
  intro v g q y hy
  simp only [Spec.setSlot] at hy
  split at hy
  · next hc =>
    obtain ⟨rfl, rfl⟩ := Prod.mk.inj hc.1
    exact Option.some.inj hy ▸ hx
  · exact h v g q y hy

theorem fetch_in {A : Str → V → Prop} {f : Str × Nat → Nat → Option V} (h : SlotsIn A f) (w : Str) (e n : Nat) :
    ∀ x ∈ Spec.fetch f (w, e) n, A w x := by
  intro x hx
  simp only [Spec.fetch, List.mem_filterMap] at hx
  obtain ⟨p, -, hp⟩ := hx
  exact h w e p x hp

/-- All documents come from insertions `I`, all punctures from removals `R`. -/
structure Within (I R : Str → Index → Prop) (M : Spec.Machine Rand) : Prop where
  ins : DbAll (SlotsIn (fun w x => I w x.1)) M.ins
  del : DbAll (SlotsIn (fun w x => R w x.2)) M.del
  cache : DbAll (fun f => ∀ w, ∀ i ∈ f w, I w i) M.cache

theorem within_init (I R : Str → Index → Prop) : Within I R (Spec.Machine.init : Spec.Machine Rand) := by
  constructor <;> constructor <;> simp [Spec.Machine.init, SlotsIn]

theorem found_within {I R : Str → Index → Prop} {M : Spec.Machine Rand} (h : Within I R M) (w : Str) :
    ∀ i ∈ M.found w, I w i := by
  intro i hi
  simp only [Spec.Machine.found, List.mem_filter, List.mem_append] at hi
  rcases hi.1 with h' | h'
  · exact h.cache.cur w i h'
  · obtain ⟨x, hx, rfl⟩ := List.mem_map.mp h'
    exact fetch_in h.ins.cur w _ _ x hx

theorem within_step {I R : Str → Index → Prop} {M : Spec.Machine Rand} (h : Within I R M) (op : Op Rand)
    (hI : ∀ w i r d, op = .insert w i r d → I w i) (hR : ∀ w i d, op = .remove w i d → R w i) :
    Within I R (M.step op).1 := by
  cases op with
  | insert w i r d =>
    refine ⟨?_, h.del, h.cache⟩
    cases d with
    | false => exact h.ins
    | true => exact h.ins.write (slotsIn_set _ w _ _ _ (hI w i r true rfl) h.ins.cur)
  | remove w i d =>
    refine ⟨h.ins, ?_, h.cache⟩
    cases d with
    | false => exact h.del
    | true => exact h.del.write (slotsIn_set _ w _ _ _ (hR w i true rfl) h.del.cur)
  | search w d =>
    cases d with
    | false => exact ⟨h.ins, h.del, h.cache⟩
    | true =>
      refine ⟨h.ins.writes (empties_all (fun f k p => slotsIn_empty f k p) _ _ _ h.ins.cur),
        h.del.writes (empties_all (fun f k p => slotsIn_empty f k p) _ _ _ h.del.cur), h.cache.write ?_⟩
      intro v i hi
      simp only [Spec.set] at hi
      split at hi
      · next hv => subst hv; exact found_within h v i hi
      · exact h.cache.cur v i hi
  | clientLoss a b d => exact ⟨h.ins, h.del, h.cache⟩
  | serverLoss a b d => exact ⟨h.ins.lose a, h.del.lose b, h.cache.lose d⟩
  | flush => exact ⟨h.ins.flush, h.del.flush, h.cache⟩

/-- The machine after a history -/
def after (M : Spec.Machine Rand) (ops : List (Op Rand)) : Spec.Machine Rand :=
  ops.foldl (fun M op => (M.step op).1) M

theorem run_append (M : Spec.Machine Rand) (ops ops' : List (Op Rand)) :
    M.run (ops ++ ops') = M.run ops ++ (after M ops).run ops' := by
  induction ops generalizing M with
  | nil => rfl
  | cons op ops ih => simp [Spec.Machine.run, after, ih]

theorem after_append (M : Spec.Machine Rand) (ops ops' : List (Op Rand)) :
    after M (ops ++ ops') = after (after M ops) ops' := by
  simp [after]

theorem within_after {I R : Str → Index → Prop} {M : Spec.Machine Rand} (h : Within I R M)
    (ops : List (Op Rand)) (hI : ∀ w i r d, .insert w i r d ∈ ops → I w i)
    (hR : ∀ w i d, .remove w i d ∈ ops → R w i) : Within I R (after M ops) := by
  induction ops generalizing M with
  | nil => exact h
  | cons op ops ih =>
    exact ih (within_step h op (fun w i r d e => hI w i r d (by simp [e])) (fun w i d e => hR w i d (by simp [e])))
      (fun w i r d hm => hI w i r d (by simp [hm])) (fun w i d hm => hR w i d (by simp [hm]))

theorem mem_inserted {ops : List (Op Rand)} {w : Str} {i : Index} {r : Rand} {d : Bool}
    (h : .insert w i r d ∈ ops) : i ∈ Spec.inserted ops w := by
  simp only [Spec.inserted, List.mem_filterMap]
  exact ⟨_, h, by simp⟩

theorem mem_removed {ops : List (Op Rand)} {w : Str} {i : Index} {d : Bool}
    (h : .remove w i d ∈ ops) : i ∈ Spec.removed ops w := by
  simp only [Spec.removed, List.mem_filterMap]
  exact ⟨_, h, by simp⟩

/-! ## Documents in the cache are kept -/

theorem cache_kept {I R : Str → Index → Prop} {M : Spec.Machine Rand} (h : Within I R M) (w : Str) (i : Index)
    (hi : i ∈ M.cache.cur w) (hr : ¬ R w i) (ops : List (Op Rand)) (hc : Spec.NoCacheLoss ops)
    (hI : ∀ w i r d, .insert w i r d ∈ ops → I w i) (hR : ∀ w i d, .remove w i d ∈ ops → R w i) :
    i ∈ (after M ops).cache.cur w := by
  induction ops generalizing M with
  | nil => exact hi
  | cons op ops ih =>
    have hw := within_step h op (fun w i r d e => hI w i r d (by simp [e]))
      (fun w i d e => hR w i d (by simp [e]))
    refine ih hw ?_ (fun a b d hm => hc a b d (by simp [hm])) (fun w i r d hm => hI w i r d (by simp [hm]))
      (fun w i d hm => hR w i d (by simp [hm]))
    cases op with
    | search v d =>
      cases d with
      | false => exact hi
      | true =>
        show i ∈ Spec.set M.cache.cur v (M.found v) w
        simp only [Spec.set]
        split
        · next hv =>
          subst hv
          simp only [Spec.Machine.found, List.mem_filter, List.mem_append, Bool.not_eq_true',
            List.contains_eq_mem, decide_eq_false_iff_not]
          refine ⟨Or.inl hi, fun hm => ?_⟩
          obtain ⟨x, hx, rfl⟩ := List.mem_map.mp hm
          exact hr (fetch_in h.del.cur w _ _ x hx)
        · exact hi
    | serverLoss a b d =>
      cases d with
      | zero => exact hi
      | succ d => exact absurd (by simp) (hc a b d)
    | insert => exact hi
    | remove => exact hi
    | clientLoss => exact hi
    | flush => exact hi

/-! ## Losses of updates since the last search or flush -/

theorem evRun_snoc (c : Crypto PK KS CT Rand) (s : Janus.Sys KS CT) (evs : List (Crash.Ev Rand))
    (e : Crash.Ev Rand) {s1 s2 : Janus.Sys KS CT} {o1 o2 : List (List Index)}
    (h1 : Crash.evRun c s evs = .ok (s1, o1)) (h2 : Crash.evStep c s1 e = .ok (s2, o2)) :
    Crash.evRun c s (evs ++ [e]) = .ok (s2, o1 ++ o2) := by
  induction evs generalizing s o1 with
  | nil =>
    obtain ⟨rfl, rfl⟩ := Prod.mk.inj (Except.ok.inj h1)
    simp [Crash.evRun, h2]
  | cons x evs ih =>
    simp only [List.cons_append, Crash.evRun] at h1 ⊢
    cases hx : Crash.evStep c s x with
    | error e => rw [hx] at h1; exact absurd h1 (by simp)
    | ok y =>
      obtain ⟨s', out⟩ := y
      rw [hx] at h1
      simp only at h1 ⊢
      cases hy : Crash.evRun c s' evs with
      | error e => rw [hy] at h1; exact absurd h1 (by simp)
      | ok z =>
        obtain ⟨s'', outs⟩ := z
        rw [hy] at h1
        obtain ⟨rfl, rfl⟩ := Prod.mk.inj (Except.ok.inj h1)
        rw [ih s' hy]
        simp

theorem undeliver_zero (l : List (Crash.Ev Rand)) : Spec.undeliver 0 0 l = l := by
  induction l with
  | nil => rfl
  | cons e l ih => simp [Spec.undeliver, ih]

theorem undeliver_undeliver (a b a' b' : Nat) (l : List (Crash.Ev Rand)) :
    Spec.undeliver a' b' (Spec.undeliver a b l) = Spec.undeliver (a + a') (b + b') l := by
  induction l generalizing a b a' b' with
  | nil => simp [Spec.undeliver]
  | cons e l ih =>
    rcases e with ⟨w, i, r, d⟩ | ⟨w, i, d⟩ | ⟨w, f⟩
    · cases d with
      | false => simp [Spec.undeliver, ih]
      | true =>
        cases a with
        | zero => cases a' <;> simp [Spec.undeliver, ih]
        | succ a =>
          rw [Nat.add_right_comm a 1 a']
          simp [Spec.undeliver, ih]
    · cases d with
      | false => simp [Spec.undeliver, ih]
      | true =>
        cases b with
        | zero => cases b' <;> simp [Spec.undeliver, ih]
        | succ b =>
          rw [Nat.add_right_comm b 1 b']
          simp [Spec.undeliver, ih]
    · simp [Spec.undeliver, ih]

theorem insertions_undeliver (a b : Nat) (l : List (Crash.Ev Rand)) (h : a ≤ Spec.insertions l) :
    Spec.insertions (Spec.undeliver a b l) + a = Spec.insertions l := by
  induction l generalizing a b with
  | nil => simp_all [Spec.undeliver, Spec.insertions]
  | cons e l ih =>
    rcases e with ⟨w, i, r, d⟩ | ⟨w, i, d⟩ | ⟨w, f⟩
    · cases d with
      | false => simpa [Spec.undeliver, Spec.insertions] using ih a b h
      | true =>
        simp only [Spec.insertions] at h
        cases a with
        | zero => have := ih 0 b (by omega); simp only [Spec.undeliver, Spec.insertions]; omega
        | succ a => have := ih a b (by omega); simp only [Spec.undeliver, Spec.insertions]; omega
    · simp only [Spec.insertions] at h
      cases d with
      | false => simpa [Spec.undeliver, Spec.insertions] using ih a b h
      | true =>
        cases b with
        | zero => simpa [Spec.undeliver, Spec.insertions] using ih a 0 h
        | succ b => simpa [Spec.undeliver, Spec.insertions] using ih a b h
    · simpa [Spec.undeliver, Spec.insertions] using ih a b h

theorem removals_undeliver (a b : Nat) (l : List (Crash.Ev Rand)) (h : b ≤ Spec.removals l) :
    Spec.removals (Spec.undeliver a b l) + b = Spec.removals l := by
  induction l generalizing a b with
  | nil => simp_all [Spec.undeliver, Spec.removals]
  | cons e l ih =>
    rcases e with ⟨w, i, r, d⟩ | ⟨w, i, d⟩ | ⟨w, f⟩
    · simp only [Spec.removals] at h
      cases d with
      | false => simpa [Spec.undeliver, Spec.removals] using ih a b h
      | true =>
        cases a with
        | zero => simpa [Spec.undeliver, Spec.removals] using ih 0 b h
        | succ a => simpa [Spec.undeliver, Spec.removals] using ih a b h
    · cases d with
      | false => simpa [Spec.undeliver, Spec.removals] using ih a b h
      | true =>
        simp only [Spec.removals] at h
        cases b with
        | zero => have := ih a 0 (by omega); simp only [Spec.undeliver, Spec.removals]; omega
        | succ b => have := ih a b (by omega); simp only [Spec.undeliver, Spec.removals]; omega
    · simpa [Spec.undeliver, Spec.removals] using ih a b h

/-- The system is the one after the history, also after any loss of pending updates. -/
def Same (c : Crypto PK KS CT Rand) (pending before : List (Crash.Ev Rand)) (s : Sys KS CT)
    (outs : List (List Index)) : Prop :=
  ∀ a b, a ≤ Spec.insertions pending → b ≤ Spec.removals pending →
    Crash.evRun c Janus.Sys.init (Spec.undeliver a b pending ++ before).reverse =
      .ok (⟨s.client, ⟨(s.insEdb.lose a).cur, (s.delEdb.lose b).cur, s.cache.cur⟩⟩, outs)

theorem lose_zero (d : Db α) : d.lose 0 = d := by simp [Db.lose]

theorem Same.now {c : Crypto PK KS CT Rand} {pending before : List (Crash.Ev Rand)} {s : Sys KS CT}
    {outs : List (List Index)} (h : Same c pending before s outs) :
    Crash.evRun c Janus.Sys.init (pending ++ before).reverse = .ok (⟨s.client, s.server⟩, outs) := by
  have := h 0 0 (Nat.zero_le _) (Nat.zero_le _)
  rw [undeliver_zero, lose_zero, lose_zero] at this
  exact this

theorem same_of_now {c : Crypto PK KS CT Rand} {evs : List (Crash.Ev Rand)} {s : Sys KS CT}
    {outs : List (List Index)} (h : Crash.evRun c Janus.Sys.init evs.reverse = .ok (⟨s.client, s.server⟩, outs)) :
    Same c [] evs s outs := by
  intro a b ha hb
  simp only [Spec.insertions, Spec.removals, Nat.le_zero] at ha hb
  subst ha hb
  rw [lose_zero, lose_zero]
  exact h

theorem same_insert {c : Crypto PK KS CT Rand} {pending before : List (Crash.Ev Rand)} {s : Sys KS CT}
    {outs : List (List Index)} (h : Same c pending before s outs) (w : Str) (i : Index) (r : Rand) (d : Bool)
    {s' : Sys KS CT} {out : List (List Index)} (hs : step c s (.insert w i r d) = .ok (s', out)) :
    Same c (.insert w i r d :: pending) before s' (outs ++ out) := by
  obtain ⟨rfl, rfl⟩ := Prod.mk.inj (Except.ok.inj hs)
  intro a b ha hb
  cases d with
  | false =>
    have hu : Spec.undeliver a b (.insert w i r false :: pending) =
        .insert w i r false :: Spec.undeliver a b pending := by simp [Spec.undeliver]
    rw [hu, List.cons_append, List.reverse_cons]
    exact evRun_snoc c _ _ _ (h a b ha hb) rfl
  | true =>
    simp only [Spec.insertions] at ha
    cases a with
    | zero =>
      have hu : Spec.undeliver 0 b (.insert w i r true :: pending) =
          .insert w i r true :: Spec.undeliver 0 b pending := by simp [Spec.undeliver]
      rw [hu, List.cons_append, List.reverse_cons]
      exact evRun_snoc c _ _ _ (h 0 b (Nat.zero_le _) hb) rfl
    | succ a =>
      have hu : Spec.undeliver (a + 1) b (.insert w i r true :: pending) =
          .insert w i r false :: Spec.undeliver a b pending := by simp [Spec.undeliver]
      rw [hu, List.cons_append, List.reverse_cons]
      exact evRun_snoc c _ _ _ (h a b (by omega) hb) rfl

theorem same_remove {c : Crypto PK KS CT Rand} {pending before : List (Crash.Ev Rand)} {s : Sys KS CT}
    {outs : List (List Index)} (h : Same c pending before s outs) (w : Str) (i : Index) (d : Bool)
    {s' : Sys KS CT} {out : List (List Index)} (hs : step c s (.remove w i d) = .ok (s', out)) :
    Same c (.remove w i d :: pending) before s' (outs ++ out) := by
  obtain ⟨rfl, rfl⟩ := Prod.mk.inj (Except.ok.inj hs)
  intro a b ha hb
  cases d with
  | false =>
    have hu : Spec.undeliver a b (.remove w i false :: pending) =
        .remove w i false :: Spec.undeliver a b pending := by simp [Spec.undeliver]
    rw [hu, List.cons_append, List.reverse_cons]
    exact evRun_snoc c _ _ _ (h a b ha hb) rfl
  | true =>
    simp only [Spec.removals] at hb
    cases b with
    | zero =>
      have hu : Spec.undeliver a 0 (.remove w i true :: pending) =
          .remove w i true :: Spec.undeliver a 0 pending := by simp [Spec.undeliver]
      rw [hu, List.cons_append, List.reverse_cons]
      exact evRun_snoc c _ _ _ (h a 0 ha (Nat.zero_le _)) rfl
    | succ b =>
      have hu : Spec.undeliver a (b + 1) (.remove w i true :: pending) =
          .remove w i false :: Spec.undeliver a b pending := by simp [Spec.undeliver]
      rw [hu, List.cons_append, List.reverse_cons]
      exact evRun_snoc c _ _ _ (h a b ha (by omega)) rfl

theorem clientSearch_client (c : Crypto PK KS CT Rand) (s : Sys KS CT) (w : Str) :
    (clientSearch c s w).client = (searchRequest c s.client w).2 := by
  unfold clientSearch Sys.client searchRequest
  dsimp only
  congr 1
  · split <;> rfl
  · split <;> rfl
  · split <;> rfl

theorem same_search {c : Crypto PK KS CT Rand} {evs : List (Crash.Ev Rand)} {s : Sys KS CT}
    {outs : List (List Index)} (h : Crash.evRun c Janus.Sys.init evs.reverse = .ok (⟨s.client, s.server⟩, outs))
    (w : Str) (d : Bool) {s' : Sys KS CT} {out : List (List Index)}
    (hs : step c s (.search w d) = .ok (s', out)) :
    Crash.evRun c Janus.Sys.init (.search w (if d then .completed else .requestLost) :: evs).reverse =
      .ok (⟨s'.client, s'.server⟩, outs ++ out) := by
  rw [List.reverse_cons]
  cases d with
  | false =>
    obtain ⟨rfl, rfl⟩ := Prod.mk.inj (Except.ok.inj hs)
    refine evRun_snoc c _ _ _ h ?_
    show Except.ok _ = _
    rw [clientSearch_client]
    rfl
  | true =>
    simp only [step, if_true] at hs
    cases hse : search c s.server (searchRequest c s.client w).1 with
    | error e => rw [hse] at hs; exact absurd hs (by simp)
    | ok x =>
      obtain ⟨res, srv⟩ := x
      rw [hse] at hs
      obtain ⟨rfl, rfl⟩ := Prod.mk.inj (Except.ok.inj hs)
      refine evRun_snoc c _ _ _ h ?_
      simp only [if_true, Crash.evStep, hse]
      refine congrArg Except.ok (Prod.ext ?_ rfl)
      refine (?_ : Janus.Sys.mk _ _ = Janus.Sys.mk _ _)
      rw [show ∀ x y z, (Sys.mk (clientSearch c s w).searchCtr (clientSearch c s w).insCtr
        (clientSearch c s w).delCtr x y z).client = (searchRequest c s.client w).2 from
        fun _ _ _ => clientSearch_client c s w]
      refine congrArg (Janus.Sys.mk _) ?_
      unfold search at hse
      cases hi : Diana.search c.ins s.server.insEdb (searchRequest c s.client w).1.ins true with
      | none => simp [hi, ofOption, bind, Except.bind] at hse
      | some x =>
        obtain ⟨ri, ei⟩ := x
        cases hd : Diana.search c.del s.server.delEdb (searchRequest c s.client w).1.del true with
        | none => simp [hi, hd, ofOption, bind, Except.bind] at hse
        | some y =>
          obtain ⟨rd, ed⟩ := y
          simp only [hi, hd, ofOption, bind, Except.bind, pure, Except.pure] at hse
          cases hr : readCache s.server.cache (searchRequest c s.client w).1.kwToken with
          | error e => rw [hr] at hse; exact absurd hse (by simp)
          | ok l =>
            rw [hr] at hse
            have := (Prod.mk.inj (Except.ok.inj hse)).2
            have h1 : srv.insEdb = ei := by rw [← this]
            have h2 : srv.delEdb = ed := by rw [← this]
            show srv = Server.mk _ _ _
            rw [searchWrites_cur c.ins s.insEdb _ hi, searchWrites_cur c.del s.delEdb _ hd, ← h1, ← h2]
            rfl

theorem flush_cur (d : Db α) : (flush d).cur = d.cur := rfl

theorem lose_lose (d : Db α) (a b : Nat) : (d.lose a).lose b = d.lose (a + b) := by
  simp [Db.lose, List.drop_drop]

theorem same_run {c : Crypto PK KS CT Rand} (ops : List (Op Rand)) {pending before : List (Crash.Ev Rand)}
    {s : Sys KS CT} {outs : List (List Index)} (h : Same c pending before s outs)
    {evs : List (Crash.Ev Rand)} (he : Spec.asUndelivered pending before ops = some evs)
    {s' : Sys KS CT} {outs' : List (List Index)} (hs : run c s ops = .ok (s', outs')) :
    Crash.evRun c Janus.Sys.init evs.reverse = .ok (⟨s'.client, s'.server⟩, outs ++ outs') := by
  induction ops generalizing pending before s outs outs' with
  | nil =>
    obtain ⟨rfl, rfl⟩ := Prod.mk.inj (Except.ok.inj hs)
    rw [← Option.some.inj he, List.append_nil]
    exact h.now
  | cons op ops ih =>
    simp only [run] at hs
    cases h1 : step c s op with
    | error e => rw [h1] at hs; exact absurd hs (by simp)
    | ok x =>
      obtain ⟨s1, out⟩ := x
      rw [h1] at hs
      simp only at hs
      cases h2 : run c s1 ops with
      | error e => rw [h2] at hs; exact absurd hs (by simp)
      | ok y =>
        obtain ⟨s2, outs2⟩ := y
        rw [h2] at hs
        obtain ⟨rfl, rfl⟩ := Prod.mk.inj (Except.ok.inj hs)
        rw [← List.append_assoc]
        cases op with
        | insert w i r d => exact ih (same_insert h w i r d h1) he h2
        | remove w i d => exact ih (same_remove h w i d h1) he h2
        | search w d => exact ih (same_of_now (same_search h.now w d h1)) he h2
        | clientLoss a b d => exact absurd he (by simp [Spec.asUndelivered])
        | serverLoss a b d =>
          cases d with
          | succ d => exact absurd he (by simp [Spec.asUndelivered])
          | zero =>
            simp only [Spec.asUndelivered] at he
            split at he
            · next hle =>
              obtain ⟨rfl, rfl⟩ := Prod.mk.inj (Except.ok.inj h1)
              refine ih ?_ he h2
              intro a' b' ha' hb'
              have e1 := insertions_undeliver a b pending hle.1
              have e2 := removals_undeliver a b pending hle.2
              rw [undeliver_undeliver, List.append_nil]
              have := h (a + a') (b + b') (by omega) (by omega)
              rw [this]
              simp only [lose_lose, lose_zero]
              rfl
            · exact absurd he (by simp)
        | flush =>
          obtain ⟨rfl, rfl⟩ := Prod.mk.inj (Except.ok.inj h1)
          refine ih (same_of_now ?_) he h2
          rw [List.append_nil]
          exact h.now

theorem same_init (c : Crypto PK KS CT Rand) : Same c [] [] (Sys.init : Sys KS CT) [] :=
  same_of_now rfl

end Verif.Janus.Power
