import Verif.Power.Flush
import Verif.Power.Lemmas

/-!
# Losses of power with flushes, reduced to losses without flushes
-/

set_option linter.unusedSectionVars false

namespace Verif.Power

open Verif Verif.Runner.Sess

variable {Kw : Type} [DecidableEq Kw] {S : Scheme Kw}

/-- Whether an event flushes -/
def flushes (sv : Service) : Ev Kw → Bool
  | .sessionEnd ok => decide (sv = .diana) && ok
  | .restart ok => decide (sv = .diana) && ok
  | _ => false

/-- The same events without flushes: a loss reaches back to the last flush only. `n`: number of writes that may be lost. -/
def clip (sv : Service) : Nat → List (Ev Kw) → List (Op Kw)
  | _, [] => []
  | n, .insert w i d :: l => .insert w i d :: clip sv (if d then n + 1 else n) l
  | n, .sessionEnd ok :: l => clip sv (if flushes sv (.sessionEnd ok : Ev Kw) then 0 else n) l
  | n, .restart ok :: l => clip sv (if flushes sv (.restart ok : Ev Kw) then 0 else n) l
  | n, .clientLoss k :: l => .clientLoss k :: clip sv n l
  | n, .serverLoss k :: l => .serverLoss (min k n) :: clip sv (n - k) l

/-- The database with flushes is a part of the one without. -/
structure Clipped {α : Type} (n : Nat) (d e : Db α) : Prop where
  len : d.states.length = n
  ex : ∃ rest, e.states = d.states ++ rest ∧ d.first = rest.headD e.first

theorem Clipped.cur {α : Type} {n : Nat} {d e : Db α} (h : Clipped n d e) : d.cur = e.cur := by
  obtain ⟨rest, h1, h2⟩ := h.ex
  unfold Db.cur
  rw [h1]
  cases hd : d.states with
  | nil => simpa using h2
  | cons x l => simp

theorem Clipped.write {α : Type} {n : Nat} {d e : Db α} (h : Clipped n d e) (x : α) : Clipped (n + 1) (d.write x) (e.write x) := by
  obtain ⟨rest, h1, h2⟩ := h.ex
  exact ⟨by simp [Db.write, h.len], rest, by simp [Db.write, h1], by simpa [Db.write] using h2⟩

theorem Clipped.lose {α : Type} {n : Nat} {d e : Db α} (h : Clipped n d e) (k : Nat) : Clipped (n - k) (d.lose k) (e.lose (min k n)) := by
  obtain ⟨rest, h1, h2⟩ := h.ex
  refine ⟨by simp [Db.lose, h.len], rest, ?_, by simpa [Db.lose] using h2⟩
  have hl := h.len
  simp only [Db.lose, h1]
  rw [List.drop_append_of_le_length (by omega)]
  congr 1
  rcases Nat.le_total k n with hk | hk
  · rw [Nat.min_eq_left hk]
  · rw [Nat.min_eq_right hk, List.drop_eq_nil_of_le (by omega), List.drop_eq_nil_of_le (by omega)]

theorem Clipped.flush {α : Type} {n : Nat} {d e : Db α} (h : Clipped n d e) : Clipped 0 d.flush e :=
  ⟨rfl, e.states, by simp [Db.flush], by simp only [Db.flush]; rw [h.cur]; rfl⟩

theorem clip_run (sv : Service) (evs : List (Ev Kw)) (n : Nat) (s t : Sys S) (hc : s.cli = t.cli) (hs : Clipped n s.srv t.srv) :
    (evs.foldl (evStep sv S) s).cli.cur = ((clip sv n evs).foldl (step S) t).cli.cur ∧
    (evs.foldl (evStep sv S) s).srv.cur = ((clip sv n evs).foldl (step S) t).srv.cur := by
  induction evs generalizing n s t with
  | nil => exact ⟨by simp [clip, hc], by simpa [clip] using hs.cur⟩
  | cons ev evs ih =>
    have hend : ∀ ok, Clipped (if (decide (sv = .diana) && ok) = true then 0 else n) (endStep sv ok s.srv) t.srv := by
      intro ok
      cases sv
      · simpa [endStep] using hs
      · cases ok
        · simpa [endStep] using hs
        · simpa [endStep] using hs.flush
    cases ev with
    | insert w i d =>
      simp only [List.foldl_cons, clip]
      refine ih _ _ _ (by simp [evStep, step, hc]) ?_
      simp only [evStep, step, hc, hs.cur]
      cases d
      · simpa using hs
      · simpa using hs.write _
    | sessionEnd ok =>
      simp only [List.foldl_cons, clip, flushes]
      exact ih _ _ _ hc (hend ok)
    | restart ok =>
      simp only [List.foldl_cons, clip, flushes]
      exact ih _ _ _ hc (hend ok)
    | clientLoss k =>
      simp only [List.foldl_cons, clip]
      exact ih _ _ _ (by simp [evStep, step, hc]) hs
    | serverLoss k =>
      simp only [List.foldl_cons, clip]
      exact ih _ _ _ hc (hs.lose k)

theorem evSearch_clip (sv : Service) (evs : List (Ev Kw)) (w : Kw) : evSearch sv S evs w = search S (clip sv 0 evs) w := by
  have h := clip_run (S := S) sv evs 0 (init S) (init S) rfl ⟨rfl, [], by simp [init], by simp⟩
  unfold evSearch search evRun run
  rw [h.1, h.2]

theorem clip_inserted (sv : Service) (evs : List (Ev Kw)) (n : Nat) (w : Kw) :
    Spec.inserted (clip sv n evs) w = Durable.inserted evs w := by
  induction evs generalizing n with
  | nil => rfl
  | cons ev evs ih =>
    unfold Spec.inserted Durable.inserted at ih ⊢
    cases ev <;> simp only [clip, List.filterMap_cons, ih]

theorem clip_noClientLoss (sv : Service) (evs : List (Ev Kw)) (n : Nat) (h : Durable.NoClientLoss evs) : Spec.NoClientLoss (clip sv n evs) := by
  induction evs generalizing n with
  | nil => simp [clip, Spec.NoClientLoss]
  | cons ev evs ih =>
    have ih := fun n => ih n (fun k hk => h k (List.mem_cons_of_mem _ hk))
    unfold Spec.NoClientLoss at ih ⊢
    cases ev with
    | clientLoss k => exact absurd List.mem_cons_self (h k)
    | _ => intro k; simp [clip, ih]

/-- The stored insertions, oldest first -/
def kept (l : List (Spec.Ins Kw)) : List (Kw × Index) := (l.reverse.filter (·.stored)).map (fun e => (e.w, e.i))

theorem kept_unstore (k : Nat) (l : List (Spec.Ins Kw)) : kept (Spec.unstore k l) = (kept l).take ((kept l).length - k) := by
  have key : ∀ k l, ((Spec.unstore k l).filter (·.stored)).map (fun e : Spec.Ins Kw => (e.w, e.i)) =
      ((l.filter (·.stored)).map (fun e => (e.w, e.i))).drop k := by
    intro k l
    induction l generalizing k with
    | nil => rw [unstore_nil]; simp
    | cons e l ih =>
      cases k with
      | zero => simp [Spec.unstore]
      | succ k =>
        cases he : e.stored
        · simp [Spec.unstore, he, ih]
        · simp [Spec.unstore, he, ih]
  unfold kept
  rw [List.filter_reverse, List.map_reverse, List.filter_reverse, List.map_reverse, key, List.length_reverse, List.reverse_drop]

theorem clip_docs (evs : List (Ev Kw)) (hf : Durable.NoFailure evs) (l : List (Spec.Ins Kw)) (d : Durable.Docs Kw)
    (h : kept l = d.safe ++ d.recent) :
    kept ((clip .diana d.recent.length evs).foldl Spec.step l) =
      (evs.foldl Durable.step d).safe ++ (evs.foldl Durable.step d).recent := by
  induction evs generalizing l d with
  | nil => simpa [clip] using h
  | cons ev evs ih =>
    have ih := ih ⟨fun hh => hf.1 (List.mem_cons_of_mem _ hh), fun hh => hf.2 (List.mem_cons_of_mem _ hh)⟩
    cases ev with
    | insert w i dl =>
      simp only [clip, List.foldl_cons]
      cases dl
      · exact ih _ _ (by simpa [kept, Spec.step, Durable.step] using h)
      · have := ih (Spec.step l (.insert w i true)) (Durable.step d (.insert w i true)) (by
          simp only [kept, Spec.step, Durable.step, List.reverse_cons, List.filter_append, List.map_append, if_true] at h ⊢
          rw [h]; simp)
        simpa [Durable.step] using this
    | sessionEnd ok =>
      cases ok with
      | false => exact absurd List.mem_cons_self hf.1
      | true =>
        have := ih l (Durable.step d (.sessionEnd true)) (by simp [Durable.step, h])
        simpa [clip, flushes, Durable.step] using this
    | restart ok =>
      cases ok with
      | false => exact absurd List.mem_cons_self hf.2
      | true =>
        have := ih l (Durable.step d (.restart true)) (by simp [Durable.step, h])
        simpa [clip, flushes, Durable.step] using this
    | clientLoss k =>
      have hk : ∀ (k : Nat) (l : List (Spec.Ins Kw)), kept (Spec.forget k l) = kept l := by
        intro k l
        have : ((Spec.forget k l).filter (·.stored)).map (fun e : Spec.Ins Kw => (e.w, e.i)) =
            (l.filter (·.stored)).map (fun e => (e.w, e.i)) := by
          induction l generalizing k with
          | nil => rw [forget_nil]
          | cons e l ih =>
            cases k with
            | zero => rfl
            | succ k =>
              cases he : e.known <;> cases he' : e.stored <;> simp [Spec.forget, he, he', ih]
        unfold kept
        rw [List.filter_reverse, List.map_reverse, List.filter_reverse, List.map_reverse, this]
      exact ih _ _ (by rw [← h]; exact hk k l)
    | serverLoss k =>
      have := ih (Spec.step l (.serverLoss (min k d.recent.length))) (Durable.step d (.serverLoss k)) (by
        simp only [Spec.step, Durable.step, kept_unstore, h, List.length_append]
        rw [show d.safe.length + d.recent.length - min k d.recent.length = d.safe.length + (d.recent.length - k) by omega,
          List.take_length_add_append])
      simpa [clip, Durable.step] using this

theorem stored_docs (evs : List (Ev Kw)) (hf : Durable.NoFailure evs) (w : Kw) :
    Spec.stored (clip .diana 0 evs) w = Durable.docs evs w := by
  have h := clip_docs evs hf [] ⟨[], []⟩ (by simp [kept])
  have h' : kept (Spec.run (clip .diana 0 evs)) = (Durable.run evs).safe ++ (Durable.run evs).recent := h
  unfold Durable.docs
  rw [← h']
  unfold Spec.stored kept
  rw [List.filter_map, List.map_map, List.filter_filter]
  congr 1
  exact List.filter_congr (by intro e _; simp)

theorem docs_prefix (b : List (Ev Kw)) (d : Durable.Docs Kw) :
    d.safe <+: (b.foldl Durable.step d).safe := by
  induction b generalizing d with
  | nil => exact List.prefix_rfl
  | cons ev b ih =>
    refine List.IsPrefix.trans ?_ (ih _)
    cases ev <;> simp [Durable.step]

theorem noCollision_mono {c : Diana.Crypto Kw Index} {m n : Kw → Nat} (hnc : Diana.NoCollision c n) (h : ∀ w, m w ≤ n w) :
    Diana.NoCollision c m :=
  fun w a v b ha hb he => hnc w a v b (Nat.lt_of_lt_of_le ha (h w)) (Nat.lt_of_lt_of_le hb (h v)) he

/-- Without a flush everything may be lost. -/
theorem unsafe_all (sv : Service) (session : List (Kw × Index)) (ev : Ev Kw)
    (hev : ∃ ok, ev = .sessionEnd ok ∨ ev = .restart ok) (hno : flushes sv ev = false) (w : Kw) :
    Spec.stored (clip sv 0 (session.map (fun e => Ev.insert e.1 e.2 true) ++ [ev, .serverLoss session.length])) w = [] := by
  have key : ∀ (l : List (Kw × Index)) (n : Nat) (m : Nat) (s : List (Spec.Ins Kw)), (kept s).length = n → m = n + l.length →
      kept ((clip sv n (l.map (fun e => Ev.insert e.1 e.2 true) ++ [ev, .serverLoss m])).foldl Spec.step s) = [] := by
    intro l
    induction l with
    | nil =>
      intro n m s hs hm
      have hclip : clip sv n ([ev, .serverLoss m] : List (Ev Kw)) = [.serverLoss (min m n)] := by
        obtain ⟨ok, rfl | rfl⟩ := hev <;> simp [clip, hno]
      simp only [List.map_nil, List.nil_append, hclip, List.foldl_cons, List.foldl_nil, Spec.step, kept_unstore]
      simp at hm
      subst hm
      simp [hs]
    | cons x l ih =>
      intro n m s hs hm
      simp only [List.map_cons, List.cons_append, clip, List.foldl_cons, if_true]
      refine ih (n + 1) m _ ?_ (by simp at hm; omega)
      simp only [Spec.step, kept, List.reverse_cons, List.filter_append, List.map_append, List.length_append]
      unfold kept at hs
      rw [hs]; simp
  have h := key session 0 session.length [] (by simp [kept]) (by simp)
  have h' : kept (Spec.run (clip sv 0 (session.map (fun e => Ev.insert e.1 e.2 true) ++ [ev, .serverLoss session.length]))) = [] := h
  unfold Spec.stored
  unfold kept at h'
  rw [List.map_eq_nil_iff, List.filter_eq_nil_iff] at h' ⊢
  intro e he
  have := h' e he
  simp_all

end Verif.Power
