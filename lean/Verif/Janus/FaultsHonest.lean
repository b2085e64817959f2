import Verif.Janus.FaultsLemmas

/-! # Histories of Janus with tolerable failures -/

set_option linter.unusedSectionVars false

namespace Verif.Janus.Faults

open Verif
open Verif.Faults.Spec (Slots)

variable {PK KS CT Rand W : Type}

/-- The slots of `w` in epoch `e` hold the values `l`; nothing is stored for later epochs. -/
structure Live (S : Slots (Str × Nat) W) (w : Str) (e : Nat) (l : List W) : Prop where
  vals : Spec.fetch S (w, e) (S.n (w, e)) (fun _ => false) = l
  rest : ∀ p, S.n (w, e) ≤ p → S.slot (w, e) p = none
  later : ∀ f, e < f → S.n (w, f) = 0 ∧ ∀ p, S.slot (w, f) p = none

theorem live_init (w : Str) : Live (Slots.init : Slots (Str × Nat) W) w 0 [] := by
  constructor <;> intros <;> simp [Slots.init, Spec.fetch]

theorem live_congr {S S' : Slots (Str × Nat) W} {w : Str} {e : Nat} {l : List W} (h : Live S w e l)
    (h1 : ∀ f, e ≤ f → S'.n (w, f) = S.n (w, f)) (h2 : ∀ f, e ≤ f → S'.slot (w, f) = S.slot (w, f)) :
    Live S' w e l := by
  refine ⟨?_, ?_, ?_⟩
  · rw [← h.vals]
    unfold Spec.fetch
    rw [h1 e (Nat.le_refl _), h2 e (Nat.le_refl _)]
  · rw [h1 e (Nat.le_refl _), h2 e (Nat.le_refl _)]; exact h.rest
  · intro f hf
    rw [h1 f (by omega), h2 f (by omega)]; exact h.later f hf

/-- The next epoch. -/
theorem live_next {S S' : Slots (Str × Nat) W} {w : Str} {e : Nat} {l : List W} (h : Live S w e l)
    (h1 : ∀ f, e < f → S'.n (w, f) = S.n (w, f)) (h2 : ∀ f, e < f → S'.slot (w, f) = S.slot (w, f)) :
    Live S' w (e + 1) [] := by
  obtain ⟨a, b⟩ := h.later (e + 1) (by omega)
  refine ⟨?_, ?_, ?_⟩
  · unfold Spec.fetch
    rw [h1 _ (by omega), a]; rfl
  · intro p _; rw [h2 _ (by omega)]; exact b p
  · intro f hf
    rw [h1 f (by omega), h2 f (by omega)]; exact h.later f (by omega)

/-- An update. -/
theorem live_update {S : Slots (Str × Nat) W} {w : Str} {e : Nat} {l : List W} (h : Live S w e l)
    (x : W) (r : Verif.Faults.PutRes) :
    Live (S.step Verif.Faults.Spec.oldestFirst (.insert (w, e) x true r .ok)).1 w e
      (if r = .ok then l ++ [x] else l) := by
  have hrest := h.rest (S.n (w, e)) (Nat.le_refl _)
  have hlater : ∀ (S' : Slots (Str × Nat) W), (∀ f, e < f → S'.n (w, f) = S.n (w, f)) →
      (∀ f, e < f → S'.slot (w, f) = S.slot (w, f)) →
      ∀ f, e < f → S'.n (w, f) = 0 ∧ ∀ p, S'.slot (w, f) p = none := by
    intro S' a b f hf
    rw [a f hf, b f hf]; exact h.later f hf
  have hne : ∀ f, e < f → ¬ ((w, f) = (w, e)) := by
    intro f hf hh
    have := (Prod.mk.inj hh).2
    omega
  cases r with
  | failed => simpa [Slots.step] using h
  | storedButFailed =>
    simp only [Slots.step, if_true, reduceCtorEq, if_false]
    refine ⟨?_, ?_, ?_⟩
    · rw [← h.vals]
      simp [Spec.fetch, Slots.setN, List.range_succ, List.filterMap_append, hrest]
    · intro p hp
      simp only [Slots.setN, if_true] at hp
      exact h.rest p (by omega)
    · apply hlater
      · intro f hf
        simp only [Slots.setN, if_neg (hne f hf)]
      · intro f hf; rfl
  | ok =>
    simp only [Slots.step, if_true, reduceCtorEq, if_false]
    refine ⟨?_, ?_, ?_⟩
    · rw [← h.vals]
      simp only [Spec.fetch, Slots.setN, Slots.fill, if_true, List.range_succ, List.filterMap_append]
      congr 1
      · apply List.filterMap_congr
        intro p hp
        rw [List.mem_range] at hp
        have : ¬ p = S.n (w, e) := by omega
        simp [this]
      · simp
    · intro p hp
      simp only [Slots.setN, Slots.fill, if_true] at hp ⊢
      rw [if_neg (by omega)]
      exact h.rest p (by omega)
    · apply hlater
      · intro f hf
        simp only [Slots.setN, Slots.fill, if_neg (hne f hf)]
      · intro f hf
        funext p
        simp only [Slots.setN, Slots.fill]
        rw [if_neg (fun hh => hne f hf hh.1)]

/-- An update of another keyword. -/
theorem live_update_ne {S : Slots (Str × Nat) W} {v w : Str} {e : Nat} {l : List W}
    (h : Live S v e l) (hv : v ≠ w) (e' : Nat) (x : W) (g : Bool) (r q : Verif.Faults.PutRes) :
    Live (S.step Verif.Faults.Spec.oldestFirst (.insert (w, e') x g r q)).1 v e l := by
  have hne : ∀ f, ¬ ((v, f) = (w, e')) := fun f hh => hv (Prod.mk.inj hh).1
  apply live_congr h
  · intro f _
    cases r
    · simp only [Slots.step]
      split <;> simp only [Slots.setN, Slots.fill, if_neg (hne f)]
    · rfl
    · simp only [Slots.step, Slots.setN, if_neg (hne f)]
  · intro f _
    funext p
    cases r
    · simp only [Slots.step]
      split
      · rfl
      · simp only [Slots.setN, Slots.fill]
        rw [if_neg (fun hh => hne f hh.1)]
    · rfl
    · rfl

/-- What a search does to the slots. -/
def searched (S : Slots (Str × Nat) W) (k : Str × Nat) (n : Nat) (bad keep : Nat → Bool) (del : Bool) :
    Slots (Str × Nat) W :=
  if 0 < n ∧ del = true then (Spec.clear S k n bad keep).setN k 0 else Spec.clear S k n bad keep

theorem searched_ne (S : Slots (Str × Nat) W) {k k' : Str × Nat} (hk : k' ≠ k) (n : Nat)
    (bad keep : Nat → Bool) (del : Bool) :
    (searched S k n bad keep del).n k' = S.n k' ∧
    (searched S k n bad keep del).slot k' = S.slot k' := by
  have h : (Spec.clear S k n bad keep).slot k' = S.slot k' := by
    funext p
    simp only [Spec.clear]
    rw [if_neg (fun hh => hk hh.1)]
  unfold searched
  split
  · exact ⟨by simp only [Slots.setN, if_neg hk]; rfl, h⟩
  · exact ⟨rfl, h⟩

/-- The slots of the epoch are emptied. -/
theorem live_reset {S : Slots (Str × Nat) W} {w : Str} {e : Nat} {l : List W} (h : Live S w e l)
    {bad keep : Nat → Bool} (hb : ∀ p, bad p = false) (hk : ∀ p, keep p = false) :
    Live (searched S (w, e) (S.n (w, e)) bad keep true) w e [] := by
  have hslot : ∀ p, (Spec.clear S (w, e) (S.n (w, e)) bad keep).slot (w, e) p = none := by
    intro p
    simp only [Spec.clear, hb, hk]
    by_cases hp : p < S.n (w, e)
    · rw [if_pos (by simp [hp])]
    · rw [if_neg (by simp [hp])]
      exact h.rest p (by omega)
  have hslot' : ∀ p, (searched S (w, e) (S.n (w, e)) bad keep true).slot (w, e) p = none := by
    intro p
    unfold searched
    split
    · exact hslot p
    · exact hslot p
  have hn : (searched S (w, e) (S.n (w, e)) bad keep true).n (w, e) = 0 := by
    unfold searched
    by_cases h0 : 0 < S.n (w, e)
    · rw [if_pos ⟨h0, rfl⟩]; simp [Slots.setN]
    · rw [if_neg (fun hh => h0 hh.1)]
      show S.n (w, e) = 0
      omega
  refine ⟨?_, fun p _ => hslot' p, ?_⟩
  · unfold Spec.fetch; rw [hn]; rfl
  · intro f hf
    have hne : ((w, f) : Str × Nat) ≠ (w, e) := by
      intro hh; have := (Prod.mk.inj hh).2; omega
    obtain ⟨a, b⟩ := searched_ne S hne (S.n (w, e)) bad keep true
    rw [a, b]; exact h.later f hf

/-- A search that finds no counter. -/
theorem live_none {S : Slots (Str × Nat) W} {w : Str} {e : Nat} {l : List W} (h : Live S w e l)
    (h0 : S.n (w, e) = 0) (bad keep : Nat → Bool) (del : Bool) :
    Live (searched S (w, e) (S.n (w, e)) bad keep del) w e [] := by
  have hs : searched S (w, e) (S.n (w, e)) bad keep del = S := by
    unfold searched
    rw [h0, if_neg (by simp)]
    simp [Spec.clear]
  rw [hs]
  refine ⟨?_, h.rest, h.later⟩
  unfold Spec.fetch; rw [h0]; rfl

/-- A keyword of the machine, its abstract list and its pending operations. -/
structure Rel (M : Spec.Machine Rand) (w : Str) (S : List Index) (P : Janus.Spec.Pending)
    (li : List (Index × Rand)) (ld : List (Nat × Index)) : Prop where
  ins : Live M.ins w (M.epoch w) li
  del : Live M.del w (M.epoch w) ld
  delN : M.del.n (w, M.epoch w) = ld.length
  first : ∀ x ∈ ld.head?, x.1 = 1
  inserted : P.inserted = li.map (·.1)
  removed : P.removed = ld.map (·.2)
  store : S = (M.cache w ++ li.map (·.1)).filter (fun i => !(ld.map (·.2)).contains i)

theorem rel_init (w : Str) : Rel (Spec.Machine.init : Spec.Machine Rand) w [] ⟨[], []⟩ [] [] := by
  refine ⟨live_init w, live_init w, ?_, ?_, rfl, rfl, ?_⟩
  · rfl
  · simp
  · rfl

/-- Tolerable failures: the punctured keys are right and so are the observations. -/
theorem honest_run (ops : List (Op Rand)) (M : Spec.Machine Rand) (S : Janus.Spec.Store)
    (P : Str → Janus.Spec.Pending) (h : ∀ w, ∃ li ld, Rel M w (S w) (P w) li ld)
    (htol : ∀ op ∈ ops, Spec.tolerable op)
    (hadm : Janus.Spec.admissible P (ops.flatMap Spec.counted) = true) :
    M.keysOk ops = true ∧ Spec.Honest S ops (M.run ops) := by
  induction ops generalizing M S P with
  | nil => exact ⟨rfl, trivial⟩
  | cons op ops ih =>
    have htol' : ∀ op ∈ ops, Spec.tolerable op := fun o ho => htol o (by simp [ho])
    have hop := htol op (by simp)
    rw [List.flatMap_cons] at hadm
    cases op with
    | insert w i r f =>
      obtain ⟨h1, h2, h3⟩ := hop
      have hstep : M.step (.insert w i r f) = ({ M with ins := (M.ins.step
          Verif.Faults.Spec.oldestFirst (.insert (w, M.epoch w) (i, r) true f.putRes .ok)).1 },
          if f.putRes = .ok then .acked else .error) := by
        simp only [Spec.Machine.step, Spec.Machine.epochOf, h1, h2, h3, if_true]
        congr 1
        cases f.putRes <;> rfl
      have hother : ∀ v, v ≠ w → ∃ li ld, Rel (M.step (.insert w i r f)).1 v (S v) (P v) li ld := by
        intro v hv
        obtain ⟨li, ld, hr⟩ := h v
        refine ⟨li, ld, ?_⟩
        rw [hstep]
        exact ⟨live_update_ne hr.ins hv _ _ _ _ _, hr.del, hr.delN, hr.first, hr.inserted, hr.removed,
          hr.store⟩
      obtain ⟨li, ld, hr⟩ := h w
      have hlive := live_update hr.ins (i, r) f.putRes
      by_cases hok : f.putRes = .ok
      · simp only [Spec.counted, hok, if_true, List.cons_append, List.nil_append,
          Janus.Spec.admissible, Bool.and_eq_true] at hadm
        have hni : (ld.map (·.2)).contains i = false := by
          have := hadm.1; rw [hr.removed] at this; simpa using this
        have hih := ih (M.step (.insert w i r f)).1 (S.set w (S w ++ [i])) _ ?_ htol' hadm.2
        · refine ⟨by simp only [Spec.Machine.keysOk, Spec.Machine.keyOk, Bool.true_and]; exact hih.1,
            ?_⟩
          simp only [Spec.Machine.run]
          rw [show (M.step (.insert w i r f)).2 = .acked by rw [hstep]; simp [hok]]
          exact hih.2
        · intro v
          by_cases hv : v = w
          · subst hv
            simp only [if_true, Janus.Spec.Store.set]
            rw [if_pos hok] at hlive
            refine ⟨li ++ [(i, r)], ld, ?_⟩
            rw [hstep]
            refine ⟨hlive, hr.del, hr.delN, hr.first, ?_, hr.removed, ?_⟩
            · simp [hr.inserted]
            · show _ = (M.cache v ++ (li ++ [(i, r)]).map (·.1)).filter _
              rw [List.map_append, ← List.append_assoc, List.filter_append, hr.store]
              congr 1
              simp only [List.map_cons, List.map_nil, List.filter_cons, List.filter_nil, hni]
              rfl
          · simp only [hv, if_false, Janus.Spec.Store.set]
            exact hother v hv
      · simp only [Spec.counted, hok, if_false, List.nil_append] at hadm
        have hih := ih (M.step (.insert w i r f)).1 S _ ?_ htol' hadm
        · refine ⟨by simp only [Spec.Machine.keysOk, Spec.Machine.keyOk, Bool.true_and]; exact hih.1,
            ?_⟩
          simp only [Spec.Machine.run]
          rw [show (M.step (.insert w i r f)).2 = .error by rw [hstep]; simp [hok]]
          exact hih.2
        · intro v
          by_cases hv : v = w
          · subst hv
            rw [if_neg hok] at hlive
            refine ⟨li, ld, ?_⟩
            rw [hstep]
            exact ⟨hlive, hr.del, hr.delN, hr.first, hr.inserted, hr.removed, hr.store⟩
          · exact hother v hv
    | remove w i f =>
      obtain ⟨h1, h2, h3, h4⟩ := hop
      obtain ⟨li, ld, hr⟩ := h w
      generalize hx : (Spec.punctureNumber f.numGet (M.del.n (w, M.epoch w)), i) = x
      have hstep : M.step (.remove w i f) = ({ M with del := (M.del.step
          Verif.Faults.Spec.oldestFirst (.insert (w, M.epoch w) x true f.putRes .ok)).1 },
          if f.putRes = .ok then .acked else .error) := by
        simp only [Spec.Machine.step, Spec.Machine.epochOf, h1, h2, h3, if_true, hx]
        congr 1
        cases f.putRes <;> rfl
      have hother : ∀ v, v ≠ w → ∃ li ld, Rel (M.step (.remove w i f)).1 v (S v) (P v) li ld := by
        intro v hv
        obtain ⟨li, ld, hr⟩ := h v
        refine ⟨li, ld, ?_⟩
        rw [hstep]
        refine ⟨hr.ins, live_update_ne hr.del hv _ _ _ _ _, ?_, hr.first, hr.inserted, hr.removed,
          hr.store⟩
        rw [← hr.delN]
        have hne : ¬ ((v, M.epoch v) = (w, M.epoch w)) := fun hh => hv (Prod.mk.inj hh).1
        cases f.putRes
        · simp only [Slots.step, reduceCtorEq, if_false, Slots.fill, Slots.setN, if_neg hne]
        · rfl
        · simp only [Slots.step, Slots.setN, if_neg hne]
      have hlive := live_update hr.del x f.putRes
      by_cases hok : f.putRes = .ok
      · simp only [Spec.counted, hok, if_true, List.cons_append, List.nil_append,
          Janus.Spec.admissible] at hadm
        have hih := ih (M.step (.remove w i f)).1 (S.set w ((S w).filter (· ≠ i))) _ ?_ htol' hadm
        · refine ⟨by simp only [Spec.Machine.keysOk, Spec.Machine.keyOk, Bool.true_and]; exact hih.1,
            ?_⟩
          simp only [Spec.Machine.run]
          rw [show (M.step (.remove w i f)).2 = .acked by rw [hstep]; simp [hok]]
          exact hih.2
        · intro v
          by_cases hv : v = w
          · subst hv
            simp only [if_true, Janus.Spec.Store.set]
            rw [if_pos hok] at hlive
            refine ⟨li, ld ++ [x], ?_⟩
            rw [hstep]
            refine ⟨hr.ins, hlive, ?_, ?_, hr.inserted, ?_, ?_⟩
            · show (M.del.step Verif.Faults.Spec.oldestFirst
                (.insert (v, M.epoch v) x true f.putRes .ok)).1.n (v, M.epoch v) = _
              rw [hok]
              simp [Slots.step, Slots.fill, Slots.setN, hr.delN]
            · intro y hy
              cases ld with
              | nil =>
                simp only [List.nil_append, List.head?_cons, Option.mem_def, Option.some.injEq] at hy
                subst hy
                have h0 : M.del.n (v, M.epoch v) = 0 := hr.delN
                rw [← hx, h0]
                simp [Spec.punctureNumber]
              | cons z ld => exact hr.first y (by simpa using hy)
            · rw [hr.removed, List.map_append, ← hx]; rfl
            · show _ = (M.cache v ++ li.map (·.1)).filter _
              rw [hr.store, List.filter_filter]
              apply List.filter_congr
              intro j _
              rw [← hx, Bool.eq_iff_iff]
              simp [and_comm]
          · simp only [hv, if_false, Janus.Spec.Store.set]
            exact hother v hv
      · have hfail : f.putRes = .failed := by
          cases hp : f.putRes
          · exact absurd hp hok
          · rfl
          · exact absurd hp h4
        simp only [Spec.counted, hok, if_false, List.nil_append] at hadm
        have hih := ih (M.step (.remove w i f)).1 S _ ?_ htol' hadm
        · refine ⟨by simp only [Spec.Machine.keysOk, Spec.Machine.keyOk, Bool.true_and]; exact hih.1,
            ?_⟩
          simp only [Spec.Machine.run]
          rw [show (M.step (.remove w i f)).2 = .error by rw [hstep]; simp [hok]]
          exact hih.2
        · intro v
          by_cases hv : v = w
          · subst hv
            refine ⟨li, ld, ?_⟩
            rw [hstep, hfail]
            exact hr
          · exact hother v hv
    | search w f =>
      obtain ⟨h1, h2, h3, h4, h5, h6, h7, h8⟩ := hop
      obtain ⟨li, ld, hr⟩ := h w
      simp only [Spec.counted, List.cons_append, List.nil_append, Janus.Spec.admissible,
        Bool.and_eq_true] at hadm
      have hbi : f.badIns = fun _ => false := funext h6
      have hbd : f.badDel = fun _ => false := funext h7
      have hep : M.epochOf f.scGet w = M.epoch w := by simp [Spec.Machine.epochOf, h1]
      have hc1 : (M.counts w f).1 = M.ins.n (w, M.epoch w) := by
        simp [Spec.Machine.counts, h2, hep]
      have hc2 : (M.counts w f).2 = M.del.n (w, M.epoch w) := by
        simp [Spec.Machine.counts, h3, hep]
      have hf1 : (M.fetched w f).1 = li := by
        simp only [Spec.Machine.fetched, hep, hc1, hbi]; exact hr.ins.vals
      have hf2 : (M.fetched w f).2 = ld := by
        simp only [Spec.Machine.fetched, hep, hc2, hbd]; exact hr.del.vals
      have hfound : M.found w f = S w := by
        simp only [Spec.Machine.found, hf1, hf2, h4, if_true]
        exact hr.store.symm
      have hkey : M.keyOk (.search w f) = true := by
        simp only [Spec.Machine.keyOk, hf1, hf2, hc2, hr.delN, decide_true, Bool.true_and,
          Bool.or_eq_true, List.isEmpty_iff, decide_eq_true_iff]
        have := hadm.1
        simp only [hr.inserted, hr.removed, Bool.or_eq_true, decide_eq_true_iff, List.isEmpty_iff,
          List.length_map, List.map_eq_nil_iff] at this
        rcases this with h' | h'
        · exact Or.inl h'
        · right
          match ld, hr.first, h' with
          | [], _, _ => rfl
          | [x], hx, _ =>
            have : x.1 = 1 := hx x (by simp)
            simp [this]
          | _ :: _ :: _, _, h' => simp at h'
      have hstep : (M.step (.search w f)).1 =
          { epoch := fun v => if v = w ∧ (0 < M.ins.n (w, M.epoch w) ∨ 0 < M.del.n (w, M.epoch w)) ∧
              f.scPut = true then M.epoch w + 1 else M.epoch v
            ins := searched M.ins (w, M.epoch w) (M.ins.n (w, M.epoch w)) f.badIns f.keepIns f.insDel
            del := searched M.del (w, M.epoch w) (M.del.n (w, M.epoch w)) f.badDel f.keepDel f.delDel
            cache := fun v => if v = w then S w else M.cache v } := by
        simp only [Spec.Machine.step, hep, hc1, hc2, hfound, h5, and_true]
        rfl
      have hih := ih (M.step (.search w f)).1 S _ ?_ htol' hadm.2
      · refine ⟨by simp only [Spec.Machine.keysOk, hkey, Bool.true_and]; exact hih.1, ?_⟩
        simp only [Spec.Machine.run]
        exact ⟨hfound, hih.2⟩
      · intro v
        by_cases hv : v = w
        · subst hv
          simp only [if_true]
          refine ⟨[], [], ?_⟩
          rw [hstep]
          have hst : S v = ((if v = v then S v else M.cache v) ++
              ([] : List (Index × Rand)).map (·.1)).filter
              (fun i => !(([] : List (Nat × Index)).map (·.2)).contains i) := by simp
          by_cases hpos : 0 < M.ins.n (v, M.epoch v) ∨ 0 < M.del.n (v, M.epoch v)
          · by_cases hsp : f.scPut = true
            · -- the next epoch
              have hne : ∀ g, M.epoch v < g → ((v, g) : Str × Nat) ≠ (v, M.epoch v) := by
                intro g hg hh; have := (Prod.mk.inj hh).2; omega
              have hI : Live (searched M.ins (v, M.epoch v) (M.ins.n (v, M.epoch v)) f.badIns f.keepIns
                  f.insDel) v (M.epoch v + 1) [] :=
                live_next hr.ins (fun g hg => (searched_ne _ (hne g hg) _ _ _ _).1)
                  (fun g hg => (searched_ne _ (hne g hg) _ _ _ _).2)
              have hD : Live (searched M.del (v, M.epoch v) (M.del.n (v, M.epoch v)) f.badDel f.keepDel
                  f.delDel) v (M.epoch v + 1) [] :=
                live_next hr.del (fun g hg => (searched_ne _ (hne g hg) _ _ _ _).1)
                  (fun g hg => (searched_ne _ (hne g hg) _ _ _ _).2)
              refine ⟨?_, ?_, ?_, by simp, rfl, rfl, hst⟩
              · simpa only [hpos, hsp, and_self, if_true] using hI
              · simpa only [hpos, hsp, and_self, if_true] using hD
              · simp only [hpos, hsp, and_self, if_true]
                rw [(searched_ne _ (hne _ (Nat.lt_succ_self _)) _ _ _ _).1]
                exact (hr.del.later _ (Nat.lt_succ_self _)).1
            · -- the same epoch, emptied
              obtain ⟨h9, h10, h11, h12⟩ := h8.resolve_left hsp
              have hI := live_reset hr.ins h6 h11
              have hD := live_reset hr.del h7 h12
              refine ⟨?_, ?_, ?_, by simp, rfl, rfl, hst⟩
              · simpa only [hsp, and_false, if_false, h9, Bool.false_eq_true] using hI
              · simpa only [hsp, and_false, if_false, h10, Bool.false_eq_true] using hD
              · simp only [hsp, and_false, if_false, h10, Bool.false_eq_true]
                unfold searched
                by_cases h0 : 0 < M.del.n (v, M.epoch v)
                · rw [if_pos ⟨h0, rfl⟩]; simp [Slots.setN]
                · rw [if_neg (fun hh => h0 hh.1)]
                  show M.del.n (v, M.epoch v) = 0
                  omega
          · have h01 : M.ins.n (v, M.epoch v) = 0 := by omega
            have h02 : M.del.n (v, M.epoch v) = 0 := by omega
            have hI := live_none hr.ins h01 f.badIns f.keepIns f.insDel
            have hD := live_none hr.del h02 f.badDel f.keepDel f.delDel
            refine ⟨?_, ?_, ?_, by simp, rfl, rfl, hst⟩
            · simpa only [hpos, false_and, and_false, if_false] using hI
            · simpa only [hpos, false_and, and_false, if_false] using hD
            · simp only [hpos, false_and, and_false, if_false]
              unfold searched
              rw [if_neg (fun hh => by omega)]
              exact h02
        · simp only [hv, if_false]
          obtain ⟨li, ld, hr⟩ := h v
          refine ⟨li, ld, ?_⟩
          rw [hstep]
          have hne : ∀ g, ((v, g) : Str × Nat) ≠ (w, M.epoch w) := fun g hh =>
            hv (Prod.mk.inj hh).1
          refine ⟨?_, ?_, ?_, hr.first, hr.inserted, hr.removed, ?_⟩
          · simp only [hv, false_and, if_false]
            exact live_congr hr.ins (fun g _ => (searched_ne _ (hne g) _ _ _ _).1)
              (fun g _ => (searched_ne _ (hne g) _ _ _ _).2)
          · simp only [hv, false_and, if_false]
            exact live_congr hr.del (fun g _ => (searched_ne _ (hne g) _ _ _ _).1)
              (fun g _ => (searched_ne _ (hne g) _ _ _ _).2)
          · simp only [hv, false_and, if_false]
            rw [(searched_ne _ (hne _) _ _ _ _).1]
            exact hr.delN
          · simp only [hv, if_false]
            exact hr.store

/-! ## No failure of the process -/

theorem dianaSearch_some {V : Type} (c : Diana.Crypto Str V) (edb : Diana.Edb V) (m : Map Str UInt32)
    (mk : Str) (bad keep : Nat → Bool) :
    ∃ r, dianaSearch c edb (Diana.searchRequest c m mk) bad keep = some r := by
  unfold dianaSearch
  rcases Diana.searchRequest_cases c m mk with h | ⟨n, h1, h2, h3, h4⟩
  · rw [if_pos h]; exact ⟨_, rfl⟩
  · rw [if_neg (fun h => by rw [h] at h3; simp at h3; omega), h4,
      c.maxLeaf_constrain _ _ (by omega), Diana.evalRange_eq c _ _ _ _ (by omega) (by omega) (by omega)]
    exact ⟨_, rfl⟩

theorem step_ok (c : Crypto PK KS CT Rand) (s : Sys KS CT)
    (h : ∀ k, ∃ l, readCache s.server.cache k = .ok l) (op : Op Rand) :
    ∃ s' out, step c s op = .ok (s', out) ∧ ∀ k, ∃ l, readCache s'.server.cache k = .ok l := by
  cases op with
  | insert w i r f =>
    simp only [step]
    generalize insertionRequest c s.client w i r f = x
    obtain ⟨x1, x2⟩ := x
    cases x1 with
    | none => exact ⟨_, _, rfl, h⟩
    | some req =>
      refine ⟨_, _, rfl, ?_⟩
      cases f.srvPut <;> exact h
  | remove w i f =>
    simp only [step]
    generalize removalRequest c s.client w i f = x
    obtain ⟨x1, x2⟩ := x
    cases x1 with
    | none => exact ⟨_, _, rfl, h⟩
    | some req =>
      refine ⟨_, _, rfl, ?_⟩
      cases f.srvPut <;> exact h
  | search w f =>
    have hw : ∀ l : List (Index × Tag), ∀ k,
        ∃ l', readCache (writeCache s.server.cache (c.kwToken w) l) k = .ok l' := by
      intro l k
      by_cases hk : k = c.kwToken w
      · subst hk; exact ⟨l, readCache_writeCache _ _ _⟩
      · rw [readCache_writeCache_ne _ _ hk]; exact h k
    have hres : ∃ res srv, search c s.server (searchRequest c s.client w f).1 f = .ok (res, srv) ∧
        ∀ k, ∃ l, readCache srv.cache k = .ok l := by
      obtain ⟨r1, hr1⟩ := dianaSearch_some c.ins s.server.insEdb
        (Verif.Faults.seen f.insGet s.client.insCtr)
        (metaKeyword w (searchCounter f.scGet s.client w)) f.badIns f.keepIns
      obtain ⟨r2, hr2⟩ := dianaSearch_some c.del s.server.delEdb
        (Verif.Faults.seen f.delGet s.client.delCtr)
        (metaKeyword w (searchCounter f.scGet s.client w)) f.badDel f.keepDel
      obtain ⟨l, hl⟩ := h (c.kwToken w)
      cases hcg : f.cacheGet with
      | false =>
        simp only [search, searchRequest, hr1, hr2, ofOption, bind, Except.bind, pure, Except.pure,
          hcg, Bool.false_eq_true, if_false]
        refine ⟨_, _, rfl, ?_⟩
        cases f.cachePut
        · exact h
        · exact hw _
      | true =>
        simp only [search, searchRequest, hr1, hr2, ofOption, bind, Except.bind, pure, Except.pure,
          hcg, if_true, hl]
        refine ⟨_, _, rfl, ?_⟩
        cases f.cachePut
        · exact h
        · exact hw _
    obtain ⟨res, srv, h1, h2⟩ := hres
    exact ⟨_, _, by simp only [step, h1]; rfl, h2⟩

theorem run_ok (c : Crypto PK KS CT Rand) (ops : List (Op Rand)) (s : Sys KS CT)
    (h : ∀ k, ∃ l, readCache s.server.cache k = .ok l) : ∃ s' outs, run c s ops = .ok (s', outs) := by
  induction ops generalizing s with
  | nil => exact ⟨_, _, rfl⟩
  | cons op ops ih =>
    obtain ⟨s1, out, h1, h2⟩ := step_ok c s h op
    obtain ⟨s2, outs, h3⟩ := ih s1 h2
    exact ⟨s2, out :: outs, by simp only [run, h1, h3]⟩

end Verif.Janus.Faults
