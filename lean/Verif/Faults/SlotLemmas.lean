import Verif.Faults.Lemmas

/-! # Helper lemmas about the slot machine -/

set_option linter.unusedSectionVars false

namespace Verif.Faults.Spec

open Verif Verif.Faults

variable {Kw V : Type} [DecidableEq Kw]

/-- Slots after a history. -/
def Slots.exec (pos : Nat → Nat → Nat) : Slots Kw V → List (Op Kw V) → Slots Kw V
  | s, [] => s
  | s, op :: ops => Slots.exec pos (s.step pos op).1 ops

theorem run_append (pos : Nat → Nat → Nat) (S : Slots Kw V) (a b : List (Op Kw V)) :
    S.run pos (a ++ b) = S.run pos a ++ (S.exec pos a).run pos b := by
  induction a generalizing S with
  | nil => rfl
  | cons op a ih => simp [Slots.run, Slots.exec, ih]

theorem exec_append (pos : Nat → Nat → Nat) (S : Slots Kw V) (a b : List (Op Kw V)) :
    S.exec pos (a ++ b) = (S.exec pos a).exec pos b := by
  induction a generalizing S with
  | nil => rfl
  | cons op a ih => simp [Slots.exec, ih]

theorem attempts_append (w : Kw) (a b : List (Op Kw V)) :
    attempts w (a ++ b) = attempts w a + attempts w b := by
  induction a with
  | nil => simp [attempts]
  | cons op a ih => rw [List.cons_append, attempts_cons, ih, attempts_cons w op a]; omega

theorem attempts_good (w : Kw) (H : List (Kw × V)) :
    attempts w (H.map good) = (docs w H).length := by
  induction H with
  | nil => rfl
  | cons e H ih =>
    rw [List.map_cons, attempts_cons, ih]
    by_cases h : e.1 = w
    · simp [attempts, good, docs, h]; omega
    · simp [attempts, good, docs, h]

theorem run_good (pos : Nat → Nat → Nat) (S : Slots Kw V) (H : List (Kw × V)) :
    S.run pos (H.map good) = List.replicate H.length .acked := by
  induction H generalizing S with
  | nil => rfl
  | cons e H ih => simp [Slots.run, ih, List.replicate_succ, good, Slots.step]

theorem docs_cons (w : Kw) (e : Kw × V) (H : List (Kw × V)) :
    docs w (e :: H) = (if e.1 = w then [e.2] else []) ++ docs w H := by
  by_cases h : e.1 = w <;> simp [docs, h]

theorem docs_append (w : Kw) (H H' : List (Kw × V)) : docs w (H ++ H') = docs w H ++ docs w H' := by
  simp [docs]

/-- The slots after insertions for which nothing fails. -/
theorem exec_good (pos : Nat → Nat → Nat) (S : Slots Kw V) (H : List (Kw × V)) (w : Kw) :
    (S.exec pos (H.map good)).n w = S.n w + (docs w H).length ∧
    ∀ a, (S.exec pos (H.map good)).slot w a =
      if S.n w ≤ a ∧ a < S.n w + (docs w H).length then (docs w H)[a - S.n w]?
      else S.slot w a := by
  induction H generalizing S with
  | nil =>
    refine ⟨by simp [Slots.exec, docs], fun a => ?_⟩
    rw [if_neg (by simp [docs])]
    rfl
  | cons e H ih =>
    obtain ⟨v, i⟩ := e
    rw [List.map_cons, Slots.exec]
    obtain ⟨h1, h2⟩ := ih (S.step pos (good (v, i))).1
    have hst : (S.step pos (good (v, i))).1 = (S.setN v (S.n v + 1)).fill v (S.n v) i := by
      simp [Slots.step, good]
    rw [hst] at h1 h2 ⊢
    rw [docs_cons]
    by_cases hv : v = w
    · subst hv
      have hn : ((S.setN v (S.n v + 1)).fill v (S.n v) i).n v = S.n v + 1 := by
        simp [Slots.setN, Slots.fill]
      rw [hn] at h1 h2
      constructor
      · rw [h1]; simp; omega
      · intro a
        rw [h2]
        simp only [if_true, List.singleton_append, List.length_cons]
        by_cases ha : S.n v + 1 ≤ a
        · have e1 : a - S.n v = (a - (S.n v + 1)) + 1 := by omega
          rw [e1, List.getElem?_cons_succ]
          by_cases hb : a < S.n v + 1 + (docs v H).length
          · rw [if_pos ⟨ha, hb⟩, if_pos ⟨by omega, by omega⟩]
          · rw [if_neg (fun h => hb h.2), if_neg (fun h => hb (by omega))]
            have : a ≠ S.n v := by omega
            simp [Slots.fill, Slots.setN, this]
        · rw [if_neg (fun h => ha h.1)]
          by_cases hb : a = S.n v
          · subst hb
            simp [Slots.fill]
          · rw [if_neg (by omega)]
            simp [Slots.fill, Slots.setN, hb]
    · have hvw : w ≠ v := fun h => hv h.symm
      have hn : ((S.setN v (S.n v + 1)).fill v (S.n v) i).n w = S.n w := by
        simp [Slots.setN, Slots.fill, hvw]
      have hs : ∀ a, ((S.setN v (S.n v + 1)).fill v (S.n v) i).slot w a = S.slot w a := by
        intro a; simp [Slots.setN, Slots.fill, hvw]
      rw [hn] at h1 h2
      simp only [hv, if_false, List.nil_append]
      refine ⟨h1, fun a => ?_⟩
      rw [h2, hs]

theorem filterMap_getElem? {α : Type} (l : List α) :
    (List.range l.length).filterMap (fun a => l[a]?) = l := by
  induction l using List.reverseRecOn with
  | nil => rfl
  | append_singleton l x ih =>
    rw [List.length_append, List.length_singleton, List.range_succ, List.filterMap_append]
    congr 1
    · conv => rhs; rw [← ih]
      apply List.filterMap_congr
      intro a ha
      rw [List.mem_range] at ha
      rw [List.getElem?_append_left ha]
    · simp

/-- The order in which slots are visited, and the order in which results are expected. -/
structure Order (V : Type) where
  pos : Nat → Nat → Nat
  arrange : List V → List V
  arrange_length : ∀ l, (arrange l).length = l.length
  /-- visiting `n` slots gives the contents, arranged. -/
  visit : ∀ (n : Nat) (f : Nat → Option V),
    (List.range n).filterMap (fun p => f (pos n p)) = arrange ((List.range n).filterMap f)

/-- Diana. -/
def diana : Order V where
  pos := oldestFirst
  arrange := id
  arrange_length := by simp
  visit := by intros; rfl

theorem visit_newest (n : Nat) (f : Nat → Option V) :
    (List.range n).filterMap (fun p => f (newestFirst n p)) =
      ((List.range n).filterMap f).reverse := by
  induction n with
  | zero => rfl
  | succ n ih =>
    have hl : ((List.range (n + 1)).filterMap f).reverse =
        (f n).toList ++ (List.range n).filterMap (fun p => f (newestFirst n p)) := by
      rw [List.range_succ, List.filterMap_append, List.reverse_append, ← ih]
      cases hf : f n <;> simp [hf]
    rw [hl, List.range_succ_eq_map, List.filterMap_cons, List.filterMap_map]
    have hr : List.filterMap ((fun p => f (newestFirst (n + 1) p)) ∘ Nat.succ) (List.range n) =
        List.filterMap (fun p => f (newestFirst n p)) (List.range n) := by
      apply List.filterMap_congr
      intro p _
      simp only [Function.comp_apply, newestFirst]
      congr 1; omega
    have h0 : newestFirst (n + 1) 0 = n := by simp [newestFirst]
    rw [hr, h0]
    cases f n <;> simp

/-- Sophos. -/
def sophos : Order V where
  pos := newestFirst
  arrange := List.reverse
  arrange_length := by simp
  visit := visit_newest

/-- The slots hold what counts. -/
structure Holds (S : Slots Kw V) (G : List (Kw × V)) : Prop where
  inUse : ∀ w, (List.range (S.n w)).filterMap (S.slot w) = docs w G
  free : ∀ w a, S.n w ≤ a → S.slot w a = none

theorem holds_init : Holds (Slots.init : Slots Kw V) [] :=
  ⟨fun _ => rfl, fun _ _ _ => rfl⟩

theorem holds_fill {S : Slots Kw V} {G : List (Kw × V)} (h : Holds S G) (w : Kw) (i : V) :
    Holds ((S.setN w (S.n w + 1)).fill w (S.n w) i) (G ++ [(w, i)]) := by
  constructor
  · intro v
    by_cases hv : v = w
    · subst hv
      have : docs v (G ++ [(v, i)]) = docs v G ++ [i] := by simp [docs]
      rw [this, ← h.inUse v]
      simp only [Slots.setN, Slots.fill, if_true, List.range_succ, List.filterMap_append, true_and]
      congr 1
      · apply List.filterMap_congr
        intro a ha
        rw [List.mem_range] at ha
        rw [if_neg (by omega)]
      · simp
    · have hwv : w ≠ v := fun e => hv e.symm
      have : docs v (G ++ [(w, i)]) = docs v G := by simp [docs, hwv]
      rw [this, ← h.inUse v]
      simp [Slots.setN, Slots.fill, hv]
  · intro v a ha
    by_cases hv : v = w
    · subst hv
      simp only [Slots.setN, Slots.fill, if_true] at ha ⊢
      rw [if_neg (by omega)]
      exact h.free v a (by omega)
    · simp only [Slots.setN, Slots.fill, hv, if_false, false_and] at ha ⊢
      exact h.free v a ha

theorem holds_skip {S : Slots Kw V} {G : List (Kw × V)} (h : Holds S G) (w : Kw) :
    Holds (S.setN w (S.n w + 1)) G := by
  constructor
  · intro v
    by_cases hv : v = w
    · subst hv
      rw [← h.inUse v]
      simp [Slots.setN, List.range_succ, h.free v (S.n v) (Nat.le_refl _)]
    · rw [← h.inUse v]; simp [Slots.setN, hv]
  · intro v a ha
    by_cases hv : v = w
    · subst hv
      simp only [Slots.setN, if_true] at ha ⊢
      exact h.free v a (by omega)
    · simp only [Slots.setN, hv, if_false] at ha ⊢
      exact h.free v a ha

theorem honest_run (o : Order V) (ops : List (Op Kw V)) (hops : ∀ op ∈ ops, OnlyClientPut op)
    (S : Slots Kw V) (G : List (Kw × V)) (h : Holds S G) :
    Honest o.arrange G ops (S.run o.pos ops) := by
  induction ops generalizing S G with
  | nil => trivial
  | cons op ops ih =>
    have hop := hops op (by simp)
    have hops' : ∀ op ∈ ops, OnlyClientPut op := fun x hx => hops x (by simp [hx])
    rw [Slots.run]
    cases op with
    | search w getOk bad =>
      obtain ⟨rfl, hb⟩ := hop
      refine ⟨?_, ih hops' S G h⟩
      simp only [if_true, hb, Bool.false_eq_true, if_false]
      rw [o.visit, h.inUse]
    | insert w i getOk putRes srvPut =>
      obtain ⟨rfl, rfl⟩ := hop
      cases putRes with
      | failed => exact ih hops' S G h
      | storedButFailed => exact ih hops' _ G (holds_skip h w)
      | ok => exact ih hops' _ _ (holds_fill h w i)

/-- Fault-free insertions hold. -/
theorem holds_good (pos : Nat → Nat → Nat) (H : List (Kw × V)) (S : Slots Kw V)
    (G : List (Kw × V)) (h : Holds S G) : Holds (S.exec pos (H.map good)) (G ++ H) := by
  induction H generalizing S G with
  | nil => simpa [Slots.exec] using h
  | cons e H ih =>
    obtain ⟨w, i⟩ := e
    rw [List.map_cons, Slots.exec]
    have := ih _ _ (holds_fill h w i)
    simpa [Slots.step, good] using this

/-- What a history that ends with a search for which nothing fails observes. -/
theorem search_good (o : Order V) (S : Slots Kw V) (w : Kw) :
    S.run o.pos [goodSearch w] = [.results (o.arrange ((List.range (S.n w)).filterMap (S.slot w)))] := by
  simp only [Slots.run, goodSearch, Slots.step, if_true, Bool.false_eq_true, if_false]
  rw [o.visit]

/-- After a client could not read its counter. -/
theorem reset_run (o : Order V) (S : Slots Kw V) (w : Kw) (i : V) (L : List (Kw × V)) :
    S.run o.pos (.insert w i false .ok .ok :: L.map good ++ [goodSearch w]) =
      .acked :: List.replicate L.length .acked ++ [.results (o.arrange (docs w ((w, i) :: L)))] := by
  rw [run_append, search_good, Slots.run, run_good, Slots.exec]
  have hst : (S.step o.pos (.insert w i false .ok .ok)).1 = (S.setN w 1).fill w 0 i := by
    simp [Slots.step]
  rw [hst]
  obtain ⟨h1, h2⟩ := exec_good o.pos ((S.setN w 1).fill w 0 i) L w
  have hn : ((S.setN w 1).fill w 0 i).n w = 1 := by simp [Slots.setN, Slots.fill]
  rw [hn] at h1 h2
  rw [h1]
  have hres : (List.range (1 + (docs w L).length)).filterMap
      ((((S.setN w 1).fill w 0 i).exec o.pos (L.map good)).slot w) = docs w ((w, i) :: L) := by
    conv => rhs; rw [← filterMap_getElem? (docs w ((w, i) :: L))]
    have hl : (docs w ((w, i) :: L)).length = 1 + (docs w L).length := by
      rw [docs_cons]; simp; omega
    rw [hl]
    apply List.filterMap_congr
    intro a ha
    rw [List.mem_range] at ha
    rw [h2, docs_cons]
    by_cases h0 : a = 0
    · subst h0; simp [Slots.fill]
    · obtain ⟨b, rfl⟩ : ∃ b, a = b + 1 := ⟨a - 1, by omega⟩
      rw [if_pos ⟨by omega, by omega⟩]
      simp
  rw [hres]
  simp [Slots.step]

theorem honest_good_prefix (arrange : List V → List V) (H : List (Kw × V)) (G : List (Kw × V))
    (ops : List (Op Kw V)) (outs : List (Out V)) :
    Honest arrange G (H.map good ++ ops) (List.replicate H.length .acked ++ outs) ↔
      Honest arrange (G ++ H) ops outs := by
  induction H generalizing G with
  | nil => simp
  | cons e H ih =>
    obtain ⟨w, i⟩ := e
    simp only [List.map_cons, List.length_cons, List.replicate_succ, List.cons_append, good, Honest]
    rw [ih]
    simp

end Verif.Faults.Spec
