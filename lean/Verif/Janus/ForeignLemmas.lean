import Verif.Janus.Foreign
import Verif.Janus.Lemmas
import Verif.Utils.ListStoreProps

/-! # Lemmas for C87: searches of the Janus server for any request -/

namespace Verif.Janus

variable {PK KS CT Rand V : Type}

theorem mapM_none_iff {α β : Type} (l : List α) (f : α → Option β) : l.mapM f = none ↔ ∃ a ∈ l, f a = none := by
  induction l with
  | nil => simp [List.mapM_nil]
  | cons a l ih =>
    rw [List.mapM_cons]
    cases h : f a with
    | none => simp [h]
    | some b =>
      cases h2 : l.mapM f with
      | none => simp [h, ih.mp h2]
      | some r =>
        have : ¬ ∃ a ∈ l, f a = none := fun hh => by rw [ih.mpr hh] at h2; cases h2
        simpa [h] using this

theorem diana_search_none (c : Diana.Crypto Str V) (edb : Diana.Edb V) (r : Diana.SearchReq c) (del : Bool) :
    Diana.search c edb r del = none ↔ ¬ Spec.usable c r := by
  unfold Diana.search Diana.evalRange Spec.usable
  by_cases h0 : r.addCount = 0
  · simp [h0]
  · rw [if_neg h0, if_neg (by omega), Option.map_eq_none_iff, mapM_none_iff]
    constructor
    · rintro ⟨i, hi, h⟩ (hh | hh)
      · exact h0 hh
      · refine hh i (by simp at hi; omega) ?_
        simpa using h
    · intro h
      have h := fun hh => h (Or.inr hh)
      obtain ⟨i, hi⟩ := Classical.not_forall.mp h
      obtain ⟨hi, hi2⟩ := Classical.not_imp.mp hi
      exact ⟨i, by simp; omega, by rw [Classical.not_not.mp hi2]; rfl⟩

theorem readCache_cases (srv : Server KS CT) (k : Vector UInt8 16) :
    (16 ≤ Spec.cacheSize srv k % 24 → readCache srv.cache k = .error .outOfBounds) ∧
    (Spec.cacheSize srv k % 24 < 16 → ∃ l, readCache srv.cache k = .ok l) := by
  unfold readCache ListStore.get Spec.cacheSize
  cases h : srv.cache k with
  | none => simp
  | some raw =>
    simp only [Option.getD_some]
    constructor
    · intro hl
      rw [(ListStore.C16_characterisation raw).1 hl]
    · intro hl
      obtain ⟨l, h1, -⟩ := (ListStore.C16_characterisation raw).2 hl
      exact ⟨l, by rw [h1]⟩

/-- The results with the state afterwards are those of the model without it. -/
theorem searchState_search (c : Crypto PK KS CT Rand) (k : Nat) (srv : Server KS CT) (req : SearchReq c) :
    (∀ res srv', search c srv req = .ok (res, srv') ↔ searchState c k srv req = (.ok res, srv')) ∧
    ∀ e, search c srv req = .error e ↔ (searchState c k srv req).1 = .error e := by
  unfold search searchState
  cases h1 : Diana.search c.ins srv.insEdb req.ins true with
  | none => simp [ofOption, bind, Except.bind]
  | some p =>
    cases h2 : Diana.search c.del srv.delEdb req.del true with
    | none => simp [ofOption, bind, Except.bind]
    | some q =>
      cases h3 : readCache srv.cache req.kwToken with
      | error e => simp [ofOption, bind, Except.bind]
      | ok l => simp [ofOption, bind, Except.bind, pure, Except.pure]

theorem searchLoop_gone (c : Diana.Crypto Str V) (edb : Diana.Edb V) (l : List (Nat × Diana.Leaf)) (t : Diana.Token)
    (h : (∃ e ∈ l, c.token e.2 = t) ∨ edb t = none) : (Diana.searchLoop c true edb l).2 t = none := by
  induction l generalizing edb with
  | nil =>
    rcases h with ⟨e, he, -⟩ | h
    · simp at he
    · exact h
  | cons e l ih =>
    obtain ⟨i, leaf⟩ := e
    unfold Diana.searchLoop Diana.getUnmask Diana.retrieveEntry
    cases hv : edb (c.token leaf) with
    | none =>
      refine ih edb ?_
      rcases h with ⟨e, he, rfl⟩ | h
      · rcases List.mem_cons.mp he with rfl | he
        · exact Or.inr hv
        · exact Or.inl ⟨e, he, rfl⟩
      · exact Or.inr h
    | some v =>
      refine ih (edb.erase (c.token leaf)) ?_
      by_cases ht : t = c.token leaf
      · subst ht
        right
        simp [Map.erase]
      · rcases h with ⟨e, he, rfl⟩ | h
        · rcases List.mem_cons.mp he with rfl | he
          · exact absurd rfl ht
          · exact Or.inl ⟨e, he, rfl⟩
        · right
          rw [Map.erase_of_ne _ ht]
          exact h

theorem searchLoop_nothing (c : Diana.Crypto Str V) (edb : Diana.Edb V) (l : List (Nat × Diana.Leaf))
    (h : ∀ e ∈ l, edb (c.token e.2) = none) : Diana.searchLoop c true edb l = ([], edb) := by
  induction l with
  | nil => rfl
  | cons e l ih =>
    obtain ⟨i, leaf⟩ := e
    unfold Diana.searchLoop Diana.getUnmask Diana.retrieveEntry
    have := h (i, leaf) (by simp)
    simp [this, ih (fun e he => h e (by simp [he]))]

theorem searchLoop_kept (c : Diana.Crypto Str V) (edb : Diana.Edb V) (l : List (Nat × Diana.Leaf)) (t : Diana.Token)
    (h : ∀ e ∈ l, c.token e.2 ≠ t) : (Diana.searchLoop c true edb l).2 t = edb t := by
  induction l generalizing edb with
  | nil => rfl
  | cons e l ih =>
    obtain ⟨i, leaf⟩ := e
    have hne : t ≠ c.token leaf := fun e => h (i, leaf) (by simp) e.symm
    unfold Diana.searchLoop Diana.getUnmask Diana.retrieveEntry
    cases hv : edb (c.token leaf) with
    | none => exact ih edb (fun e he => h e (by simp [he]))
    | some v =>
      refine (ih (edb.erase (c.token leaf)) (fun e he => h e (by simp [he]))).trans ?_
      rw [Map.erase_of_ne _ hne]

/-- The leaves before the first one that cannot be evaluated -/
theorem leaves_mem (c : Diana.Crypto Str V) (ck : c.CK) (a n k : Nat) (e : Nat × Diana.Leaf) :
    e ∈ ((((List.range' a n).map (fun i => (c.ceval ck i).map (fun l => (i, l)))).takeWhile Option.isSome).filterMap id).take k ↔
      a ≤ e.1 ∧ e.1 < a + k ∧ e.1 < a + n ∧ (∀ j, a ≤ j → j ≤ e.1 → c.ceval ck j ≠ none) ∧ c.ceval ck e.1 = some e.2 := by
  induction n generalizing a k with
  | zero =>
    simp
    omega
  | succ n ih =>
    rw [List.range'_succ, List.map_cons]
    cases h : c.ceval ck a with
    | none =>
      simp only [Option.map_none, List.takeWhile_cons, Option.isSome_none, Bool.false_eq_true, if_false, List.filterMap_nil, List.take_nil,
        List.not_mem_nil, false_iff]
      rintro ⟨h1, -, -, h4, -⟩
      exact h4 a (Nat.le_refl _) h1 h
    | some leaf =>
      simp only [Option.map_some, List.takeWhile_cons, Option.isSome_some, if_true, List.filterMap_cons, id]
      cases k with
      | zero =>
        simp
        omega
      | succ k =>
        rw [List.take_succ_cons, List.mem_cons]
        refine (or_congr Iff.rfl (ih (a + 1) k)).trans ?_
        constructor
        · rintro (rfl | ⟨h1, h2, h3, h4, h5⟩)
          · refine ⟨Nat.le_refl _, by simp, by simp, ?_, h⟩
            intro j h1 h2
            have : j = a := Nat.le_antisymm h2 h1
            rw [this, h]
            simp
          · refine ⟨by omega, by omega, by omega, ?_, h5⟩
            intro j hj1 hj2
            by_cases hja : j = a
            · rw [hja, h]; simp
            · exact h4 j (by omega) hj2
        · rintro ⟨h1, h2, h3, h4, h5⟩
          by_cases hea : e.1 = a
          · left
            rw [hea, h] at h5
            obtain ⟨i, l⟩ := e
            simp only at hea
            rw [hea]
            rw [Option.some.inj h5]
          · right
            exact ⟨by omega, by omega, by omega, fun j hj1 hj2 => h4 j (by omega) hj2, h5⟩

theorem handled_without (c : Diana.Crypto Str V) (edb : Diana.Edb V) (ck : c.CK) (k : Nat) :
    Spec.without edb (Diana.searchLoop c true edb (handled c ck k)).2 (Spec.reached c ck k) := by
  have hm : ∀ e, e ∈ handled c ck k ↔
      e.1 < k ∧ e.1 ≤ c.maxLeaf ck ∧ (∀ j ≤ e.1, c.ceval ck j ≠ none) ∧ c.ceval ck e.1 = some e.2 := by
    intro e
    rw [handled, List.range_eq_range', leaves_mem]
    constructor
    · rintro ⟨-, h2, h3, h4, h5⟩
      exact ⟨by omega, by omega, fun j hj => h4 j (Nat.zero_le _) hj, h5⟩
    · rintro ⟨h2, h3, h4, h5⟩
      exact ⟨Nat.zero_le _, by omega, by omega, fun j _ hj => h4 j hj, h5⟩
  intro t
  constructor
  · rintro ⟨i, h1, h2, h3, h4⟩
    obtain ⟨leaf, h5, h6⟩ := Option.map_eq_some_iff.mp h4
    exact searchLoop_gone c edb _ t (Or.inl ⟨(i, leaf), (hm _).mpr ⟨h1, h2, h3, h5⟩, h6⟩)
  · intro h
    refine searchLoop_kept c edb _ t (fun e he ht => h ?_)
    obtain ⟨h1, h2, h3, h4⟩ := (hm e).mp he
    exact ⟨e.1, h1, h2, h3, by rw [h4, ← ht]; rfl⟩

theorem search_without (c : Diana.Crypto Str V) (edb edb' : Diana.Edb V) (r : Diana.SearchReq c) (l : List V)
    (h : Diana.search c edb r true = some (l, edb')) :
    Spec.without edb edb' (fun t => r.addCount ≠ 0 ∧ Spec.reached c r.rcprf (c.maxLeaf r.rcprf + 1) t) := by
  unfold Diana.search at h
  by_cases h0 : r.addCount = 0
  · rw [if_pos h0] at h
    obtain ⟨-, rfl⟩ := Prod.mk.inj (Option.some.inj h)
    exact fun t => ⟨fun h => absurd h0 h.1, fun _ => rfl⟩
  · rw [if_neg h0] at h
    obtain ⟨leaves, h1, h2⟩ := Option.map_eq_some_iff.mp h
    have he : leaves = handled c r.rcprf (c.maxLeaf r.rcprf + 1) := by
      unfold Diana.evalRange at h1
      rw [if_neg (by omega)] at h1
      have key : ∀ (l : List Nat) (leaves : List (Nat × Diana.Leaf)),
          l.mapM (fun i => (c.ceval r.rcprf i).map (fun l => (i, l))) = some leaves →
          leaves = ((l.map (fun i => (c.ceval r.rcprf i).map (fun l => (i, l)))).takeWhile Option.isSome).filterMap id ∧
            leaves.length = l.length := by
        intro l
        induction l with
        | nil => intro leaves h; simp at h; subst h; simp
        | cons i l ih =>
          intro leaves h
          rw [List.mapM_cons] at h
          cases hi : c.ceval r.rcprf i with
          | none => simp [hi] at h
          | some leaf =>
            cases hl : l.mapM (fun i => (c.ceval r.rcprf i).map (fun l => (i, l))) with
            | none => simp [hi, hl] at h
            | some rest =>
              simp [hi, hl] at h
              obtain ⟨e1, e2⟩ := ih rest hl
              subst h
              refine ⟨?_, by simp [e2]⟩
              conv_lhs => rw [e1]
              simp [hi]
      obtain ⟨e1, e2⟩ := key _ _ h1
      rw [handled, List.range_eq_range']
      have e3 : c.maxLeaf r.rcprf + 1 - 0 = c.maxLeaf r.rcprf + 1 := by omega
      rw [e3] at e1 e2
      rw [← e1, List.take_of_length_le]
      rw [e2, List.length_range']
      exact Nat.le_refl _
    have : edb' = (Diana.searchLoop c true edb leaves).2 := by rw [h2]
    subst this
    rw [he]
    intro t
    have := handled_without c edb r.rcprf (c.maxLeaf r.rcprf + 1) t
    exact ⟨fun h => this.1 h.2, fun h => this.2 (fun hh => h ⟨h0, hh⟩)⟩

end Verif.Janus
