import Verif.Diana.Spec
import Verif.Counter.Lemmas
import Mathlib.Data.List.Nodup

/-! # Helper lemmas for Diana -/

set_option linter.unusedSectionVars false

namespace Verif.Diana

open Verif

variable {Kw V : Type} [DecidableEq Kw]

/-- What a lookup for leaf `leaf` yields. -/
def lookup (c : Crypto Kw V) (edb : Edb V) (leaf : Leaf) : Option V :=
  (edb (c.token leaf)).map (fun v => c.xor v (c.mask leaf))

theorem mapM_eq_some_map {α β : Type} (l : List α) (f : α → Option β) (g : α → β)
    (h : ∀ a ∈ l, f a = some (g a)) : l.mapM f = some (l.map g) := by
  induction l with
  | nil => rfl
  | cons a l ih =>
    simp [List.mapM_cons, h a (by simp), ih (fun b hb => h b (by simp [hb]))]

theorem evalRange_eq (c : Crypto Kw V) (r : c.RK) (b a e : Nat) (hb : b < 2 ^ 32) (hae : a ≤ e)
    (heb : e ≤ b) :
    evalRange c (c.constrain r 0 b) a e =
      some ((List.range' a (e + 1 - a)).map (fun i => (i, c.eval r i))) := by
  unfold evalRange
  rw [if_neg (by omega)]
  apply mapM_eq_some_map
  intro i hi
  rw [List.mem_range'_1] at hi
  rw [c.ceval_constrain r b i hb (by omega)]
  rfl

theorem searchLoop_keep (c : Crypto Kw V) (edb : Edb V) (leaves : List (Nat × Leaf)) :
    searchLoop c false edb leaves = (leaves.filterMap (fun e => lookup c edb e.2), edb) := by
  induction leaves with
  | nil => rfl
  | cons e leaves ih =>
    obtain ⟨i, leaf⟩ := e
    unfold searchLoop getUnmask retrieveEntry
    cases h : edb (c.token leaf) with
    | none => simp [ih, lookup, h]
    | some v => simp [ih, lookup, h]

theorem searchLoop_delete (c : Crypto Kw V) (edb : Edb V) (leaves : List (Nat × Leaf))
    (hnd : (leaves.map (fun e => c.token e.2)).Nodup) :
    (searchLoop c true edb leaves).1 = leaves.filterMap (fun e => lookup c edb e.2) ∧
    ∀ k, (searchLoop c true edb leaves).2 k =
      if k ∈ leaves.map (fun e => c.token e.2) then none else edb k := by
  induction leaves generalizing edb with
  | nil => simp [searchLoop]
  | cons e leaves ih =>
    obtain ⟨i, leaf⟩ := e
    simp only [List.map_cons, List.nodup_cons] at hnd
    unfold searchLoop getUnmask retrieveEntry
    cases h : edb (c.token leaf) with
    | none =>
      obtain ⟨h1, h2⟩ := ih edb hnd.2
      constructor
      · simp [h1, lookup, h]
      · intro k
        simp only [h2, List.map_cons, List.mem_cons]
        by_cases hk : k = c.token leaf
        · subst hk; simp [h]
        · have : (k = c.token leaf ∨ k ∈ leaves.map (fun e => c.token e.2)) ↔
              k ∈ leaves.map (fun e => c.token e.2) := ⟨fun h => h.resolve_left hk, Or.inr⟩
          exact (if_congr this rfl rfl).symm
    | some v =>
      obtain ⟨h1, h2⟩ := ih (edb.erase (c.token leaf)) hnd.2
      constructor
      · simp only [if_true, Option.map_some, Option.toList_some, h1, List.filterMap_cons, lookup, h]
        simp only [List.singleton_append, List.cons.injEq, true_and]
        apply List.filterMap_congr
        intro e' he'
        have hne : c.token e'.2 ≠ c.token leaf := fun hh => hnd.1 (by
          rw [← hh]; exact List.mem_map.mpr ⟨e', he', rfl⟩)
        rw [Map.erase_of_ne _ hne]
      · intro k
        simp only [if_true, h2, List.map_cons, List.mem_cons]
        by_cases hk : k = c.token leaf
        · subst hk; simp
        · have : (k = c.token leaf ∨ k ∈ leaves.map (fun e => c.token e.2)) ↔
              k ∈ leaves.map (fun e => c.token e.2) := ⟨fun h => h.resolve_left hk, Or.inr⟩
          rw [Map.erase_of_ne _ hk]
          exact (if_congr this rfl rfl).symm

/-- The leaves of a keyword with `n` insertions. -/
def leavesOf (c : Crypto Kw V) (w : Kw) (n : Nat) : List (Nat × Leaf) :=
  (List.range n).map (fun i => (i, c.eval (c.root (c.hash w)) i))

/-- The search requests a client can send: nothing, or the positions `0 .. n - 1` of a keyword. -/
theorem searchRequest_cases (c : Crypto Kw V) (m : Map Kw UInt32) (w : Kw) :
    (searchRequest c m w).addCount = 0 ∨
    ∃ n, 0 < n ∧ n < 2 ^ 32 ∧ (searchRequest c m w).addCount.toNat = n ∧
      (searchRequest c m w).rcprf = c.constrain (c.root (c.hash w)) 0 (n - 1) := by
  unfold searchRequest Counter.get
  cases h : m w with
  | none => simp
  | some v =>
    by_cases hv : v + 1 = 0
    · left; simpa using hv
    · right
      have h1 := v.toNat_lt
      have h2 : (v + 1).toNat = (v.toNat + 1) % 2 ^ 32 := by rw [UInt32.toNat_add]; rfl
      have h3 : (v + 1).toNat ≠ 0 := fun e => hv (UInt32.toNat_inj.mp e)
      refine ⟨v.toNat + 1, by omega, by omega, ?_, rfl⟩
      show (v + 1).toNat = _
      omega

theorem search_leaves (c : Crypto Kw V) (edb : Edb V) (req : SearchReq c) (w : Kw) (n : Nat)
    (hn : 0 < n) (hn2 : n < 2 ^ 32) (ha : req.addCount.toNat = n)
    (hr : req.rcprf = c.constrain (c.root (c.hash w)) 0 (n - 1)) (del : Bool) :
    search c edb req del = some (searchLoop c del edb (leavesOf c w n)) := by
  unfold search
  have h0 : req.addCount ≠ 0 := by
    intro h; rw [h] at ha; simp at ha; omega
  rw [if_neg h0, hr, c.maxLeaf_constrain _ _ (by omega),
    evalRange_eq c _ (n - 1) 0 (n - 1) (by omega) (by omega) (by omega)]
  have : n - 1 + 1 - 0 = n := by omega
  rw [this, ← List.range_eq_range']
  rfl

theorem search_request (c : Crypto Kw V) (edb : Edb V) (m : Map Kw UInt32) (w : Kw) (n : Nat)
    (hm : m w = Counter.counterOf n) (hn : n < 2 ^ 32) (del : Bool) :
    search c edb (searchRequest c m w) del = some (searchLoop c del edb (leavesOf c w n)) := by
  by_cases h0 : n = 0
  · subst h0
    have : searchRequest c m w = ⟨Vector.replicate 32 0, c.emptyCK, 0⟩ := by
      simp [searchRequest, Counter.get, hm, Counter.counterOf]
    rw [this]
    simp [search, leavesOf, searchLoop]
  · have h1 : (UInt32.ofNat (n - 1)).toNat = n - 1 := by simp [UInt32.toNat_ofNat']; omega
    apply search_leaves c edb _ w n (by omega) hn
    · simp only [searchRequest, Counter.get, hm, Counter.counterOf, h0, if_false]
      rw [UInt32.toNat_add, h1]; simp; omega
    · simp only [searchRequest, Counter.get, hm, Counter.counterOf, h0, if_false]
      rw [h1]

theorem tokens_leavesOf (c : Crypto Kw V) (w : Kw) (n : Nat) :
    (leavesOf c w n).map (fun e => c.token e.2) = (List.range n).map (updateToken c w) := by
  simp [leavesOf, updateToken, Function.comp_def]

theorem nodup_tokens (c : Crypto Kw V) (B : Kw → Nat) (hnc : NoCollision c B) (w : Kw) (n : Nat)
    (hn : n ≤ B w) : ((leavesOf c w n).map (fun e => c.token e.2)).Nodup := by
  rw [tokens_leavesOf]
  apply List.Nodup.map_on _ List.nodup_range
  intro a ha b hb hab
  rw [List.mem_range] at ha hb
  exact (hnc w a w b (by omega) (by omega) hab).2

/-- Relation between the system and the slots of the keywords: slot `a` of `w` holds what the
insertion numbered `a` of `w` left at the server. -/
structure SlotInv (c : Crypto Kw V) (B : Kw → Nat) (s : Sys Kw V) (S : Kw → List (Option V)) :
    Prop where
  counters : ∀ w, s.counters w = Counter.counterOf (S w).length
  edb : ∀ w a, a < B w → s.edb (updateToken c w a) =
    ((S w)[a]?).join.map (fun v => c.xor v (c.mask (c.eval (c.root (c.hash w)) a)))

/-- Replace the slots of a keyword. -/
def setSlots (S : Kw → List (Option V)) (w : Kw) (l : List (Option V)) : Kw → List (Option V) :=
  fun v => if v = w then l else S v

theorem slotInv_init (c : Crypto Kw V) (B : Kw → Nat) : SlotInv c B Sys.init (fun _ => []) := by
  constructor
  · intro w; simp [Sys.init, Counter.counterOf]
  · intro w a _; simp [Sys.init]

theorem slotInv_insert (c : Crypto Kw V) (B : Kw → Nat) (hnc : NoCollision c B) (s : Sys Kw V)
    (S : Kw → List (Option V)) (h : SlotInv c B s S) (w : Kw) (i : V) (hB : (S w).length < B w)
    (hB2 : B w < 2 ^ 32) :
    SlotInv c B
      { counters := (insertionRequest c s.counters w i).2
        edb := serverInsert s.edb (insertionRequest c s.counters w i).1 }
      (setSlots S w (S w ++ [some i])) := by
  have hg := Counter.getAndIncrement_spec s.counters w _ (h.counters w)
  have h1 : (UInt32.ofNat (S w).length).toNat = (S w).length := by
    simp [UInt32.toNat_ofNat']; omega
  constructor
  · intro v
    simp only [insertionRequest, hg, setSlots]
    by_cases hv : v = w
    · subst hv; simp [Counter.counterOf]
    · rw [Map.put_of_ne _ _ hv, h.counters v, if_neg hv]
  · intro v a ha
    simp only [insertionRequest, hg, serverInsert, requestFor, h1, Map.put_apply, setSlots]
    have htok : updateToken c v a = c.token (c.eval (c.root (c.hash w)) (S w).length) ↔
        v = w ∧ a = (S w).length :=
      ⟨fun he => hnc v a w _ ha hB he, fun he => by rw [he.1, he.2]; rfl⟩
    by_cases hva : v = w ∧ a = (S w).length
    · rw [if_pos (htok.mpr hva)]
      obtain ⟨rfl, rfl⟩ := hva
      simp
    · rw [if_neg (fun he => hva (htok.mp he)), h.edb v a ha]
      by_cases hv : v = w
      · subst hv
        have hne : a ≠ (S v).length := fun e => hva ⟨rfl, e⟩
        simp only [if_true]
        by_cases hlt : a < (S v).length
        · rw [List.getElem?_append_left hlt]
        · rw [List.getElem?_eq_none (by omega), List.getElem?_eq_none (by simp; omega)]
      · simp [hv]

theorem slotInv_lost (c : Crypto Kw V) (B : Kw → Nat) (s : Sys Kw V)
    (S : Kw → List (Option V)) (h : SlotInv c B s S) (w : Kw) (i : V) :
    SlotInv c B { s with counters := (insertionRequest c s.counters w i).2 }
      (setSlots S w (S w ++ [none])) := by
  have hg := Counter.getAndIncrement_spec s.counters w _ (h.counters w)
  constructor
  · intro v
    simp only [insertionRequest, hg, setSlots]
    by_cases hv : v = w
    · subst hv; simp [Counter.counterOf]
    · rw [Map.put_of_ne _ _ hv, h.counters v, if_neg hv]
  · intro v a ha
    rw [show ({ s with counters := (insertionRequest c s.counters w i).2 } : Sys Kw V).edb = s.edb
      from rfl, h.edb v a ha, setSlots]
    by_cases hv : v = w
    · subst hv
      simp only [if_true]
      rcases Nat.lt_trichotomy a (S v).length with hlt | rfl | hgt
      · rw [List.getElem?_append_left hlt]
      · simp
      · rw [List.getElem?_eq_none (by omega), List.getElem?_eq_none (by simp; omega)]
    · simp [hv]

theorem filterMap_slots {α : Type} (l : List (Option α)) :
    (List.range l.length).filterMap (fun a => (l[a]?).join) = l.filterMap id := by
  induction l using List.reverseRecOn with
  | nil => rfl
  | append_singleton l x ih =>
    rw [List.length_append, List.length_singleton, List.range_succ, List.filterMap_append,
      List.filterMap_append, ← ih]
    congr 1
    · apply List.filterMap_congr
      intro a ha
      rw [List.getElem?_append_left (List.mem_range.mp ha)]
    · cases x <;> simp

/-- The results of a search are the contents of the slots. -/
theorem results_slots (c : Crypto Kw V) (B : Kw → Nat) (s : Sys Kw V) (S : Kw → List (Option V))
    (h : SlotInv c B s S) (w : Kw) (hB : (S w).length ≤ B w) :
    (leavesOf c w (S w).length).filterMap (fun e => lookup c s.edb e.2) = (S w).filterMap id := by
  rw [leavesOf, List.filterMap_map, ← filterMap_slots]
  apply List.filterMap_congr
  intro a ha
  rw [List.mem_range] at ha
  have := h.edb w a (by omega)
  unfold updateToken at this
  simp only [Function.comp, lookup, this, Option.map_map]
  cases ((S w)[a]?).join <;> simp [c.xor_xor]

theorem slotInv_delete (c : Crypto Kw V) (B : Kw → Nat) (hnc : NoCollision c B) (s : Sys Kw V)
    (S : Kw → List (Option V)) (h : SlotInv c B s S) (w : Kw) (hB : (S w).length ≤ B w) :
    SlotInv c B { s with edb := (searchLoop c true s.edb (leavesOf c w (S w).length)).2 }
      (setSlots S w (List.replicate (S w).length none)) := by
  have hnd := nodup_tokens c B hnc w _ hB
  constructor
  · intro v
    simp only [h.counters v, setSlots]
    by_cases hv : v = w
    · subst hv; simp
    · simp [hv]
  · intro v a ha
    simp only [(searchLoop_delete c s.edb _ hnd).2, tokens_leavesOf, List.mem_map, List.mem_range]
    by_cases hv : v = w
    · subst hv
      simp only [setSlots, if_true]
      by_cases hlt : a < (S v).length
      · rw [if_pos ⟨a, hlt, rfl⟩]
        simp [hlt]
      · rw [if_neg, h.edb v a ha, List.getElem?_eq_none (by omega),
          List.getElem?_eq_none (by simp; omega)]
        rintro ⟨b, hb, hbe⟩
        have := (hnc v b v a (by omega) ha hbe).2
        omega
    · rw [if_neg, h.edb v a ha]
      · simp [setSlots, hv]
      · rintro ⟨b, hb, hbe⟩
        exact hv (hnc w b v a (by omega) ha hbe).1.symm

theorem slotInv_forget (c : Crypto Kw V) (B : Kw → Nat) (s : Sys Kw V)
    (S : Kw → List (Option V)) (w : Kw) (n : Nat)
    (h : SlotInv c B s (setSlots S w (List.replicate n none))) :
    SlotInv c B { s with counters := removeKeyword s.counters w } (setSlots S w []) := by
  constructor
  · intro v
    by_cases hv : v = w
    · subst hv; simp [removeKeyword, Counter.removeKey, setSlots, Counter.counterOf]
    · have := h.counters v
      simp only [removeKeyword, Counter.removeKey, setSlots, hv, if_false] at this ⊢
      rw [Map.erase_of_ne _ hv, this]
  · intro v a ha
    have := h.edb v a ha
    by_cases hv : v = w
    · subst hv
      simp only [setSlots, if_true] at this ⊢
      rw [this]
      by_cases hlt : a < n <;> simp [hlt]
    · simpa [setSlots, hv] using this

/-- Refinement of histories. -/
theorem run_refines (c : Crypto Kw V) (B : Kw → Nat) (hB2 : ∀ w, B w < 2 ^ 32)
    (hnc : NoCollision c B) (ops : List (Op Kw V)) (s : Sys Kw V) (S : Kw → List (Option V))
    (h : SlotInv c B s S) (hB : ∀ w, (S w).length + Spec.insertions w ops ≤ B w) :
    ∃ s', run c s ops = some (s', Spec.run (fun w => (S w).filterMap id) ops) := by
  induction ops generalizing s S with
  | nil => exact ⟨s, rfl⟩
  | cons op ops ih =>
    have hSB : ∀ w, (S w).length ≤ B w := fun w => by have := hB w; omega
    have hres := fun w => search_request c s.edb s.counters w _ (h.counters w)
      (by have := hSB w; have := hB2 w; omega)
    cases op with
    | insert w i =>
      have hw := hB w
      simp only [Spec.insertions, if_true] at hw
      have h' := slotInv_insert c B hnc s S h w i (by omega) (hB2 w)
      obtain ⟨s', hs'⟩ := ih _ _ h' (by
        intro v
        have := hB v
        simp only [Spec.insertions] at this
        simp only [setSlots]
        by_cases hv : v = w
        · subst hv; simp at this ⊢; omega
        · simp [hv, Ne.symm hv] at this ⊢; omega)
      refine ⟨s', ?_⟩
      simp only [run, step, Option.bind_some, hs', Option.map_some, Spec.run]
      have : (fun v => (setSlots S w (S w ++ [some i]) v).filterMap id) =
          Spec.Store.set (fun w => (S w).filterMap id) w ((S w).filterMap id ++ [i]) := by
        funext v
        by_cases hv : v = w
        · subst hv; simp [setSlots, Spec.Store.set]
        · simp [setSlots, Spec.Store.set, hv]
      rw [this]; simp
    | lost w i =>
      have h' := slotInv_lost c B s S h w i
      obtain ⟨s', hs'⟩ := ih _ _ h' (by
        intro v
        have := hB v
        simp only [Spec.insertions] at this
        simp only [setSlots]
        by_cases hv : v = w
        · subst hv; simp at this ⊢; omega
        · simp [hv, Ne.symm hv] at this ⊢; omega)
      refine ⟨s', ?_⟩
      simp only [run, step, Option.bind_some, hs', Option.map_some, Spec.run]
      have : (fun v => (setSlots S w (S w ++ [none]) v).filterMap id) =
          (fun w => (S w).filterMap id) := by
        funext v
        by_cases hv : v = w
        · subst hv; simp [setSlots]
        · simp [setSlots, hv]
      rw [this]; simp
    | search w =>
      obtain ⟨s', hs'⟩ := ih s S h (by simpa [Spec.insertions] using hB)
      refine ⟨s', ?_⟩
      simp only [run, step, hres w, searchLoop_keep, results_slots c B s S h w (hSB w),
        Option.map_some, Option.bind_some, hs', Spec.run]
      simp
    | searchDelete w =>
      have h' := slotInv_delete c B hnc s S h w (hSB w)
      obtain ⟨s', hs'⟩ := ih _ _ h' (by
        intro v
        have := hB v
        simp only [Spec.insertions] at this
        simp only [setSlots]
        by_cases hv : v = w
        · subst hv; simpa using this
        · simpa [hv] using this)
      refine ⟨s', ?_⟩
      have h1 := (searchLoop_delete c s.edb _ (nodup_tokens c B hnc w _ (hSB w))).1
      simp only [run, step, hres w, h1, results_slots c B s S h w (hSB w),
        Option.map_some, Option.bind_some, hs', Spec.run]
      have : (fun v => (setSlots S w (List.replicate (S w).length none) v).filterMap id) =
          Spec.Store.set (fun w => (S w).filterMap id) w [] := by
        funext v
        by_cases hv : v = w
        · subst hv; simp [setSlots, Spec.Store.set]
        · simp [setSlots, Spec.Store.set, hv]
      rw [this]; simp
    | searchForget w =>
      have h' := slotInv_forget c B _ S w _ (slotInv_delete c B hnc s S h w (hSB w))
      obtain ⟨s', hs'⟩ := ih _ _ h' (by
        intro v
        have := hB v
        simp only [Spec.insertions] at this
        simp only [setSlots]
        by_cases hv : v = w
        · subst hv; simp at this ⊢; omega
        · simpa [hv] using this)
      refine ⟨s', ?_⟩
      have h1 := (searchLoop_delete c s.edb _ (nodup_tokens c B hnc w _ (hSB w))).1
      simp only [run, step, hres w, h1, results_slots c B s S h w (hSB w),
        Option.map_some, Option.bind_some, hs', Spec.run]
      have : (fun v => (setSlots S w [] v).filterMap id) =
          Spec.Store.set (fun w => (S w).filterMap id) w [] := by
        funext v
        by_cases hv : v = w
        · subst hv; simp [setSlots, Spec.Store.set]
        · simp [setSlots, Spec.Store.set, hv]
      rw [this]; simp

/-! ## Leaf tokens of the concrete instances -/

namespace Toy

/-- 32 bytes: the 16 bytes of a token, and zeros. -/
def wide (t : Token) : Leaf := Vector.ofFn fun j => if h : j.val < 16 then t[j.val] else 0

/-- The first 16 bytes. -/
def narrow (l : Leaf) : Token := Vector.ofFn fun j => l[j.val]

theorem narrow_wide (t : Token) : narrow (wide t) = t := by
  apply Vector.ext
  intro i hi
  simp [narrow, wide]

end Toy

end Verif.Diana
