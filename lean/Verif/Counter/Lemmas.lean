import Verif.Counter.Model
import Mathlib.Data.List.Induction
import Mathlib.Data.List.Perm.Basic

/-! # Lemmas on the counter store -/

set_option linter.unusedSectionVars false

namespace Verif.Counter

open Verif

variable {Kw α : Type} [DecidableEq Kw]

/-- The payloads inserted under `w`, oldest first (specification level). -/
def items (w : Kw) (H : List (Kw × α)) : List α := (H.filter (fun e => e.1 = w)).map (·.2)

/-- Number of insertions under `w`. -/
abbrev cnt (w : Kw) (H : List (Kw × α)) : Nat := (items w H).length

@[simp] theorem items_nil (w : Kw) : items w ([] : List (Kw × α)) = [] := rfl

theorem items_append (w : Kw) (H H' : List (Kw × α)) :
    items w (H ++ H') = items w H ++ items w H' := by
  simp [items]

theorem items_snoc_self (w : Kw) (i : α) (H : List (Kw × α)) :
    items w (H ++ [(w, i)]) = items w H ++ [i] := by
  simp [items]

theorem items_snoc_ne {w w' : Kw} (h : w' ≠ w) (i : α) (H : List (Kw × α)) :
    items w (H ++ [(w', i)]) = items w H := by
  simp [items, h]

theorem items_cons (w v : Kw) (i : α) (H : List (Kw × α)) :
    items w ((v, i) :: H) = (if v = w then [i] else []) ++ items w H := by
  by_cases h : v = w <;> simp [items, h]

/-- Counter value after `n` insertions. -/
def counterOf (n : Nat) : Option UInt32 := if n = 0 then none else some (UInt32.ofNat (n - 1))

theorem nextValue_counterOf (n : Nat) : nextValue (counterOf n) = UInt32.ofNat n := by
  unfold nextValue counterOf
  by_cases h0 : n = 0
  · subst h0; rfl
  · have : UInt32.ofNat (n - 1) + 1 = UInt32.ofNat n := by
      have h1 : n = (n - 1) + 1 := by omega
      conv => rhs; rw [h1]
      simp [UInt32.ofNat_add]
    simp [h0, this]

theorem getAndIncrement_spec (m : Map Kw UInt32) (w : Kw) (n : Nat) (h : m w = counterOf n) :
    getAndIncrement m w = (UInt32.ofNat n, m.put w (UInt32.ofNat n)) := by
  unfold getAndIncrement get
  rw [h, nextValue_counterOf]

/-- The counter store after the insertions `H`. -/
def CountersOk (m : Map Kw UInt32) (H : List (Kw × α)) : Prop :=
  ∀ w, m w = counterOf (cnt w H)

theorem countersOk_empty : CountersOk (Map.empty : Map Kw UInt32) ([] : List (Kw × α)) := by
  intro w; simp [counterOf]

theorem countersOk_put {m : Map Kw UInt32} {H : List (Kw × α)} (h : CountersOk m H) (w : Kw)
    (i : α) : CountersOk (m.put w (UInt32.ofNat (cnt w H))) (H ++ [(w, i)]) := by
  intro v
  by_cases hv : v = w
  · subst hv
    simp [cnt, items_snoc_self, counterOf]
  · rw [Map.put_of_ne _ _ hv, h v, cnt, cnt, items_snoc_ne (Ne.symm hv)]

theorem assign_append (m : Map Kw UInt32) (H H' : List (Kw × α)) :
    assign m (H ++ H') =
      ((assign m H).1 ++ (assign (assign m H).2 H').1, (assign (assign m H).2 H').2) := by
  induction H generalizing m with
  | nil => simp [assign]
  | cons e H ih =>
    obtain ⟨w, i⟩ := e
    simp only [List.cons_append, assign]
    rw [ih]

theorem assign_countersOk {m : Map Kw UInt32} {G : List (Kw × α)} (h : CountersOk m G)
    (H : List (Kw × α)) : CountersOk (assign m H).2 (G ++ H) := by
  induction H generalizing m G with
  | nil => simpa [assign] using h
  | cons e H ih =>
    obtain ⟨w, i⟩ := e
    simp only [assign]
    rw [getAndIncrement_spec m w (cnt w G) (h w)]
    have := ih (countersOk_put h w i)
    simpa using this

/-- Snoc form of `assign` on a fresh store. -/
theorem assign_snoc (H : List (Kw × α)) (w : Kw) (i : α) :
    (assign Map.empty (H ++ [(w, i)])).1 =
      (assign Map.empty H).1 ++ [(w, i, UInt32.ofNat (cnt w H))] := by
  rw [assign_append]
  have h : CountersOk (assign Map.empty H).2 H := by
    simpa using assign_countersOk (α := α) countersOk_empty H
  simp [assign, getAndIncrement_spec _ w (cnt w H) (h w)]

theorem assign_length (m : Map Kw UInt32) (H : List (Kw × α)) :
    (assign m H).1.length = H.length := by
  induction H generalizing m with
  | nil => simp [assign]
  | cons e H ih => obtain ⟨w, i⟩ := e; simp [assign, ih]

/-- The counter values obtained by the insertions of `H`, in closed form. -/
theorem assign_get (H P : List (Kw × α)) (w : Kw) (i : α) (Q : List (Kw × α))
    (hH : H = P ++ (w, i) :: Q) :
    (assign Map.empty H).1[P.length]? = some (w, i, UInt32.ofNat (cnt w P)) := by
  induction Q using List.reverseRecOn generalizing H with
  | nil =>
    subst hH
    rw [assign_snoc]
    have := assign_length (Map.empty) P
    simp [← this]
  | append_singleton Q x ih =>
    subst hH
    obtain ⟨v, j⟩ := x
    have h' : P ++ (w, i) :: (Q ++ [(v, j)]) = (P ++ (w, i) :: Q) ++ [(v, j)] := by simp
    rw [h', assign_snoc]
    have hlt : P.length < (assign Map.empty (P ++ (w, i) :: Q)).1.length := by
      rw [assign_length]; simp
    rw [List.getElem?_append_left hlt]
    exact ih _ rfl

/-! ### Concurrent insertions on pairwise different keywords -/

/-- Keywords that thread `th` still has to handle. -/
def Thread.keywords (th : Thread Kw α) : List Kw :=
  (th.pending.toList.map (·.1)) ++ th.todo.map (·.1)

/-- The insertions a thread still has to complete, in order. -/
def Thread.remaining (th : Thread Kw α) : List (Kw × α) :=
  (th.pending.toList.map (fun p => (p.1, p.2.1))) ++ th.todo

/-- Different threads never insert under the same keyword. -/
def Disjoint (Ls : List (List (Kw × α))) : Prop :=
  ∀ (t t' : Nat) (L L' : List (Kw × α)), Ls[t]? = some L → Ls[t']? = some L' → t ≠ t' →
    ∀ w, w ∈ L.map (·.1) → w ∉ L'.map (·.1)

/-- Invariant of a concurrent execution with disjoint keywords: it is a sequential execution of
some history `H`. -/
structure Inv (Ls : List (List (Kw × α))) (s : Sys Kw α) (H : List (Kw × α)) : Prop where
  counters : CountersOk s.counters H
  emitted : s.emitted = (assign Map.empty H).1
  len : s.threads.length = Ls.length
  pending : ∀ th ∈ s.threads, ∀ p ∈ th.pending, p.2.2 = UInt32.ofNat (cnt p.1 H)
  perm : (H ++ (s.threads.flatMap Thread.remaining)).Perm Ls.flatten
  progress : ∀ (t : Nat) (th : Thread Kw α) (L : List (Kw × α)), s.threads[t]? = some th → Ls[t]? = some L → ∀ w ∈ L.map (·.1),
    items w H ++ items w th.remaining = items w L
  kw : ∀ (t : Nat) (th : Thread Kw α) (L : List (Kw × α)), s.threads[t]? = some th → Ls[t]? = some L → ∀ w ∈ th.keywords, w ∈ L.map (·.1)

theorem set_perm_flatMap {β γ : Type} (l : List β) (t : Nat) (a b : β) (f : β → List γ)
    (pre : List γ) (h : l[t]? = some a) (hf : (f a).Perm (pre ++ f b)) :
    (l.flatMap f).Perm (pre ++ (l.set t b).flatMap f) := by
  induction l generalizing t with
  | nil => simp at h
  | cons x l ih =>
    cases t with
    | zero =>
      simp at h; subst h
      simp only [List.flatMap_cons, List.set_cons_zero]
      rw [← List.append_assoc]
      exact hf.append_right _
    | succ t =>
      simp only [List.getElem?_cons_succ] at h
      simp only [List.flatMap_cons, List.set_cons_succ]
      have := ih t h
      refine (this.append_left (f x)).trans ?_
      rw [← List.append_assoc, ← List.append_assoc]
      exact List.perm_append_comm.append_right _

theorem getElem?_set_cases {β : Type} {l : List β} {t t' : Nat} {a b x : β}
    (h : l[t]? = some a) (hx : (l.set t b)[t']? = some x) :
    (t' = t ∧ x = b) ∨ (t' ≠ t ∧ l[t']? = some x) := by
  by_cases htt : t' = t
  · subst htt
    have hlt : t' < l.length := by
      rcases List.getElem?_eq_some_iff.mp h with ⟨hlt, _⟩; exact hlt
    simp [hlt] at hx
    exact Or.inl ⟨rfl, hx.symm⟩
  · rw [List.getElem?_set_ne (Ne.symm htt)] at hx
    exact Or.inr ⟨htt, hx⟩

theorem Inv.step {Ls : List (List (Kw × α))} {s s' : Sys Kw α} {H : List (Kw × α)}
    (hd : Disjoint Ls) (hinv : Inv Ls s H) (hstep : Step s s') : ∃ H', Inv Ls s' H' := by
  cases hstep with
  | read t w i rest h =>
    refine ⟨H, ?_, ?_, ?_, ?_, ?_, ?_, ?_⟩
    · exact hinv.counters
    · exact hinv.emitted
    · simpa using hinv.len
    · intro th hth p hp
      obtain ⟨t', ht'⟩ := List.getElem?_of_mem hth
      rcases getElem?_set_cases h ht' with ⟨-, rfl⟩ | ⟨-, hold⟩
      · simp at hp; subst hp
        simp only [get, hinv.counters w, nextValue_counterOf]
      · exact hinv.pending th (List.mem_of_getElem? hold) p hp
    · refine List.Perm.trans ?_ hinv.perm
      have := set_perm_flatMap s.threads t _
        (⟨rest, some (w, i, nextValue (get s.counters w))⟩ : Thread Kw α) Thread.remaining [] h
        (by simp [Thread.remaining])
      exact (List.Perm.append_left H (by simpa using this.symm))
    · intro t' th L hth hL v hv
      rcases getElem?_set_cases h hth with ⟨rfl, rfl⟩ | ⟨-, hold⟩
      · have := hinv.progress t' _ L h hL v hv
        rw [← this]
        simp [Thread.remaining]
      · exact hinv.progress t' th L hold hL v hv
    · intro t' th L hth hL v hv
      rcases getElem?_set_cases h hth with ⟨rfl, rfl⟩ | ⟨-, hold⟩
      · exact hinv.kw t' _ L h hL v (by simpa [Thread.keywords] using hv)
      · exact hinv.kw t' th L hold hL v hv
  | write t w i v rest h =>
    have hmem : (⟨rest, some (w, i, v)⟩ : Thread Kw α) ∈ s.threads := List.mem_of_getElem? h
    have hv : v = UInt32.ofNat (cnt w H) := hinv.pending _ hmem (w, i, v) rfl
    have hwkw : w ∈ (⟨rest, some (w, i, v)⟩ : Thread Kw α).keywords := by simp [Thread.keywords]
    have hLt : ∃ L, Ls[t]? = some L := by
      rcases List.getElem?_eq_some_iff.mp h with ⟨hlt, _⟩
      rw [hinv.len] at hlt
      exact ⟨_, List.getElem?_eq_getElem hlt⟩
    obtain ⟨Lt, hLt⟩ := hLt
    have hwL := hinv.kw t _ Lt h hLt w hwkw
    refine ⟨H ++ [(w, i)], ?_, ?_, ?_, ?_, ?_, ?_, ?_⟩
    · subst hv; exact countersOk_put hinv.counters w i
    · rw [assign_snoc, hinv.emitted, hv]
    · simpa using hinv.len
    · intro th hth p hp
      obtain ⟨t', ht'⟩ := List.getElem?_of_mem hth
      rcases getElem?_set_cases h ht' with ⟨-, rfl⟩ | ⟨hne, hold⟩
      · simp at hp
      · have hpk : p.1 ∈ th.keywords := by
          simp only [Thread.keywords, List.mem_append, List.mem_map, Option.mem_toList]
          exact Or.inl ⟨p, hp, rfl⟩
        have hL' : ∃ L, Ls[t']? = some L := by
          rcases List.getElem?_eq_some_iff.mp hold with ⟨hlt, _⟩
          rw [hinv.len] at hlt
          exact ⟨_, List.getElem?_eq_getElem hlt⟩
        obtain ⟨L', hL'⟩ := hL'
        have hpw : p.1 ≠ w := fun e =>
          hd t t' Lt L' hLt hL' (Ne.symm hne) w hwL (e ▸ hinv.kw t' th L' hold hL' p.1 hpk)
        rw [hinv.pending th (List.mem_of_getElem? hold) p hp]
        simp only [cnt, items_snoc_ne (Ne.symm hpw)]
    · refine List.Perm.trans ?_ hinv.perm
      have := set_perm_flatMap s.threads t _
        (⟨rest, none⟩ : Thread Kw α) Thread.remaining [(w, i)] h
        (by simp [Thread.remaining])
      rw [List.append_assoc]
      exact List.Perm.append_left H this.symm
    · intro t' th L hth hL u hu
      rcases getElem?_set_cases h hth with ⟨rfl, rfl⟩ | ⟨hne, hold⟩
      · have := hinv.progress t' _ L h hL u hu
        rw [← this, items_append]
        by_cases hwu : w = u <;> simp [Thread.remaining, items, hwu]
      · by_cases huw : w = u
        · -- keyword of another thread: `w` belongs to thread `t`
          subst huw
          exact absurd hu (hd t t' Lt L hLt hL (Ne.symm hne) w hwL)
        · rw [items_snoc_ne huw]
          exact hinv.progress t' th L hold hL u hu
    · intro t' th L hth hL u hu
      rcases getElem?_set_cases h hth with ⟨rfl, rfl⟩ | ⟨-, hold⟩
      · exact hinv.kw t' _ L h hL u (by
          simp only [Thread.keywords] at hu ⊢
          simp at hu ⊢
          exact Or.inr hu)
      · exact hinv.kw t' th L hold hL u hu

theorem Inv.init (Ls : List (List (Kw × α))) : Inv Ls (Sys.init Ls) [] := by
  refine ⟨countersOk_empty, rfl, by simp [Sys.init], ?_, ?_, ?_, ?_⟩
  · intro th hth p hp
    simp only [Sys.init, List.mem_map] at hth
    obtain ⟨L, -, rfl⟩ := hth
    simp at hp
  · have h : (Sys.init Ls).threads.flatMap Thread.remaining = Ls.flatten := by
      simp [Sys.init, List.flatMap, List.map_map, Function.comp_def, Thread.remaining]
    rw [h]; simp
  · intro t th L hth hL w _
    simp only [Sys.init, List.getElem?_map, hL, Option.map_some, Option.some.injEq] at hth
    subst hth
    simp [Thread.remaining]
  · intro t th L hth hL w hw
    simp only [Sys.init, List.getElem?_map, hL, Option.map_some, Option.some.injEq] at hth
    subst hth
    simpa [Thread.keywords] using hw

theorem reachable_inv {Ls : List (List (Kw × α))} (hd : Disjoint Ls) {s : Sys Kw α}
    (h : Reachable Ls s) : ∃ H, Inv Ls s H := by
  induction h with
  | refl => exact ⟨[], Inv.init Ls⟩
  | tail _ hst ih =>
    obtain ⟨H, hH⟩ := ih
    exact hH.step hd hst

/-- A completed concurrent execution with disjoint keywords is a sequential execution of a history
which contains every insertion, each keyword's insertions in the order of their thread. -/
theorem done_sequential {Ls : List (List (Kw × α))} (hd : Disjoint Ls) {s : Sys Kw α}
    (h : Reachable Ls s) (hdone : s.Done) :
    ∃ H, CountersOk s.counters H ∧ s.emitted = (assign Map.empty H).1 ∧ H.Perm Ls.flatten ∧
      ∀ L ∈ Ls, ∀ w ∈ L.map (·.1), items w H = items w L := by
  obtain ⟨H, hH⟩ := reachable_inv hd h
  refine ⟨H, hH.counters, hH.emitted, ?_, ?_⟩
  · have h0 : s.threads.flatMap Thread.remaining = [] := by
      rw [List.flatMap_eq_nil_iff]
      intro th hth
      obtain ⟨h1, h2⟩ := hdone th hth
      simp [Thread.remaining, h1, h2]
    simpa [h0] using hH.perm
  · intro L hL w hw
    obtain ⟨t, ht⟩ := List.getElem?_of_mem hL
    have hlt : t < s.threads.length := by
      rcases List.getElem?_eq_some_iff.mp ht with ⟨hlt, _⟩
      rw [hH.len]; exact hlt
    have hth := List.getElem?_eq_getElem hlt
    obtain ⟨h1, h2⟩ := hdone _ (List.getElem_mem hlt)
    have := hH.progress t _ L hth ht w hw
    simpa [Thread.remaining, h1, h2] using this

end Verif.Counter
