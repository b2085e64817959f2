import Verif.Generator.Spec
import Mathlib.Data.List.Perm.Basic
import Mathlib.Data.List.Nodup
import Mathlib.Data.List.Range
import Mathlib.Data.Nat.ModEq

/-! # Helper lemmas for the random database generator -/

namespace Verif.Generator

open Spec

/-! ## Interleavings -/

theorem flatten_set_perm {α : Type} (Ls : List (List α)) (t : Nat) (a : α) (L : List α) (h : Ls[t]? = some (a :: L)) :
    (a :: (Ls.set t L).flatten).Perm Ls.flatten := by
  induction Ls generalizing t with
  | nil => simp at h
  | cons M Ms ih =>
    cases t with
    | zero => simp at h; subst h; simp
    | succ t =>
      simp only [List.getElem?_cons_succ] at h
      simp only [List.set_cons_succ, List.flatten_cons]
      exact (List.perm_middle.symm).trans ((ih t h).append_left M)

theorem interleaves_perm {α : Type} {Ls : List (List α)} {tr : List α} (h : Interleaves Ls tr) : tr.Perm Ls.flatten := by
  induction h with
  | nil Ls h => rw [List.flatten_eq_nil_iff.mpr h]
  | cons Ls t a L rest h _ ih => exact (ih.cons a).trans (flatten_set_perm Ls t a L h)

theorem interleaves_exists {α : Type} (Ls : List (List α)) : ∃ tr, Interleaves Ls tr := by
  induction hn : Ls.flatten.length generalizing Ls with
  | zero =>
    refine ⟨[], .nil Ls ?_⟩
    exact List.flatten_eq_nil_iff.mp (List.length_eq_zero_iff.mp hn)
  | succ n ih =>
    have : ∃ (t : Nat) (a : α) (L : List α), Ls[t]? = some (a :: L) := by
      by_contra hno
      have : ∀ L ∈ Ls, L = [] := by
        intro L hL
        obtain ⟨t, ht⟩ := List.mem_iff_getElem?.mp hL
        cases L with
        | nil => rfl
        | cons a L => exact absurd ⟨t, a, L, ht⟩ hno
      rw [List.flatten_eq_nil_iff.mpr this] at hn
      simp at hn
    obtain ⟨t, a, L, ht⟩ := this
    have hp := (flatten_set_perm Ls t a L ht).length_eq
    obtain ⟨tr, htr⟩ := ih (Ls.set t L) (by simp only [List.length_cons] at hp; omega)
    exact ⟨_, .cons Ls t a L tr ht htr⟩

/-! ## Counters -/

theorem docs_perm {tr tr' : List Action} (h : tr.Perm tr') : docs tr = docs tr' := by
  unfold docs
  apply List.Perm.foldl_eq' h
  intro x _ y _ z
  cases x <;> cases y <;> simp [docStep]

theorem entries_perm {tr tr' : List Action} (h : tr.Perm tr') : entries tr = entries tr' := by
  unfold entries
  apply List.Perm.foldl_eq' h
  intro x _ y _ z
  cases x <;> cases y <;> simp [entryStep, UInt64.add_assoc]
  rw [UInt64.add_comm]

theorem docs_from (x : UInt64) (b : List Action) : b.foldl docStep x = x + docs b := by
  unfold docs
  induction b generalizing x with
  | nil => simp
  | cons c b ih =>
    simp only [List.foldl_cons]
    rw [ih, ih (docStep 0 c)]
    cases c <;> simp [docStep, UInt64.add_assoc]

theorem docs_append (a b : List Action) : docs (a ++ b) = docs a + docs b := by
  conv_lhs => unfold docs
  rw [List.foldl_append, docs_from]; rfl

theorem entries_from (x : UInt64) (b : List Action) : b.foldl entryStep x = x + entries b := by
  unfold entries
  induction b generalizing x with
  | nil => simp
  | cons c b ih =>
    simp only [List.foldl_cons]
    rw [ih, ih (entryStep 0 c)]
    cases c <;> simp [entryStep, UInt64.add_assoc]

theorem entries_append (a b : List Action) : entries (a ++ b) = entries a + entries b := by
  conv_lhs => unfold entries
  rw [List.foldl_append, entries_from]; rfl

/-! ## Numbers -/

theorem toNat_size (g : GroupId) : 0 < g.size.toNat ∧ g.size.toNat < 2 ^ 63 := by
  cases g <;> decide

theorem succ_div_min (k s : Nat) (M : Nat) :
    min ((k + 1) / s) M = if min (k / s) M < M ∧ (k + 1) % s = 0 then min (k / s) M + 1 else min (k / s) M := by
  have := Nat.succ_div (a := k) (b := s)
  by_cases h : s ∣ k + 1
  · have hm : (k + 1) % s = 0 := Nat.mod_eq_zero_of_dvd h
    simp only [h, if_true] at this
    simp only [hm, and_true] at this ⊢
    split <;> omega
  · have hm : (k + 1) % s ≠ 0 := fun e => h (Nat.dvd_of_mod_eq_zero e)
    simp only [h, if_false] at this
    simp only [hm, and_false, if_false] at this ⊢
    rw [this]; rfl

/-! ## The loop -/

/-- After `k` iterations of thread `tid` of `n` threads -/
structure Inv (P : Params) (tid n : UInt32) (k : Nat) (s : St) : Prop where
  counter : s.counter.toNat = tid.toNat + k * n.toNat
  i : s.i.toNat = k
  draws : s.draws = k
  group : ∀ g, (s.groups g).counter.toNat = min (k / g.size.toNat) (2 ^ 32 - 1)
  kw : ∀ g, (s.groups g).counter = maxCounter → (s.groups g).kw = keyword g.base tid (2 ^ 32 - 2)
  rand : ∀ r, (s.rand r).length = (P.nGroups r).toNat

theorem inv_init (P : Params) (tid n : UInt32) : Inv P tid n 0 (St.init P tid) where
  counter := by simp [St.init]
  i := rfl
  draws := rfl
  group := by intro g; simp [St.init]
  kw := by intro g h; simp [St.init, maxCounter] at h
  rand := by intro r; simp [St.init]

theorem stepGroup_spec (g : GroupId) (tid : UInt32) (i : UInt64) (s : GroupState) (k : Nat) (hi : i.toNat = k)
    (hk : k + 1 < 2 ^ 64) (hc : s.counter.toNat = min (k / g.size.toNat) (2 ^ 32 - 1))
    (hkw : s.counter = maxCounter → s.kw = keyword g.base tid (2 ^ 32 - 2)) :
    (stepGroup g tid i s).counter.toNat = min ((k + 1) / g.size.toNat) (2 ^ 32 - 1) ∧
    (stepGroup g tid i s).kw = keyword g.base tid (group g.size.toNat k) ∧
    ((stepGroup g tid i s).counter = maxCounter → (stepGroup g tid i s).kw = keyword g.base tid (2 ^ 32 - 2)) := by
  have hmod : ((i + 1) % g.size = 0) ↔ (k + 1) % g.size.toNat = 0 := by
    rw [← UInt64.toNat_inj, UInt64.toNat_mod, UInt64.toNat_add, hi]
    have : (1 : UInt64).toNat = 1 := rfl
    rw [this, Nat.mod_eq_of_lt hk]; rfl
  have hmax : maxCounter.toNat = 2 ^ 32 - 1 := rfl
  have hlt : s.counter < maxCounter ↔ k / g.size.toNat < 2 ^ 32 - 1 := by
    rw [UInt32.lt_iff_toNat_lt, hmax, hc]; omega
  unfold stepGroup
  by_cases h : s.counter < maxCounter
  · rw [if_pos h]
    have h' := hlt.mp h
    have hcn : s.counter.toNat = k / g.size.toNat := by omega
    have hgrp : group g.size.toNat k = k / g.size.toNat := by unfold group; omega
    refine ⟨?_, ?_, ?_⟩
    · rw [succ_div_min k _]
      dsimp only
      by_cases hm : (i + 1) % g.size = 0
      · rw [if_pos hm, if_pos ⟨by omega, hmod.mp hm⟩, UInt32.toNat_add, hc]
        have : (1 : UInt32).toNat = 1 := rfl
        rw [this, Nat.mod_eq_of_lt (by omega)]
      · rw [if_neg hm, if_neg (fun e => hm (hmod.mpr e.2)), hc]
    · dsimp only; rw [hcn, hgrp]
    · dsimp only
      intro he
      rw [hcn]
      congr 1
      by_cases hm : (i + 1) % g.size = 0
      · rw [if_pos hm] at he
        have := congrArg UInt32.toNat he
        rw [UInt32.toNat_add, hcn, hmax] at this
        have h1 : (1 : UInt32).toNat = 1 := rfl
        rw [h1, Nat.mod_eq_of_lt (by omega)] at this
        omega
      · rw [if_neg hm] at he
        rw [he] at hcn
        omega
  · rw [if_neg h]
    have h' : ¬ k / g.size.toNat < 2 ^ 32 - 1 := fun e => h (hlt.mpr e)
    have hceq : s.counter = maxCounter := by
      apply UInt32.toNat_inj.mp
      rw [hc, hmax]; omega
    refine ⟨?_, ?_, hkw⟩
    · rw [succ_div_min k _, hc, if_neg (by omega)]
    · rw [hkw hceq]; unfold group; congr 1; omega

theorem keyword_rand (r : RandId) (tid : UInt32) (c : Nat) :
    ∃ rest, keyword r.base tid c = "Group-rand-10^" ++ rest := by
  cases r
  · exact ⟨"3_" ++ Nat.repr tid.toNat ++ "_" ++ Nat.repr c, by simp [keyword, RandId.base, ← String.toList_inj]⟩
  · exact ⟨"3_" ++ Nat.repr tid.toNat ++ "_" ++ Nat.repr c, by simp [keyword, RandId.base, ← String.toList_inj]⟩
  · exact ⟨"4_" ++ Nat.repr tid.toNat ++ "_" ++ Nat.repr c, by simp [keyword, RandId.base, ← String.toList_inj]⟩
  · exact ⟨"5_" ++ Nat.repr tid.toNat ++ "_" ++ Nat.repr c, by simp [keyword, RandId.base, ← String.toList_inj]⟩
  · exact ⟨"6_" ++ Nat.repr tid.toNat ++ "_" ++ Nat.repr c, by simp [keyword, RandId.base, ← String.toList_inj]⟩

/-- Keywords of random groups for one document: at most one of each of the families `rs`, in their order, and only of
families whose threshold the draw passes -/
def RandIns (P : Params) (t : Nat) (ind : UInt64) (rs : List RandId) (ins : List String) : Prop :=
  ∃ S : List (RandId × Nat), (S.map (·.1)).Sublist rs ∧ (∀ x ∈ S, P.below x.1 ind = true) ∧
    ins = S.map (fun x => s!"{x.1.base}{t}_{x.2}")

theorem stepRand_ok (P : Params) (r : RandId) (tid : UInt32) (ind : UInt64) (c : UInt32) (table : List UInt64)
    (hl : table.length = (P.nGroups r).toNat) :
    ∃ t ins, stepRand P r tid ind c table = .ok (t, ins) ∧ t.length = (P.nGroups r).toNat ∧ ins.length ≤ 1 ∧
      (∀ kw ∈ ins, ∃ rest, kw = "Group-rand-10^" ++ rest) ∧ RandIns P tid.toNat ind [r] ins := by
  unfold stepRand
  by_cases h : c < maxCounter ∧ P.below r ind = true
  · rw [if_pos h]
    have h0 := P.below_groups r ind h.2
    rw [if_neg h0]
    have hpos : 0 < (P.nGroups r).toNat := by
      rcases Nat.eq_zero_or_pos (P.nGroups r).toNat with e | e
      · exact absurd (UInt64.toNat_inj.mp e) h0
      · exact e
    have hlt : (ind % P.nGroups r).toUInt16.toNat < table.length := by
      rw [hl, UInt64.toNat_toUInt16, UInt64.toNat_mod]
      exact Nat.lt_of_le_of_lt (Nat.mod_le _ _) (Nat.mod_lt _ hpos)
    simp only [List.getElem?_eq_getElem hlt]
    split
    · refine ⟨_, _, rfl, by simpa using hl, by simp, ?_, [(r, _)], by simp, by simpa using h.2, rfl⟩
      intro kw hkw
      rw [List.mem_singleton] at hkw
      subst hkw
      exact keyword_rand r tid _
    · exact ⟨_, _, rfl, hl, by simp, by simp, [], by simp, by simp, rfl⟩
  · rw [if_neg h]
    exact ⟨_, _, rfl, hl, by simp, by simp, [], by simp, by simp, rfl⟩

theorem stepRands_ok (P : Params) (tid : UInt32) (ind : UInt64) (groups : GroupId → GroupState) (rs : List RandId)
    (tables : RandId → List UInt64) (hl : ∀ r, (tables r).length = (P.nGroups r).toNat) :
    ∃ t ins, stepRands P tid ind groups rs tables = .ok (t, ins) ∧ (∀ r, (t r).length = (P.nGroups r).toNat) ∧
      ins.length ≤ rs.length ∧ (∀ kw ∈ ins, ∃ rest, kw = "Group-rand-10^" ++ rest) ∧
      RandIns P tid.toNat ind rs ins := by
  induction rs generalizing tables with
  | nil => exact ⟨_, _, rfl, hl, by simp, by simp, [], by simp, by simp, rfl⟩
  | cons r rs ih =>
    obtain ⟨t, ins, h1, h2, h3, h4, S, a1, a2, a3⟩ := stepRand_ok P r tid ind (groups r.fixed).counter (tables r) (hl r)
    obtain ⟨t', ins', h1', h2', h3', h4', S', b1, b2, b3⟩ := ih (fun r' => if r' = r then t else tables r') (by
      intro r'
      split
      · rename_i e; subst e; exact h2
      · exact hl r')
    refine ⟨t', ins ++ ins', ?_, h2', by simp; omega, ?_, S ++ S', ?_, ?_, by rw [a3, b3, List.map_append]⟩
    · simp only [stepRands, h1, h1']
    · intro kw hkw
      rcases List.mem_append.mp hkw with h | h
      · exact h4 kw h
      · exact h4' kw h
    · rw [List.map_append]
      exact a1.append b1
    · intro x hx
      rcases List.mem_append.mp hx with h | h
      · exact a2 x h
      · exact b2 x h

theorem groups_keywords (tid : UInt32) (k : Nat) :
    groupOrder.map (fun g => keyword g.base tid (group g.size.toNat k)) =
      families.map (fun f => s!"{f.1}{tid.toNat}_{group f.2 k}") := by
  rfl

theorem percent_keywords (ind : UInt64) : percentKeywords ind = percents ind.toNat := by
  have h1 : (ind % 1000).toUInt32.toNat = ind.toNat % 1000 := by
    rw [UInt64.toNat_toUInt32, UInt64.toNat_mod]
    exact Nat.mod_eq_of_lt (Nat.lt_trans (Nat.mod_lt _ (by decide)) (by decide))
  have h2 : ((ind / 1000) % 1000).toUInt32.toNat = ind.toNat / 1000 % 1000 := by
    rw [UInt64.toNat_toUInt32, UInt64.toNat_mod, UInt64.toNat_div]
    exact Nat.mod_eq_of_lt (Nat.lt_trans (Nat.mod_lt _ (by decide)) (by decide))
  unfold percentKeywords percents
  simp only [UInt32.toNat_mod, h1, h2]
  have e1 : (100 : UInt32).toNat = 100 := rfl
  have e2 : (10 : UInt32).toNat = 10 := rfl
  rw [e1, e2]
  have m1 : ∀ x : Nat, x % 1000 % 100 = x % 100 := fun x => Nat.mod_mod_of_dvd x (by decide)
  have m2 : ∀ x : Nat, x % 100 % 10 = x % 10 := fun x => Nat.mod_mod_of_dvd x (by decide)
  simp only [m1, m2]
  rfl

/-- The actions for one document: the keywords of the specification, and keywords of random groups -/
def DocActs (P : Params) (t i : Nat) (ind : UInt64) (acts : List Action) : Prop :=
  docs acts = 1 ∧ entries acts = UInt64.ofNat (callbacks acts).length ∧
  ∃ ins : List String, ins.length ≤ 5 ∧ (∀ kw ∈ ins, ∃ rest, kw = "Group-rand-10^" ++ rest) ∧
    RandIns P t ind randOrder ins ∧ callbacks acts = (keywords t i ind.toNat ++ ins).map (fun kw => (kw, ind))

theorem callbacks_append (a b : List Action) : callbacks (a ++ b) = callbacks a ++ callbacks b := by
  simp [callbacks]

theorem callbacks_map {α : Type} (l : List α) (f : α → String) (ind : UInt64) :
    callbacks (l.map (fun a => Action.callback (f a) ind)) = l.map (fun a => (f a, ind)) := by
  unfold callbacks
  rw [List.filterMap_map]
  simp

theorem docs_map {α : Type} (l : List α) (f : α → String) (ind : UInt64) :
    docs (l.map (fun a => Action.callback (f a) ind)) = 0 := by
  induction l with
  | nil => rfl
  | cons a l ih =>
    have := docs_append [Action.callback (f a) ind] (l.map (fun a => Action.callback (f a) ind))
    simp only [List.map_cons, List.singleton_append] at this ⊢
    rw [this, ih]; rfl

theorem entries_map {α : Type} (l : List α) (f : α → String) (ind : UInt64) :
    entries (l.map (fun a => Action.callback (f a) ind)) = 0 := by
  induction l with
  | nil => rfl
  | cons a l ih =>
    have := entries_append [Action.callback (f a) ind] (l.map (fun a => Action.callback (f a) ind))
    simp only [List.map_cons, List.singleton_append] at this ⊢
    rw [this, ih]; rfl

theorem iter_ok (P : Params) (tid n : UInt32) (k : Nat) (s : St) (ind : UInt64) (h : Inv P tid n k s)
    (hN : s.counter < P.entries) (hfit : P.entries.toNat + n.toNat ≤ 2 ^ 64) (hk : k + 1 < 2 ^ 64) :
    ∃ s' acts, iter P tid n.toUInt64 ind s = .ok (s', acts) ∧ Inv P tid n (k + 1) s' ∧ DocActs P tid.toNat k ind acts := by
  obtain ⟨t, ins, h1, h2, h3, h4, h5⟩ := stepRands_ok P tid ind s.groups randOrder s.rand h.rand
  refine ⟨_, _, by simp only [iter, h1]; rfl, ?_, ?_⟩
  · constructor
    · have hlt := UInt64.lt_iff_toNat_lt.mp hN
      have hc := h.counter
      dsimp only
      rw [UInt64.toNat_add, UInt32.toNat_toUInt64, Nat.mod_eq_of_lt (by omega), hc]
      rw [Nat.add_mul]; omega
    · dsimp only
      rw [UInt64.toNat_add, h.i]
      exact Nat.mod_eq_of_lt hk
    · dsimp only; rw [h.draws]
    · intro g; exact (stepGroup_spec g tid s.i _ k h.i hk (h.group g) (h.kw g)).1
    · intro g; exact (stepGroup_spec g tid s.i _ k h.i hk (h.group g) (h.kw g)).2.2
    · exact h2
  · have hcb : ∀ e, callbacks ((percentKeywords ind).map (Action.callback · ind) ++ [.doc] ++
        groupOrder.map (fun g => Action.callback (stepGroup g tid s.i (s.groups g)).kw ind) ++
        ins.map (Action.callback · ind) ++ [.entries e]) =
        (keywords tid.toNat k ind.toNat ++ ins).map (fun kw => (kw, ind)) := by
      intro e
      have hg : groupOrder.map (fun g => ((stepGroup g tid s.i (s.groups g)).kw, ind)) =
          (families.map (fun f => s!"{f.1}{tid.toNat}_{group f.2 k}")).map (fun kw => (kw, ind)) := by
        rw [← groups_keywords, List.map_map]
        apply List.map_congr_left
        intro g _
        simp only [Function.comp_apply]
        rw [(stepGroup_spec g tid s.i _ k h.i hk (h.group g) (h.kw g)).2.1]
      rw [callbacks_append, callbacks_append, callbacks_append, callbacks_append, callbacks_map _ (fun x => x),
        callbacks_map, callbacks_map _ (fun x => x), hg, percent_keywords]
      simp [callbacks, keywords]
    refine ⟨?_, ?_, ins, h3, h4, h5, hcb _⟩
    · rw [docs_append, docs_append, docs_append, docs_append, docs_map _ (fun x => x), docs_map, docs_map _ (fun x => x)]
      rfl
    · rw [hcb, entries_append, entries_append, entries_append, entries_append, entries_map _ (fun x => x), entries_map,
        entries_map _ (fun x => x)]
      have hl : ins.length ≤ 5 := h3
      have hk : (keywords tid.toNat k ind.toNat).length = 15 := by simp [keywords, percents, families]
      rw [List.length_map, List.length_append, hk]
      clear h4 hcb h1
      generalize ins.length = m at hl
      have : m = 0 ∨ m = 1 ∨ m = 2 ∨ m = 3 ∨ m = 4 ∨ m = 5 := by omega
      rcases this with rfl | rfl | rfl | rfl | rfl | rfl <;> rfl

/-- Shape of a terminated loop: one block of actions per document -/
theorem loop_blocks (P : Params) (tid n : UInt32) (rnd : Nat → UInt64) (hn : 0 < n.toNat)
    (hfit : P.entries.toNat + n.toNat ≤ 2 ^ 64) (s : St) (L : List Action)
    (h : Loop P tid n.toUInt64 rnd s L) (k : Nat) (hinv : Inv P tid n k s) :
    ∃ Ds : List (List Action), L = Ds.flatten ∧
      (∀ j D, Ds[j]? = some D → DocActs P tid.toNat (k + j) (rnd (k + j)) D) ∧
      (∀ j, tid.toNat + (k + j) * n.toNat < P.entries.toNat ↔ j < Ds.length) := by
  induction h generalizing k with
  | done s h =>
    refine ⟨[], rfl, by simp, ?_⟩
    intro j
    rw [UInt64.lt_iff_toNat_lt, hinv.counter] at h
    have : k * n.toNat ≤ (k + j) * n.toNat := Nat.mul_le_mul_right _ (by omega)
    simp only [List.length_nil, Nat.not_lt_zero, iff_false]
    omega
  | iter s s' acts rest h hi _ ih =>
    have hlt := UInt64.lt_iff_toNat_lt.mp h
    have hle : k ≤ k * n.toNat := Nat.le_mul_of_pos_right k hn
    have hc := hinv.counter
    obtain ⟨s1, acts1, e1, hinv1, hd⟩ := iter_ok P tid n k s (rnd s.draws) hinv h hfit (by omega)
    rw [hi] at e1
    obtain ⟨rfl, rfl⟩ := Prod.mk.inj (Except.ok.inj e1)
    obtain ⟨Ds, rfl, h2, h3⟩ := ih (k + 1) hinv1
    refine ⟨acts :: Ds, rfl, ?_, ?_⟩
    · intro j D hD
      cases j with
      | zero =>
        simp only [List.getElem?_cons_zero, Option.some.injEq] at hD
        subst hD
        rw [hinv.draws] at hd
        exact hd
      | succ j =>
        have := h2 j D (by simpa using hD)
        rwa [show k + (j + 1) = k + 1 + j by omega]
    · intro j
      cases j with
      | zero =>
        simp only [Nat.add_zero, List.length_cons, Nat.zero_lt_succ, iff_true]
        omega
      | succ j =>
        rw [show k + (j + 1) = k + 1 + j by omega, h3 j]
        simp

theorem loop_exists (P : Params) (tid n : UInt32) (rnd : Nat → UInt64) (hn : 0 < n.toNat)
    (hfit : P.entries.toNat + n.toNat ≤ 2 ^ 64) (s : St) (k : Nat) (hinv : Inv P tid n k s) :
    ∃ L, Loop P tid n.toUInt64 rnd s L := by
  induction hm : P.entries.toNat - s.counter.toNat using Nat.strong_induction_on generalizing s k with
  | _ m ih =>
    by_cases h : s.counter < P.entries
    · have hlt := UInt64.lt_iff_toNat_lt.mp h
      have hle : k ≤ k * n.toNat := Nat.le_mul_of_pos_right k hn
      have hc := hinv.counter
      obtain ⟨s1, acts1, e1, hinv1, -⟩ := iter_ok P tid n k s (rnd s.draws) hinv h hfit (by omega)
      have hc1 := hinv1.counter
      rw [Nat.add_mul] at hc1
      obtain ⟨L, hL⟩ := ih (P.entries.toNat - s1.counter.toNat) (by omega) s1 (k + 1) hinv1 rfl
      exact ⟨_, .iter s s1 acts1 L h e1 hL⟩
    · exact ⟨_, .done s h⟩

theorem not_faults (P : Params) (tid n : UInt32) (rnd : Nat → UInt64) (hn : 0 < n.toNat)
    (hfit : P.entries.toNat + n.toNat ≤ 2 ^ 64) (s : St) (h : Faults P tid n.toUInt64 rnd s) (k : Nat)
    (hinv : Inv P tid n k s) : False := by
  induction h generalizing k with
  | now s f h hi =>
    have hlt := UInt64.lt_iff_toNat_lt.mp h
    have hle : k ≤ k * n.toNat := Nat.le_mul_of_pos_right k hn
    have hc := hinv.counter
    obtain ⟨s1, acts1, e1, -, -⟩ := iter_ok P tid n k s (rnd s.draws) hinv h hfit (by omega)
    rw [hi] at e1; cases e1
  | later s s' acts h hi _ ih =>
    have hlt := UInt64.lt_iff_toNat_lt.mp h
    have hle : k ≤ k * n.toNat := Nat.le_mul_of_pos_right k hn
    have hc := hinv.counter
    obtain ⟨s1, acts1, e1, hinv1, -⟩ := iter_ok P tid n k s (rnd s.draws) hinv h hfit (by omega)
    rw [hi] at e1
    obtain ⟨rfl, rfl⟩ := Prod.mk.inj (Except.ok.inj e1)
    exact ih (k + 1) hinv1

/-! ## All threads -/

theorem flatten_eq_range {α : Type} (Ds : List (List α)) :
    Ds.flatten = (List.range Ds.length).flatMap (fun j => Ds.getD j []) := by
  rw [List.flatMap_def]
  congr 1
  apply List.ext_getElem?
  intro j
  by_cases h : j < Ds.length
  · simp [h]
  · simp [Nat.le_of_not_lt h]

/-- The numbers of the documents, by thread -/
theorem numbers_perm (n N : Nat) (hn : 0 < n) (len : Nat → Nat)
    (h : ∀ t, t < n → ∀ j, t + j * n < N ↔ j < len t) :
    ((List.range n).flatMap (fun t => (List.range (len t)).map (fun j => t + j * n))).Perm (List.range N) := by
  rw [List.perm_ext_iff_of_nodup _ List.nodup_range]
  · intro p
    simp only [List.mem_flatMap, List.mem_range, List.mem_map]
    constructor
    · rintro ⟨t, ht, j, hj, rfl⟩
      exact (h t ht j).mpr hj
    · intro hp
      have e : p % n + p / n * n = p := by rw [Nat.mul_comm]; exact Nat.mod_add_div p n
      exact ⟨p % n, Nat.mod_lt _ hn, p / n, (h _ (Nat.mod_lt _ hn) _).mp (by omega), e⟩
  · rw [List.nodup_flatMap]
    constructor
    · intro t ht
      apply List.Nodup.map _ List.nodup_range
      intro a b hab
      simp only at hab
      exact Nat.eq_of_mul_eq_mul_right hn (by omega)
    · apply List.Pairwise.imp_of_mem _ List.nodup_range
      intro a b ha hb hab
      rw [List.mem_range] at ha hb
      simp only [Function.onFun, List.disjoint_left, List.mem_map, List.mem_range]
      rintro x ⟨j, -, rfl⟩ ⟨j', -, e⟩
      apply hab
      have := congrArg (· % n) e
      simp only [Nat.add_mul_mod_self_right, Nat.mod_eq_of_lt ha, Nat.mod_eq_of_lt hb] at this
      exact this.symm

theorem genDb_blocks (P : Params) (n : UInt32) (rnd : Nat → Nat → UInt64) (tr : List Action) (hn : 0 < n.toNat)
    (hfit : P.entries.toNat + n.toNat ≤ 2 ^ 64) (h : GenDb P n rnd tr) :
    ∃ D : Nat → List Action,
      (∀ p < P.entries.toNat,
        DocActs P (p % n.toNat) (p / n.toNat) (rnd (p % n.toNat) (p / n.toNat)) (D p)) ∧
      tr.Perm ((List.range P.entries.toNat).flatMap D) := by
  obtain ⟨Ls, hlen, hL, hI⟩ := h
  have hb : ∀ t, ∃ Ds : List (List Action), ∀ L, Ls[t]? = some L → L = Ds.flatten ∧
      (∀ j D, Ds[j]? = some D → DocActs P t j (rnd t j) D) ∧
      (∀ j, t + j * n.toNat < P.entries.toNat ↔ j < Ds.length) := by
    intro t
    cases hLt : Ls[t]? with
    | none => exact ⟨[], by simp⟩
    | some L =>
      have ht : t < n.toNat := by
        rw [← hlen]; exact (List.getElem?_eq_some_iff.mp hLt).1
      have htn : (UInt32.ofNat t).toNat = t := by
        have := n.toNat_lt
        simp only [UInt32.toNat_ofNat']
        exact Nat.mod_eq_of_lt (by omega)
      obtain ⟨Ds, h1, h2, h3⟩ := loop_blocks P _ n (rnd t) hn hfit _ L (hL t L hLt) 0 (inv_init P _ n)
      rw [htn] at h2 h3
      simp only [Nat.zero_add] at h2 h3
      refine ⟨Ds, ?_⟩
      rintro L' hL'
      obtain rfl := Option.some.inj hL'
      exact ⟨h1, h2, h3⟩
  choose Ds hDs using hb
  have hget : ∀ t, t < n.toNat → ∃ L, Ls[t]? = some L := fun t ht =>
    ⟨_, List.getElem?_eq_getElem (by omega)⟩
  refine ⟨fun p => (Ds (p % n.toNat)).getD (p / n.toNat) [], ?_, ?_⟩
  · intro p hp
    have ht : p % n.toNat < n.toNat := Nat.mod_lt _ hn
    obtain ⟨L, hLt⟩ := hget _ ht
    obtain ⟨-, h2, h3⟩ := hDs _ L hLt
    have e : p % n.toNat + p / n.toNat * n.toNat = p := by rw [Nat.mul_comm]; exact Nat.mod_add_div p _
    have hj := (h3 (p / n.toNat)).mp (by omega)
    apply h2
    simp [hj]
  · refine (interleaves_perm hI).trans ?_
    have hflat : Ls.flatten = (List.range n.toNat).flatMap (fun t => (Ds t).flatten) := by
      rw [List.flatMap_def]
      congr 1
      apply List.ext_getElem?
      intro t
      by_cases ht : t < n.toNat
      · obtain ⟨L, hLt⟩ := hget t ht
        rw [hLt, (hDs t L hLt).1]
        simp [ht]
      · simp [Nat.le_of_not_lt ht, hlen]
    rw [hflat]
    have hmap : ((List.range n.toNat).flatMap (fun t => (List.range (Ds t).length).map
        (fun j => t + j * n.toNat))).flatMap (fun p => (Ds (p % n.toNat)).getD (p / n.toNat) []) =
        (List.range n.toNat).flatMap (fun t => (Ds t).flatten) := by
      rw [List.flatMap_assoc]
      apply List.flatMap_congr
      intro t ht
      rw [List.mem_range] at ht
      rw [List.flatMap_map, flatten_eq_range]
      apply List.flatMap_congr
      intro j _
      rw [Nat.add_mul_mod_self_right, Nat.mod_eq_of_lt ht, Nat.add_mul_div_right _ _ hn, Nat.div_eq_of_lt ht,
        Nat.zero_add]
    rw [← hmap]
    apply List.Perm.flatMap_right
    apply numbers_perm _ _ hn
    intro t ht
    obtain ⟨L, hLt⟩ := hget t ht
    exact (hDs t L hLt).2.2

theorem docs_flatMap (l : List Nat) (D : Nat → List Action) (h : ∀ p ∈ l, docs (D p) = 1) :
    docs (l.flatMap D) = UInt64.ofNat l.length := by
  induction l with
  | nil => rfl
  | cons p l ih =>
    rw [List.flatMap_cons, docs_append, h p (by simp), ih (fun q hq => h q (by simp [hq])), List.length_cons,
      UInt64.ofNat_add, UInt64.add_comm]
    rfl

theorem entries_flatMap (l : List Nat) (D : Nat → List Action)
    (h : ∀ p ∈ l, entries (D p) = UInt64.ofNat (callbacks (D p)).length) :
    entries (l.flatMap D) = UInt64.ofNat (callbacks (l.flatMap D)).length := by
  induction l with
  | nil => rfl
  | cons p l ih =>
    rw [List.flatMap_cons, entries_append, h p (by simp), ih (fun q hq => h q (by simp [hq])), callbacks_append,
      List.length_append, UInt64.ofNat_add]

theorem callbacks_flatMap (l : List Nat) (D : Nat → List Action) :
    callbacks (l.flatMap D) = l.flatMap (fun p => callbacks (D p)) := by
  induction l with
  | nil => rfl
  | cons p l ih => rw [List.flatMap_cons, callbacks_append, ih, List.flatMap_cons]

/-! ## Counting keywords -/

theorem split_underscore {a a' x x' : List Char} (ha : '_' ∉ a) (ha' : '_' ∉ a')
    (h : a ++ '_' :: x = a' ++ '_' :: x') : a = a' ∧ x = x' := by
  induction a generalizing a' with
  | nil =>
    cases a' with
    | nil => simpa using h
    | cons c a' => simp only [List.nil_append, List.cons_append, List.cons.injEq] at h; simp [← h.1] at ha'
  | cons c a ih =>
    cases a' with
    | nil => simp only [List.nil_append, List.cons_append, List.cons.injEq] at h; simp [h.1] at ha
    | cons c' a' =>
      simp only [List.cons_append, List.cons.injEq] at h
      obtain ⟨rfl, rfl⟩ := ih (by simp at ha; exact ha.2) (by simp at ha'; exact ha'.2) h.2
      exact ⟨by rw [h.1], rfl⟩

theorem toDigits_inj {a b : Nat} (h : Nat.toDigits 10 a = Nat.toDigits 10 b) : a = b := by
  have := congrArg (fun l => Nat.ofDigitChars 10 l 0) h
  simpa using this

theorem families_base : ∀ f ∈ families, f.1.toList = f.1.toList.dropLast ++ ['_'] ∧ '_' ∉ f.1.toList.dropLast ∧
    7 ≤ f.1.toList.length ∧ f.1.toList.take 7 ≠ "Group-r".toList ∧ f.1.toList.head? = some 'G' := by decide +kernel

theorem families_inj : ∀ f ∈ families, ∀ f' ∈ families, f.1 = f'.1 → f = f' := by decide +kernel

theorem families_nodup : families.Nodup := by decide +kernel

theorem families_pos : ∀ f ∈ families, 0 < f.2 := by decide +kernel

theorem keyword_toList (b : String) (t c : Nat) :
    (s!"{b}{t}_{c}" : String).toList = b.toList ++ Nat.toDigits 10 t ++ '_' :: Nat.toDigits 10 c := by
  have : (s!"{b}{t}_{c}" : String) = b ++ Nat.repr t ++ "_" ++ Nat.repr c := rfl
  rw [this]
  simp

theorem keyword_inj {f f' : String × Nat} (hf : f ∈ families) (hf' : f' ∈ families) {t t' c c' : Nat}
    (h : (s!"{f.1}{t}_{c}" : String) = s!"{f'.1}{t'}_{c'}") : f = f' ∧ t = t' ∧ c = c' := by
  have h := congrArg String.toList h
  rw [keyword_toList, keyword_toList] at h
  obtain ⟨e, hb, -⟩ := families_base f hf
  obtain ⟨e', hb', -⟩ := families_base f' hf'
  rw [e, e'] at h
  simp only [List.append_assoc, List.singleton_append] at h
  obtain ⟨h1, h2⟩ := split_underscore hb hb' h
  obtain ⟨h3, h4⟩ := split_underscore Nat.underscore_not_in_toDigits Nat.underscore_not_in_toDigits h2
  refine ⟨families_inj f hf f' hf' ?_, toDigits_inj h3, toDigits_inj h4⟩
  apply String.toList_inj.mp
  rw [e, e', h1]

theorem count_extra (f : String × Nat) (hf : f ∈ families) (t c : Nat) (l : List String)
    (h : ∀ kw ∈ l, ∃ rest, kw = "Group-rand-10^" ++ rest) : l.count s!"{f.1}{t}_{c}" = 0 := by
  rw [List.count_eq_zero]
  intro hm
  obtain ⟨rest, hr⟩ := h _ hm
  have := congrArg (fun s : String => s.toList.take 7) hr
  simp only [keyword_toList] at this
  rw [String.toList_append] at this
  obtain ⟨-, -, hlen, hne, -⟩ := families_base f hf
  rw [List.append_assoc, List.take_append_of_le_length hlen] at this
  exact hne (by rw [this]; rfl)

theorem percents_head (ind : Nat) : ∀ kw ∈ percents ind, kw.toList.head? ≠ some 'G' := by
  intro kw h
  simp only [percents, List.mem_cons, List.not_mem_nil, or_false] at h
  rcases h with rfl | rfl | rfl | rfl | rfl | rfl <;> simp [String.toList_append, toString]

theorem count_keywords (f : String × Nat) (hf : f ∈ families) (t c t' i' ind : Nat) :
    (keywords t' i' ind).count s!"{f.1}{t}_{c}" = if t' = t ∧ group f.2 i' = c then 1 else 0 := by
  unfold keywords
  rw [List.count_append]
  have h1 : (percents ind).count s!"{f.1}{t}_{c}" = 0 := by
    rw [List.count_eq_zero]
    intro hm
    apply percents_head ind _ hm
    rw [keyword_toList]
    obtain ⟨-, -, hlen, -, hh⟩ := families_base f hf
    cases hl : f.1.toList with
    | nil => rw [hl] at hlen; simp at hlen
    | cons a l => rw [hl] at hh; simpa using hh
  rw [h1, Nat.zero_add, List.count_eq_countP, List.countP_map]
  have h2 : ∀ f' ∈ families, ((fun x => x == (s!"{f.1}{t}_{c}" : String)) ∘
      fun f' => (s!"{f'.1}{t'}_{group f'.2 i'}" : String)) f' =
      decide (f' = f ∧ t' = t ∧ group f.2 i' = c) := by
    intro f' hf'
    rw [Function.comp_apply, Bool.eq_iff_iff, beq_iff_eq, decide_eq_true_eq]
    constructor
    · intro h
      obtain ⟨e1, e2, e3⟩ := keyword_inj hf' hf h
      rw [← e1]
      exact ⟨rfl, e2, e3⟩
    · rintro ⟨rfl, rfl, rfl⟩; rfl
  rw [List.countP_congr (fun f' hf' => by rw [h2 f' hf'])]
  by_cases hc : t' = t ∧ group f.2 i' = c
  · rw [if_pos hc]
    simp only [hc, and_self, and_true]
    have := List.count_eq_one_of_mem families_nodup hf
    rw [List.count_eq_countP] at this
    rw [← this]
    apply List.countP_congr
    intro f' _
    simp
  · rw [if_neg hc, List.countP_eq_zero]
    intro f' _
    simp only [decide_eq_true_eq]
    exact fun e => hc e.2

theorem count_flatMap_ite (l : List Nat) (F : Nat → List String) (kw : String) (b : Nat → Bool)
    (h : ∀ p, (F p).count kw = if b p = true then 1 else 0) : (l.flatMap F).count kw = l.countP b := by
  induction l with
  | nil => rfl
  | cons p l ih =>
    rw [List.flatMap_cons, List.count_append, ih, h, List.countP_cons]
    omega

theorem numbers_count (N n t s c : Nat) (hn : 0 < n) (hs : 0 < s) (ht : t < n) (hdone : t + ((c + 1) * s - 1) * n < N) :
    (List.range N).countP (fun p => decide (p % n = t ∧ p / n / s = c)) = s := by
  rw [List.countP_eq_length_filter]
  have hperm : ((List.range N).filter (fun p => decide (p % n = t ∧ p / n / s = c))).Perm
      ((List.range s).map (fun j => t + (c * s + j) * n)) := by
    rw [List.perm_ext_iff_of_nodup (List.nodup_range.filter _)]
    · intro p
      simp only [List.mem_filter, List.mem_range, decide_eq_true_eq, List.mem_map]
      constructor
      · rintro ⟨-, h1, h2⟩
        refine ⟨p / n % s, Nat.mod_lt _ hs, ?_⟩
        have e1 : c * s + p / n % s = p / n := by
          rw [← h2, Nat.mul_comm]; exact Nat.div_add_mod _ _
        rw [e1, ← h1, Nat.mul_comm]
        exact Nat.mod_add_div p n
      · rintro ⟨j, hj, rfl⟩
        refine ⟨?_, ?_, ?_⟩
        · refine Nat.lt_of_le_of_lt ?_ hdone
          apply Nat.add_le_add_left
          apply Nat.mul_le_mul_right
          rw [Nat.add_mul]; omega
        · rw [Nat.add_mul_mod_self_right, Nat.mod_eq_of_lt ht]
        · rw [Nat.add_mul_div_right _ _ hn, Nat.div_eq_of_lt ht, Nat.zero_add, Nat.add_comm, Nat.add_mul_div_right _ _ hs,
            Nat.div_eq_of_lt hj, Nat.zero_add]
    · apply List.Nodup.map _ List.nodup_range
      intro a b hab
      simp only at hab
      have := Nat.eq_of_mul_eq_mul_right hn (Nat.add_left_cancel hab)
      omega
  rw [hperm.length_eq]
  simp

end Verif.Generator
