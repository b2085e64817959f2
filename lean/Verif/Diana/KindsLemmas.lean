import Verif.Diana.KindsSpec
import Verif.Diana.ParallelProps

/-! # Helper lemmas for the searches of Diana with failures -/

set_option linter.unusedSectionVars false

namespace Verif.Diana.Kinds

open Verif

variable {Kw V : Type} [DecidableEq Kw]

/-- What is read at a position -/
def read (c : Crypto Kw V) (F : Fates) (edb : Edb V) (e : Nat × Leaf) : Option V :=
  if (F e.1).get then none else lookup c edb e.2

/-- The same with the position -/
def look (c : Crypto Kw V) (F : Fates) (edb : Edb V) (e : Nat × Leaf) : Option (Nat × V) :=
  (read c F edb e).map (fun v => (e.1, v))

/-- What remains at the key of a position -/
def left (c : Crypto Kw V) (F : Fates) (del : Bool) (edb : Edb V) (e : Nat × Leaf) : Option V :=
  if del = true ∧ (F e.1).get = false ∧ (F e.1).delete = false then none else edb (c.token e.2)

/-- The result of handling the leaves `L` -/
def edbAfter (c : Crypto Kw V) (F : Fates) (del : Bool) (edb : Edb V) (L : List (Nat × Leaf)) (edb' : Edb V) :
    Prop :=
  (∀ e ∈ L, edb' (c.token e.2) = left c F del edb e) ∧ ∀ k, k ∉ L.map (fun e => c.token e.2) → edb' k = edb k

theorem edbAfter_unique (c : Crypto Kw V) (F : Fates) (del : Bool) (edb : Edb V) (L : List (Nat × Leaf))
    (a b : Edb V) (ha : edbAfter c F del edb L a) (hb : edbAfter c F del edb L b) : a = b := by
  apply Map.ext
  intro k
  by_cases hk : k ∈ L.map (fun e => c.token e.2)
  · obtain ⟨e, he, rfl⟩ := List.mem_map.mp hk
    rw [ha.1 e he, hb.1 e he]
  · rw [ha.2 k hk, hb.2 k hk]

/-! ## The sequential search -/

theorem getUnmask_eq (c : Crypto Kw V) (F : Fates) (del : Bool) (edb : Edb V) (i : Nat) (leaf : Leaf) :
    (getUnmask c F del edb i leaf).1 = read c F edb (i, leaf) ∧
    (getUnmask c F del edb i leaf).2 (c.token leaf) = left c F del edb (i, leaf) ∧
    ∀ k, k ≠ c.token leaf → (getUnmask c F del edb i leaf).2 k = edb k := by
  unfold getUnmask read left lookup
  cases hg : (F i).get
  · cases he : edb (c.token leaf) with
    | none => simp [he]
    | some v =>
      cases hd : (F i).delete <;> cases del <;>
        simp +contextual [he, Map.erase_of_ne]
  · simp

theorem searchLoop_eq (c : Crypto Kw V) (F : Fates) (del : Bool) (L : List (Nat × Leaf)) (edb : Edb V)
    (hnd : (L.map (fun e => c.token e.2)).Nodup) :
    (searchLoop c F del edb L).1 = L.filterMap (read c F edb) ∧
    edbAfter c F del edb L (searchLoop c F del edb L).2 := by
  induction L generalizing edb with
  | nil => exact ⟨rfl, by simp [edbAfter, searchLoop]⟩
  | cons e L ih =>
    obtain ⟨i, leaf⟩ := e
    simp only [List.map_cons, List.nodup_cons] at hnd
    obtain ⟨g1, g2, g3⟩ := getUnmask_eq c F del edb i leaf
    obtain ⟨h1, h2, h3⟩ := ih (getUnmask c F del edb i leaf).2 hnd.2
    have hne : ∀ e ∈ L, c.token e.2 ≠ c.token leaf := fun e he hk =>
      hnd.1 (List.mem_map.mpr ⟨e, he, hk⟩)
    refine ⟨?_, ?_, ?_⟩
    · simp only [searchLoop, g1, h1, List.filterMap_cons]
      have : L.filterMap (read c F (getUnmask c F del edb i leaf).2) = L.filterMap (read c F edb) := by
        apply List.filterMap_congr
        intro e he
        simp only [read, lookup, g3 _ (hne e he)]
      rw [this]
      cases read c F edb (i, leaf) <;> rfl
    · intro e he
      rcases List.mem_cons.mp he with rfl | he
      · simp only [searchLoop]
        rw [h3 _ hnd.1, g2]
      · simp only [searchLoop]
        rw [h2 e he]
        simp only [left, g3 _ (hne e he)]
    · intro k hk
      simp only [List.map_cons, List.mem_cons, not_or] at hk
      simp only [searchLoop]
      rw [h3 k hk.2, g3 k hk.1]

/-! ## The parallel search -/

/-- What a thread has yet to report -/
def yield (c : Crypto Kw V) (F : Fates) (edb0 : Edb V) (w : Worker V) : List (Nat × V) :=
  (w.pending.toList.map (fun p => (p.1, p.2.1))) ++ w.todo.filterMap (look c F edb0)

structure Inv (c : Crypto Kw V) (F : Fates) (del : Bool) (edb0 : Edb V) (Ls : List (List (Nat × Leaf)))
    (s : ScanSys V) : Prop where
  len : s.workers.length = Ls.length
  ids : ∀ e ∈ s.trace, e.2.2 < Ls.length
  calls : ∀ (t : Nat) (w : Worker V) (L : List (Nat × Leaf)), s.workers[t]? = some w →
    Ls[t]? = some L → callsOf t s.trace ++ yield c F edb0 w = L.filterMap (look c F edb0)
  perm : (s.trace.map (fun e => (e.1, e.2.1)) ++ s.workers.flatMap (yield c F edb0)).Perm
    (Ls.flatten.filterMap (look c F edb0))
  nodup : (s.workers.flatMap (Worker.keys c)).Nodup
  todo : ∀ w ∈ s.workers, ∀ e ∈ w.todo, e ∈ Ls.flatten
  pending : ∀ w ∈ s.workers, ∀ p, w.pending = some p →
    del = true ∧ (F p.1).get = false ∧ ∃ leaf, (p.1, leaf) ∈ Ls.flatten ∧ p.2.2 = c.token leaf
  outstanding : ∀ k ∈ s.workers.flatMap (Worker.keys c), s.edb k = edb0 k
  outside : ∀ k, k ∉ allKeys c Ls → s.edb k = edb0 k
  settled : ∀ e ∈ Ls.flatten, c.token e.2 ∉ s.workers.flatMap (Worker.keys c) →
    s.edb (c.token e.2) = left c F del edb0 e

theorem inv_init (c : Crypto Kw V) (F : Fates) (del : Bool) (edb0 : Edb V)
    (Ls : List (List (Nat × Leaf))) (hnd : (allKeys c Ls).Nodup) :
    Inv c F del edb0 Ls (ScanSys.init edb0 Ls) := by
  have hk : (ScanSys.init edb0 Ls).workers.flatMap (Worker.keys c) = allKeys c Ls := by
    simp [ScanSys.init, allKeys, List.flatMap_def, Worker.keys, Function.comp_def, List.map_flatten]
  have hy : (ScanSys.init edb0 Ls).workers.flatMap (yield c F edb0) =
      Ls.flatten.filterMap (look c F edb0) := by
    rw [List.filterMap_flatten]
    simp [ScanSys.init, List.flatMap_def, yield, Function.comp_def]
  have hw : ∀ w ∈ (ScanSys.init edb0 Ls).workers, ∃ L ∈ Ls, w = ⟨L, none⟩ := by
    intro w hw
    simp only [ScanSys.init, List.mem_map] at hw
    obtain ⟨L, h, rfl⟩ := hw
    exact ⟨L, h, rfl⟩
  refine ⟨by simp [ScanSys.init], by simp [ScanSys.init], ?_, ?_, ?_, ?_, ?_, ?_, ?_, ?_⟩
  · intro t w L hw hL
    simp only [ScanSys.init, List.getElem?_map, hL, Option.map_some, Option.some.injEq] at hw
    subst hw
    simp [ScanSys.init, callsOf, yield]
  · rw [hy]; simp [ScanSys.init]
  · rw [hk]; exact hnd
  · intro w h e he
    obtain ⟨L, hL, rfl⟩ := hw w h
    exact List.mem_flatten.mpr ⟨L, hL, he⟩
  · intro w h p hp
    obtain ⟨L, hL, rfl⟩ := hw w h
    cases hp
  · intro k _; rfl
  · intro k _; rfl
  · intro e he h
    rw [hk] at h
    exact absurd (List.mem_map.mpr ⟨e, he, rfl⟩) h

/-- A thread has dealt with a key and reported `r`; only this key may have changed. -/
theorem inv_done (c : Crypto Kw V) (F : Fates) (del : Bool) (edb0 : Edb V) (Ls : List (List (Nat × Leaf)))
    (hnd : (allKeys c Ls).Nodup) (s : ScanSys V) (hinv : Inv c F del edb0 Ls s) (t : Nat) (w : Worker V)
    (h : s.workers[t]? = some w) (rest : List (Nat × Leaf)) (r : List (Nat × V)) (e : Nat × Leaf)
    (hrest : ∀ e ∈ rest, e ∈ w.todo) (hsub : e ∈ Ls.flatten)
    (hkeys : w.keys c = c.token e.2 :: (⟨rest, none⟩ : Worker V).keys c)
    (hy : yield c F edb0 w = r ++ yield c F edb0 ⟨rest, none⟩) (edb' : Edb V)
    (hedb : ∀ k, k ≠ c.token e.2 → edb' k = s.edb k) (hleft : edb' (c.token e.2) = left c F del edb0 e) :
    Inv c F del edb0 Ls
      { edb := edb', workers := s.workers.set t ⟨rest, none⟩, trace := s.trace ++ r.map (fun x => (x.1, x.2, t)) } := by
  have htlt : t < Ls.length := by rw [← hinv.len]; exact (List.getElem?_eq_some_iff.mp h).1
  have hkey : c.token e.2 ∈ s.workers.flatMap (Worker.keys c) :=
    List.mem_flatMap.mpr ⟨_, List.mem_of_getElem? h, by rw [hkeys]; simp⟩
  have hpk := Counter.set_perm_flatMap s.workers t _ (⟨rest, none⟩ : Worker V) (Worker.keys c)
    [c.token e.2] h (by rw [hkeys]; simp)
  have hpy := Counter.set_perm_flatMap s.workers t _ (⟨rest, none⟩ : Worker V)
    (yield c F edb0) r h (by rw [hy])
  have hmem : ∀ k, k ∈ (s.workers.set t ⟨rest, none⟩).flatMap (Worker.keys c) →
      k ∈ s.workers.flatMap (Worker.keys c) := fun k hk =>
    hpk.symm.subset (by simp only [List.mem_append]; exact Or.inr hk)
  have hn := (hpk.nodup_iff).mp hinv.nodup
  rw [List.nodup_append] at hn
  have hcalls : ∀ t', callsOf t' (r.map (fun x => (x.1, x.2, t))) = if t = t' then r else [] := by
    intro t'
    by_cases ht : t = t'
    · subst ht; simp [callsOf, List.filter_map, Function.comp_def]
    · simp [callsOf, List.filter_map, Function.comp_def, ht]
  refine ⟨by simpa using hinv.len, ?_, ?_, ?_, hn.2.1, ?_, ?_, ?_, ?_, ?_⟩
  · intro x hx
    simp only [List.mem_append, List.mem_map] at hx
    rcases hx with hx | ⟨y, -, rfl⟩
    · exact hinv.ids x hx
    · exact htlt
  · intro t' w' L hw hL
    have happ : callsOf t' (s.trace ++ r.map (fun x => (x.1, x.2, t))) =
        callsOf t' s.trace ++ callsOf t' (r.map (fun x => (x.1, x.2, t))) := by simp [callsOf]
    show callsOf t' (s.trace ++ _) ++ _ = _
    rw [happ, hcalls]
    rcases Counter.getElem?_set_cases h hw with ⟨rfl, rfl⟩ | ⟨hne, hold⟩
    · have := hinv.calls _ _ L h hL
      rw [hy] at this
      rw [← this]; simp
    · rw [if_neg (Ne.symm hne), List.append_nil]
      exact hinv.calls t' w' L hold hL
  · refine List.Perm.trans ?_ hinv.perm
    show ((s.trace ++ r.map (fun x => (x.1, x.2, t))).map _ ++ _).Perm _
    rw [List.map_append, List.append_assoc, List.map_map]
    refine List.Perm.append_left _ ?_
    have : r.map ((fun (e : Nat × V × Nat) => (e.1, e.2.1)) ∘ fun x => (x.1, x.2, t)) = r := by
      simp [Function.comp_def]
    rw [this]
    exact hpy.symm
  · intro w' hw' x hx
    rcases List.mem_or_eq_of_mem_set hw' with hw' | rfl
    · exact hinv.todo w' hw' x hx
    · exact hinv.todo w (List.mem_of_getElem? h) x (hrest x hx)
  · intro w' hw' p hp
    rcases List.mem_or_eq_of_mem_set hw' with hw' | rfl
    · exact hinv.pending w' hw' p hp
    · cases hp
  · intro k hk
    have hne : k ≠ c.token e.2 := fun he => hn.2.2 _ (by simp) k hk he.symm
    show edb' k = _
    rw [hedb k hne]
    exact hinv.outstanding k (hmem k hk)
  · intro k hk
    have hne : k ≠ c.token e.2 := fun he => hk (he ▸ List.mem_map.mpr ⟨e, hsub, rfl⟩)
    show edb' k = _
    rw [hedb k hne]
    exact hinv.outside k hk
  · intro x hx hxk
    show edb' _ = _
    by_cases hxe : c.token x.2 = c.token e.2
    · have : x = e := List.inj_on_of_nodup_map hnd hx hsub hxe
      rw [this]; exact hleft
    · rw [hedb _ hxe]
      refine hinv.settled x hx (fun hin => ?_)
      have := hpk.subset hin
      simp only [List.mem_append, List.mem_singleton] at this
      exact this.elim hxe hxk

theorem inv_step (c : Crypto Kw V) (F : Fates) (del : Bool) (edb0 : Edb V) (Ls : List (List (Nat × Leaf)))
    (hnd : (allKeys c Ls).Nodup) (s s' : ScanSys V) (hinv : Inv c F del edb0 Ls s) (hstep : Step c F del s s') :
    Inv c F del edb0 Ls s' := by
  have hout : ∀ {t : Nat} {w : Worker V} {k : Token}, s.workers[t]? = some w → k ∈ w.keys c → s.edb k = edb0 k :=
    fun h hk => hinv.outstanding _ (List.mem_flatMap.mpr ⟨_, List.mem_of_getElem? h, hk⟩)
  cases hstep with
  | failed t i leaf rest h hf =>
    have := inv_done c F del edb0 Ls hnd s hinv t _ h rest [] (i, leaf) (by simp +contextual)
      (hinv.todo _ (List.mem_of_getElem? h) _ (by simp)) (by simp [Worker.keys])
      (by simp [yield, look, read, hf]) s.edb (fun _ _ => rfl)
      (by rw [hout h (by simp [Worker.keys])]; simp [left, hf])
    simpa using this
  | miss t i leaf rest h hf hm =>
    have h0 : edb0 (c.token leaf) = none := by rw [← hout h (by simp [Worker.keys]), hm]
    have := inv_done c F del edb0 Ls hnd s hinv t _ h rest [] (i, leaf) (by simp +contextual)
      (hinv.todo _ (List.mem_of_getElem? h) _ (by simp)) (by simp [Worker.keys])
      (by simp [yield, look, read, lookup, hf, h0]) s.edb (fun _ _ => rfl)
      (by rw [hm]; simp [left, h0])
    simpa using this
  | hit t i leaf rest v h hf hm hd =>
    have h0 : edb0 (c.token leaf) = some v := by rw [← hout h (by simp [Worker.keys]), hm]
    have := inv_done c F del edb0 Ls hnd s hinv t _ h rest [(i, c.xor v (c.mask leaf))] (i, leaf)
      (by simp +contextual)
      (hinv.todo _ (List.mem_of_getElem? h) _ (by simp)) (by simp [Worker.keys])
      (by simp [yield, look, read, lookup, hf, h0]) s.edb (fun _ _ => rfl)
      (by rw [hm]; simp [left, h0, hd])
    simpa using this
  | found t i leaf rest v h hf hm hd =>
    have h0 : edb0 (c.token leaf) = some v := by rw [← hout h (by simp [Worker.keys]), hm]
    have hy : yield c F edb0 (⟨(i, leaf) :: rest, none⟩ : Worker V) =
        yield c F edb0 (⟨rest, some (i, c.xor v (c.mask leaf), c.token leaf)⟩ : Worker V) := by
      simp [yield, look, read, lookup, hf, h0]
    have hpk := Counter.set_perm_flatMap s.workers t _
      (⟨rest, some (i, c.xor v (c.mask leaf), c.token leaf)⟩ : Worker V) (Worker.keys c)
      [] h (by simp [Worker.keys])
    have hpy := Counter.set_perm_flatMap s.workers t _
      (⟨rest, some (i, c.xor v (c.mask leaf), c.token leaf)⟩ : Worker V)
      (yield c F edb0) [] h (by rw [hy]; simp)
    rw [List.nil_append] at hpk hpy
    refine ⟨by simpa using hinv.len, hinv.ids, ?_, ?_, ?_, ?_, ?_, ?_, hinv.outside, ?_⟩
    · intro t' w L hw hL
      rcases Counter.getElem?_set_cases h hw with ⟨rfl, rfl⟩ | ⟨-, hold⟩
      · rw [← hy]; exact hinv.calls t' _ L h hL
      · exact hinv.calls t' w L hold hL
    · exact (List.Perm.append_left _ hpy.symm).trans hinv.perm
    · exact (hpk.nodup_iff).mp hinv.nodup
    · intro w hw e he
      rcases List.mem_or_eq_of_mem_set hw with hw | rfl
      · exact hinv.todo w hw e he
      · exact hinv.todo _ (List.mem_of_getElem? h) e (List.mem_cons_of_mem _ he)
    · intro w hw p hp
      rcases List.mem_or_eq_of_mem_set hw with hw | rfl
      · exact hinv.pending w hw p hp
      · simp only [Option.some.injEq] at hp
        subst hp
        exact ⟨hd, hf, leaf, hinv.todo _ (List.mem_of_getElem? h) _ (by simp), rfl⟩
    · exact fun k hk => hinv.outstanding k (hpk.symm.subset hk)
    · exact fun e he hk => hinv.settled e he (fun hin => hk (hpk.subset hin))
  | remove t i v key rest h =>
    obtain ⟨hd, hf, leaf, hl, hk⟩ := hinv.pending _ (List.mem_of_getElem? h) _ rfl
    simp only at hf hl hk
    have hs0 : s.edb (c.token leaf) = edb0 (c.token leaf) := hout h (by simp [Worker.keys, hk])
    have := inv_done c F del edb0 Ls hnd s hinv t _ h rest [(i, v)] (i, leaf) (by simp +contextual)
      hl (by simp [Worker.keys, hk])
      (by simp [yield]) (if (F i).delete then s.edb else s.edb.erase key)
      (by
        intro k hne
        split
        · rfl
        · rw [Map.erase_of_ne _ (by rw [hk]; exact hne)])
      (by
        simp only [left, hd, hf, true_and]
        by_cases hdl : (F i).delete = true
        · rw [if_pos hdl, if_neg (by simp [hdl])]; exact hs0
        · rw [if_neg hdl, if_pos (by simpa using hdl), hk]; simp)
    simpa using this

theorem inv_reachable (c : Crypto Kw V) (F : Fates) (del : Bool) (edb0 : Edb V)
    (Ls : List (List (Nat × Leaf))) (hnd : (allKeys c Ls).Nodup) (s : ScanSys V)
    (h : Relation.ReflTransGen (Step c F del) (ScanSys.init edb0 Ls) s) : Inv c F del edb0 Ls s := by
  induction h with
  | refl => exact inv_init c F del edb0 Ls hnd
  | tail _ hst ih => exact inv_step c F del edb0 Ls hnd _ _ ih hst

theorem look_values (c : Crypto Kw V) (F : Fates) (edb : Edb V) (l : List (Nat × Leaf)) :
    (l.filterMap (look c F edb)).map (·.2) = l.filterMap (read c F edb) := by
  rw [List.map_filterMap]
  apply List.filterMap_congr
  intro e _
  cases h : read c F edb e <;> simp [look, h]

/-- Everything known about a finished run -/
theorem scan_done (c : Crypto Kw V) (F : Fates) (del : Bool) (edb0 : Edb V) (Ls : List (List (Nat × Leaf)))
    (hnd : (allKeys c Ls).Nodup) (s : ScanSys V)
    (h : Relation.ReflTransGen (Step c F del) (ScanSys.init edb0 Ls) s) (hdone : s.Done) :
    (∀ (t : Nat) (L : List (Nat × Leaf)), Ls[t]? = some L → callsOf t s.trace = L.filterMap (look c F edb0)) ∧
    (s.trace.map (fun e => (e.1, e.2.1))).Perm (Ls.flatten.filterMap (look c F edb0)) ∧
    edbAfter c F del edb0 Ls.flatten s.edb ∧ (∀ e ∈ s.trace, e.2.2 < Ls.length) := by
  have hinv := inv_reachable c F del edb0 Ls hnd s h
  have hk : s.workers.flatMap (Worker.keys c) = [] := by
    rw [List.flatMap_eq_nil_iff]
    intro w hw
    obtain ⟨h1, h2⟩ := hdone w hw
    simp [Worker.keys, h1, h2]
  have hy : ∀ w ∈ s.workers, yield c F edb0 w = [] := by
    intro w hw
    obtain ⟨h1, h2⟩ := hdone w hw
    simp [yield, h1, h2]
  refine ⟨?_, ?_, ⟨?_, hinv.outside⟩, hinv.ids⟩
  · intro t L hL
    have hlt : t < s.workers.length := by
      rw [hinv.len]; exact (List.getElem?_eq_some_iff.mp hL).1
    have := hinv.calls t _ L (List.getElem?_eq_getElem hlt) hL
    rwa [hy _ (List.getElem_mem hlt), List.append_nil] at this
  · have := hinv.perm
    rwa [List.flatMap_eq_nil_iff.mpr hy, List.append_nil] at this
  · exact fun e he => hinv.settled e he (by rw [hk]; simp)

/-- Splicing the lists of the threads -/
theorem splice_eq (Ls : List (List (Nat × Leaf))) (c : Crypto Kw V) (F : Fates) (edb0 : Edb V)
    (trace : List (Nat × V × Nat)) (threads : UInt8) (hlen : Ls.length ≤ threads.toNat)
    (hc : ∀ (t : Nat) (L : List (Nat × Leaf)), Ls[t]? = some L → callsOf t trace = L.filterMap (look c F edb0))
    (hid : ∀ e ∈ trace, e.2.2 < Ls.length) :
    listResult threads trace = Ls.flatten.filterMap (read c F edb0) := by
  have hval : ∀ t, (trace.filter (fun e => e.2.2 = t)).map (fun e => e.2.1) =
      (callsOf t trace).map (·.2) := by
    intro t; simp [callsOf, Function.comp_def]
  have hsplit : listResult threads trace =
      (List.range Ls.length).flatMap (fun t => (callsOf t trace).map (·.2)) := by
    unfold listResult
    simp only [hval]
    obtain ⟨d, hd⟩ : ∃ d, threads.toNat = Ls.length + d := ⟨_, (Nat.add_sub_of_le hlen).symm⟩
    rw [hd, List.range_add, List.flatMap_append]
    have : ((List.range d).map (Ls.length + ·)).flatMap
        (fun t => (callsOf t trace).map (·.2)) = [] := by
      rw [List.flatMap_eq_nil_iff]
      intro t ht
      rw [List.mem_map] at ht
      obtain ⟨x, -, rfl⟩ := ht
      simp only [callsOf, List.map_map, List.map_eq_nil_iff, List.filter_eq_nil_iff,
        decide_eq_true_eq]
      intro e he h
      have := hid e he
      omega
    rw [this, List.append_nil]
  rw [hsplit, ← look_values, List.filterMap_flatten, List.map_flatten, List.flatMap_def]
  congr 1
  apply List.ext_getElem
  · simp
  · intro t h1 h2
    simp only [List.getElem_map, List.getElem_range]
    have hlt : t < Ls.length := by simpa using h1
    rw [hc t _ (List.getElem?_eq_getElem hlt)]

/-! ## Requests -/

/-- The request of a client whose counter says `n` -/
theorem request (c : Crypto Kw V) (m : Map Kw UInt32) (w : Kw) (n : Nat) (hm : m w = Counter.counterOf n)
    (hn : n < 2 ^ 32) :
    (searchRequest c m w).addCount.toNat = n ∧
    (0 < n → (searchRequest c m w).rcprf = c.constrain (c.root (c.hash w)) 0 (n - 1)) := by
  by_cases h0 : n = 0
  · subst h0
    simp [searchRequest, Counter.get, hm, Counter.counterOf]
  · have h1 : (UInt32.ofNat (n - 1)).toNat = n - 1 := by simp [UInt32.toNat_ofNat']; omega
    simp only [searchRequest, Counter.get, hm, Counter.counterOf, h0, if_false]
    refine ⟨?_, fun _ => by rw [h1]⟩
    rw [UInt32.toNat_add, h1]; simp; omega

theorem jobs_leaves (c : Crypto Kw V) (m : Map Kw UInt32) (w : Kw) (n : Nat) (hm : m w = Counter.counterOf n)
    (hn : n < 2 ^ 32) (threads : UInt8) (ht : threads ≠ 0) :
    ∃ Ls, jobs c (searchRequest c m w) threads = some Ls ∧ Ls.flatten = leavesOf c w n ∧
      Ls.length ≤ threads.toNat := by
  obtain ⟨ha, hr⟩ := request c m w n hm hn
  by_cases h0 : n = 0
  · subst h0
    have : (searchRequest c m w).addCount = 0 := UInt32.toNat_inj.mp (by simpa using ha)
    exact ⟨[], by rw [jobs, if_pos this], by simp [leavesOf], by simp⟩
  · exact jobs_eq c _ w n (by omega) hn ha (hr (by omega)) threads ht

theorem search_leaves (c : Crypto Kw V) (F : Fates) (edb : Edb V) (m : Map Kw UInt32) (w : Kw) (n : Nat)
    (hm : m w = Counter.counterOf n) (hn : n < 2 ^ 32) (del : Bool) :
    search c F edb (searchRequest c m w) del = some (searchLoop c F del edb (leavesOf c w n)) := by
  obtain ⟨ha, hr⟩ := request c m w n hm hn
  unfold search
  by_cases h0 : n = 0
  · subst h0
    have : (searchRequest c m w).addCount = 0 := UInt32.toNat_inj.mp (by simpa using ha)
    rw [if_pos this]
    simp [leavesOf, searchLoop]
  · have h0' : (searchRequest c m w).addCount ≠ 0 := by
      intro h; rw [h] at ha; simp at ha; omega
    rw [if_neg h0', hr (by omega), c.maxLeaf_constrain _ _ (by omega),
      evalRange_eq c _ (n - 1) 0 (n - 1) (by omega) (by omega) (by omega)]
    have : n - 1 + 1 - 0 = n := by omega
    rw [this, ← List.range_eq_range']
    rfl

theorem leaf_positions (c : Crypto Kw V) (F : Fates) (edb : Edb V) (w : Kw) (n : Nat) :
    (((leavesOf c w n).filterMap (look c F edb)).map (·.1)).Nodup := by
  have hsub : (((leavesOf c w n).filterMap (look c F edb)).map (·.1)).Sublist (List.range n) := by
    unfold leavesOf
    induction List.range n with
    | nil => simp
    | cons a l ih =>
      simp only [List.map_cons, List.filterMap_cons]
      cases h : look c F edb (a, c.eval (c.root (c.hash w)) a) with
      | none => exact ih.cons _
      | some p =>
        have : p.1 = a := by
          unfold look at h
          cases hr : read c F edb (a, c.eval (c.root (c.hash w)) a) with
          | none => simp [hr] at h
          | some v => simp [hr] at h; rw [← h]
        simp only [List.map_cons, this]
        exact ih.cons_cons _
  exact hsub.nodup List.nodup_range

/-- The vector after a search -/
theorem vector_spec (zero : V) (cnt : UInt32) (given : List V) (trace : List (Nat × V × Nat))
    (found : Nat → Option V) (hnd : (trace.map (·.1)).Nodup)
    (hmem : ∀ j v, (j, v) ∈ trace.map (fun e => (e.1, e.2.1)) ↔ j < cnt.toNat ∧ found j = some v) :
    (vectorResult zero cnt given trace).length = max given.length cnt.toNat ∧
    (∀ i, i < cnt.toNat → (vectorResult zero cnt given trace)[i]? =
      some ((found i).getD (given.getD i zero))) ∧
    ∀ i, cnt.toNat ≤ i → (vectorResult zero cnt given trace)[i]? = given[i]? := by
  unfold vectorResult
  have hlen : (if given.length < cnt.toNat
      then given ++ List.replicate (cnt.toNat - given.length) zero else given).length =
      max given.length cnt.toNat := by
    split
    · rw [List.length_append, List.length_replicate]; omega
    · omega
  obtain ⟨f1, f2, f3⟩ := vector_fold trace hnd (if given.length < cnt.toNat
      then given ++ List.replicate (cnt.toNat - given.length) zero else given)
  have hpos : ∀ e ∈ trace, e.1 < cnt.toNat ∧ found e.1 = some e.2.1 := fun e he =>
    (hmem e.1 e.2.1).mp (List.mem_map.mpr ⟨e, he, rfl⟩)
  refine ⟨by rw [f1, hlen], ?_, ?_⟩
  · intro i hi
    cases hl : found i with
    | some v =>
      obtain ⟨e, he, hev⟩ := List.mem_map.mp ((hmem i v).mpr ⟨hi, hl⟩)
      have e1 : e.1 = i := (Prod.mk.inj hev).1
      have e2 : e.2.1 = v := (Prod.mk.inj hev).2
      have := f2 e he (by rw [hlen]; omega)
      rw [e1, e2] at this
      simpa using this
    | none =>
      rw [f3 i]
      · simp only [Option.getD_none, List.getD_eq_getElem?_getD]
        split
        · by_cases hr : i < given.length
          · rw [List.getElem?_append_left hr, List.getElem?_eq_getElem hr]; rfl
          · rw [List.getElem?_append_right (by omega), List.getElem?_eq_none (l := given) (by omega),
              List.getElem?_replicate, if_pos (by omega)]
            rfl
        · have hr : i < given.length := by omega
          rw [List.getElem?_eq_getElem hr]; rfl
      · intro e he hei
        have := (hpos e he).2
        rw [hei, hl] at this
        cases this
  · intro i hi
    rw [f3 i]
    · split
      · rw [List.getElem?_eq_none (by rw [List.length_append, List.length_replicate]; omega),
          List.getElem?_eq_none (by omega)]
      · rfl
    · intro e he hei
      have := (hpos e he).1
      omega

/-! ## Refinement -/

/-- The server holds the documents of the specification. -/
structure Rel (c : Crypto Kw V) (B : Kw → Nat) (s : Sys Kw V) (S : Spec.State Kw V) : Prop where
  counters : ∀ w, s.counters w = Counter.counterOf (S.count w)
  edb : ∀ w a, a < B w → s.edb (updateToken c w a) =
    (S.doc w a).map (fun v => c.xor v (c.mask (c.eval (c.root (c.hash w)) a)))

theorem rel_init (c : Crypto Kw V) (B : Kw → Nat) : Rel c B Sys.init Spec.State.init := by
  constructor
  · intro w; simp [Sys.init, Spec.State.init, Counter.counterOf]
  · intro w a _; simp [Sys.init, Spec.State.init]

theorem rel_insert (c : Crypto Kw V) (B : Kw → Nat) (hnc : NoCollision c B) (s : Sys Kw V) (S : Spec.State Kw V)
    (h : Rel c B s S) (w : Kw) (i : V) (delivered : Bool) (hB : S.count w < B w) (hB2 : B w < 2 ^ 32) :
    Rel c B
      { counters := (insertionRequest c s.counters w i).2
        edb := if delivered then serverInsert s.edb (insertionRequest c s.counters w i).1 else s.edb }
      (S.next (.insert w i delivered)) := by
  have hg := Counter.getAndIncrement_spec s.counters w _ (h.counters w)
  have h1 : (UInt32.ofNat (S.count w)).toNat = S.count w := by simp [UInt32.toNat_ofNat']; omega
  constructor
  · intro v
    simp only [insertionRequest, hg, Spec.State.next]
    by_cases hv : v = w
    · subst hv; simp [Counter.counterOf]
    · rw [Map.put_of_ne _ _ hv, h.counters v, if_neg hv]
  · intro v a ha
    cases delivered with
    | false => simpa [Spec.State.next] using h.edb v a ha
    | true =>
      simp only [insertionRequest, hg, serverInsert, requestFor, h1, if_true, Map.put_apply, Spec.State.next,
        true_and]
      have htok : updateToken c v a = c.token (c.eval (c.root (c.hash w)) (S.count w)) ↔
          v = w ∧ a = S.count w :=
        ⟨fun he => hnc v a w _ ha hB he, fun he => by rw [he.1, he.2]; rfl⟩
      by_cases hva : v = w ∧ a = S.count w
      · rw [if_pos (htok.mpr hva), if_pos hva]
        obtain ⟨rfl, rfl⟩ := hva
        rfl
      · rw [if_neg (fun he => hva (htok.mp he)), if_neg hva, h.edb v a ha]

theorem rel_forget (c : Crypto Kw V) (B : Kw → Nat) (s : Sys Kw V) (S : Spec.State Kw V)
    (h : Rel c B s S) (w : Kw) :
    Rel c B { s with counters := removeKeyword s.counters w } (S.next (.forget w)) := by
  constructor
  · intro v
    by_cases hv : v = w
    · subst hv; simp [removeKeyword, Counter.removeKey, Spec.State.next, Counter.counterOf]
    · simp only [removeKeyword, Counter.removeKey, Spec.State.next, hv, if_false]
      rw [Map.erase_of_ne _ hv, h.counters v]
  · exact h.edb

theorem read_doc (c : Crypto Kw V) (B : Kw → Nat) (F : Fates) (s : Sys Kw V) (S : Spec.State Kw V)
    (h : Rel c B s S) (w : Kw) (a : Nat) (ha : a < B w) :
    read c F s.edb (a, c.eval (c.root (c.hash w)) a) = if (F a).get then none else S.doc w a := by
  unfold read
  have := h.edb w a ha
  unfold updateToken at this
  simp only [lookup, this, Option.map_map, Function.comp_def, c.xor_xor]
  simp

theorem filterMap_read (c : Crypto Kw V) (B : Kw → Nat) (F : Fates) (s : Sys Kw V) (S : Spec.State Kw V)
    (h : Rel c B s S) (w : Kw) (hB : S.count w ≤ B w) :
    (leavesOf c w (S.count w)).filterMap (read c F s.edb) = (S.seen F w).filterMap id := by
  rw [leavesOf, List.filterMap_map, Spec.State.seen, List.filterMap_map]
  apply List.filterMap_congr
  intro a ha
  rw [List.mem_range] at ha
  simp only [Function.comp, read_doc c B F s S h w a (by omega), id]

theorem rel_after (c : Crypto Kw V) (B : Kw → Nat) (hnc : NoCollision c B) (F : Fates) (del : Bool) (s : Sys Kw V)
    (S : Spec.State Kw V) (h : Rel c B s S) (w : Kw) (k : Kind V) (hB : S.count w ≤ B w) (edb' : Edb V)
    (he : edbAfter c F del s.edb (leavesOf c w (S.count w)) edb') :
    Rel c B { s with edb := edb' } (S.next (.search w k del F)) := by
  refine ⟨h.counters, ?_⟩
  intro v a ha
  show edb' (updateToken c v a) = _
  simp only [Spec.State.next]
  by_cases hva : v = w ∧ a < S.count w
  · obtain ⟨rfl, hlt⟩ := hva
    have hm : (a, c.eval (c.root (c.hash v)) a) ∈ leavesOf c v (S.count v) := by
      simp only [leavesOf, List.mem_map, List.mem_range]; exact ⟨a, hlt, rfl⟩
    have := he.1 _ hm
    simp only [left] at this
    have hu : c.token (c.eval (c.root (c.hash v)) a) = updateToken c v a := rfl
    rw [hu] at this
    rw [this]
    by_cases hc : del = true ∧ (F a).get = false ∧ (F a).delete = false
    · rw [if_pos hc, if_pos ⟨hc.1, rfl, hlt, hc.2⟩]; rfl
    · rw [if_neg hc, if_neg (fun hx => hc ⟨hx.1, hx.2.2.2⟩)]; exact h.edb v a ha
  · rw [if_neg (fun hx => hva ⟨hx.2.1, hx.2.2.1⟩), he.2, h.edb v a ha]
    rw [tokens_leavesOf]
    intro hin
    obtain ⟨b, hb, hbe⟩ := List.mem_map.mp hin
    rw [List.mem_range] at hb
    obtain ⟨rfl, rfl⟩ := hnc w b v a (by omega) ha hbe
    exact hva ⟨rfl, hb⟩

/-- A search -/
theorem search_spec (c : Crypto Kw V) (B : Kw → Nat) (hnc : NoCollision c B) (zero : V) (F : Fates) (del : Bool)
    (s : Sys Kw V) (S : Spec.State Kw V) (h : Rel c B s S) (w : Kw) (k : Kind V) (hk : k.Ok)
    (hB : S.count w ≤ B w) (hB2 : B w < 2 ^ 32) (out : List V) (edb' : Edb V)
    (hs : Search c zero F s.edb (searchRequest c s.counters w) del out edb' k) :
    Spec.Results zero (S.seen F w) out k ∧ edbAfter c F del s.edb (leavesOf c w (S.count w)) edb' := by
  have hm := h.counters w
  have hn : S.count w < 2 ^ 32 := by omega
  have hnd := nodup_tokens c B hnc w _ hB
  have hpar : ∀ (t : UInt8) (trace : List (Nat × V × Nat)), t ≠ 0 →
      Parallel c F s.edb (searchRequest c s.counters w) t del trace edb' →
      edbAfter c F del s.edb (leavesOf c w (S.count w)) edb' ∧
      listResult t trace = (S.seen F w).filterMap id ∧
      (trace.map (fun e => (e.1, e.2.1))).Perm ((leavesOf c w (S.count w)).filterMap (look c F s.edb)) := by
    rintro t trace ht ⟨Ls, s', hj, hr, hd, rfl, rfl⟩
    obtain ⟨Ls', hj', hfl, hlen⟩ := jobs_leaves c s.counters w _ hm hn t ht
    rw [hj] at hj'
    cases hj'
    obtain ⟨d1, d2, d3, d4⟩ := scan_done c F del s.edb Ls (by rw [allKeys, hfl]; exact hnd) s' hr hd
    rw [hfl] at d2 d3
    refine ⟨d3, ?_, d2⟩
    rw [splice_eq Ls c F s.edb s'.trace t hlen d1 d4, hfl, filterMap_read c B F s S h w hB]
  cases k with
  | sequential =>
    simp only [Search, search_leaves c F s.edb s.counters w _ hm hn del, Option.some.injEq] at hs
    obtain ⟨l1, l2⟩ := searchLoop_eq c F del _ s.edb hnd
    rw [hs] at l1 l2
    exact ⟨l1.trans (filterMap_read c B F s S h w hB), l2⟩
  | list t =>
    obtain ⟨trace, hp, rfl⟩ := hs
    obtain ⟨p1, p2, -⟩ := hpar t trace hk hp
    exact ⟨p2, p1⟩
  | callback t =>
    obtain ⟨trace, hp, rfl⟩ := hs
    obtain ⟨p1, -, p3⟩ := hpar t trace hk hp
    refine ⟨?_, p1⟩
    have := p3.map (·.2)
    rw [look_values, filterMap_read c B F s S h w hB, List.map_map] at this
    exact this
  | vector t given =>
    obtain ⟨trace, hp, rfl⟩ := hs
    obtain ⟨p1, -, p3⟩ := hpar t trace hk hp
    refine ⟨?_, p1⟩
    have hcnt := (request c s.counters w _ hm hn).1
    have hlen : (S.seen F w).length = S.count w := by simp [Spec.State.seen]
    have := vector_spec zero (searchRequest c s.counters w).addCount given trace
      (fun j => if (F j).get then none else S.doc w j)
      (by
        have := (p3.map (·.1)).nodup_iff.mpr (leaf_positions c F s.edb w _)
        rwa [List.map_map] at this)
      (by
        intro j v
        rw [p3.mem_iff, List.mem_filterMap, hcnt]
        constructor
        · rintro ⟨e, he, hl⟩
          simp only [leavesOf, List.mem_map, List.mem_range] at he
          obtain ⟨a, ha, rfl⟩ := he
          unfold look at hl
          rw [read_doc c B F s S h w a (by omega)] at hl
          cases hd : (if (F a).get then none else S.doc w a) with
          | none => rw [hd] at hl; cases hl
          | some u =>
            rw [hd] at hl
            simp only [Option.map_some, Option.some.injEq, Prod.mk.injEq] at hl
            obtain ⟨rfl, rfl⟩ := hl
            exact ⟨ha, hd⟩
        · rintro ⟨h1, h2⟩
          refine ⟨(j, c.eval (c.root (c.hash w)) j), ?_, ?_⟩
          · simp only [leavesOf, List.mem_map, List.mem_range]; exact ⟨j, h1, rfl⟩
          · unfold look
            rw [read_doc c B F s S h w j (by omega), h2]; rfl)
    rw [hcnt] at this
    refine ⟨by rw [hlen]; exact this.1, ?_, by rw [hlen]; exact this.2.2⟩
    intro i hi
    rw [hlen] at hi
    rw [this.2.1 i hi]
    simp [Spec.State.seen, hi]

theorem exec_spec (c : Crypto Kw V) (B : Kw → Nat) (hnc : NoCollision c B) (hB2 : ∀ w, B w < 2 ^ 32) (zero : V)
    (s s' : Sys Kw V) (S : Spec.State Kw V) (h : Rel c B s S) (op : Op Kw V) (hk : op.Ok)
    (hB : ∀ w, S.count w + Spec.insertions w [op] ≤ B w) (o : Option (List V)) (he : Exec c zero s op s' o) :
    Rel c B s' (S.next op) := by
  cases he with
  | insert w i delivered =>
    refine rel_insert c B hnc s S h w i delivered ?_ (hB2 w)
    have := hB w
    simp [Spec.insertions] at this
    omega
  | search w kind del F out edb' hs =>
    have hw : S.count w ≤ B w := by have := hB w; omega
    exact rel_after c B hnc F del s S h w kind hw edb'
      (search_spec c B hnc zero F del s S h w kind hk hw (hB2 w) out edb' hs).2
  | forget w => exact rel_forget c B s S h w

theorem count_next (S : Spec.State Kw V) (op : Op Kw V) (w : Kw) :
    (S.next op).count w ≤ S.count w + Spec.insertions w [op] := by
  cases op with
  | insert v i d =>
    by_cases hv : w = v
    · subst hv; simp [Spec.State.next, Spec.insertions]
    · simp [Spec.State.next, Spec.insertions, hv, Ne.symm hv]
  | search v k d F => simp [Spec.State.next]
  | forget v => simp only [Spec.State.next]; split <;> omega

theorem insertions_cons (w : Kw) (op : Op Kw V) (ops : List (Op Kw V)) :
    Spec.insertions w (op :: ops) = Spec.insertions w [op] + Spec.insertions w ops := by
  have : op :: ops = [op] ++ ops := rfl
  rw [this, Spec.insertions, List.countP_append]
  rfl

theorem run_spec (c : Crypto Kw V) (B : Kw → Nat) (hnc : NoCollision c B) (hB2 : ∀ w, B w < 2 ^ 32) (zero : V)
    (ops : List (Op Kw V)) (s s' : Sys Kw V) (S : Spec.State Kw V) (h : Rel c B s S) (hk : ∀ op ∈ ops, op.Ok)
    (hB : ∀ w, S.count w + Spec.insertions w ops ≤ B w) (outs : List (List V)) (hr : Run c zero s ops s' outs) :
    Spec.Answers zero S ops outs ∧ Rel c B s' (S.after ops) := by
  induction hr generalizing S with
  | nil s => exact ⟨rfl, h⟩
  | @cons s s1 s2 op ops o outs he ht ih =>
    have hB1 : ∀ w, S.count w + Spec.insertions w [op] ≤ B w := by
      intro w
      have := hB w
      rw [insertions_cons] at this
      omega
    have hok : op.Ok := hk op (by simp)
    have h1 := exec_spec c B hnc hB2 zero s s1 S h op hok hB1 o he
    obtain ⟨i1, i2⟩ := ih (S.next op) h1 (fun x hx => hk x (by simp [hx])) (by
      intro w
      have h1 := hB w
      have h2 := count_next S op w
      rw [insertions_cons] at h1
      omega)
    refine ⟨?_, i2⟩
    cases he with
    | insert w i d => exact i1
    | search w kind del F out edb' hs =>
      have hw : S.count w ≤ B w := by have := hB1 w; omega
      exact ⟨out, outs, rfl, (search_spec c B hnc zero F del s S h w kind hok hw (hB2 w) out edb' hs).1, i1⟩
    | forget w => exact i1

/-! ## Searches end -/

theorem weight_step (c : Crypto Kw V) (F : Fates) (del : Bool) {s s' : ScanSys V} (h : Step c F del s s') :
    s'.weight < s.weight := by
  have key : ∀ (t : Nat) (a b : Worker V), s.workers[t]? = some a →
      2 * b.todo.length + (if b.pending.isSome then 1 else 0) <
        2 * a.todo.length + (if a.pending.isSome then 1 else 0) →
      ((s.workers.set t b).map
        (fun w => 2 * w.todo.length + (if w.pending.isSome then 1 else 0))).sum <
      (s.workers.map (fun w => 2 * w.todo.length + (if w.pending.isSome then 1 else 0))).sum := by
    intro t a b ha hlt
    rw [List.map_set]
    have := sum_set (s.workers.map (fun w => 2 * w.todo.length +
      (if w.pending.isSome then 1 else 0))) t _
      (2 * b.todo.length + (if b.pending.isSome then 1 else 0)) (by rw [List.getElem?_map, ha]; rfl)
    simp only at this
    omega
  cases h with
  | failed t i leaf rest h hf => exact key t _ _ h (by simp)
  | miss t i leaf rest h hf hm => exact key t _ _ h (by simp)
  | hit t i leaf rest v h hf hm hd => exact key t _ _ h (by simp)
  | found t i leaf rest v h hf hm hd => exact key t _ _ h (by simp; omega)
  | remove t i v k rest h => exact key t _ _ h (by simp)

theorem progress (c : Crypto Kw V) (F : Fates) (del : Bool) (s : ScanSys V) (h : ¬ s.Done) :
    ∃ s', Step c F del s s' := by
  unfold ScanSys.Done at h
  simp only [not_forall] at h
  obtain ⟨w, hw, hnd⟩ := h
  obtain ⟨t, ht⟩ := List.getElem?_of_mem hw
  obtain ⟨todo, pending⟩ := w
  cases pending with
  | some p =>
    obtain ⟨i, v, key⟩ := p
    exact ⟨_, Step.remove t i v key todo ht⟩
  | none =>
    cases todo with
    | nil => simp at hnd
    | cons e rest =>
      obtain ⟨i, leaf⟩ := e
      cases hf : (F i).get with
      | true => exact ⟨_, Step.failed t i leaf rest ht hf⟩
      | false =>
        cases hm : s.edb (c.token leaf) with
        | none => exact ⟨_, Step.miss t i leaf rest ht hf hm⟩
        | some v =>
          cases del with
          | false => exact ⟨_, Step.hit t i leaf rest v ht hf hm rfl⟩
          | true => exact ⟨_, Step.found t i leaf rest v ht hf hm rfl⟩

theorem parallel_ends (c : Crypto Kw V) (F : Fates) (edb : Edb V) (m : Map Kw UInt32) (w : Kw)
    (threads : UInt8) (ht : threads ≠ 0) (del : Bool) :
    ∃ trace edb', Parallel c F edb (searchRequest c m w) threads del trace edb' := by
  have hjobs : ∃ Ls, jobs c (searchRequest c m w) threads = some Ls := by
    rcases searchRequest_cases c m w with h0 | ⟨n, hn, hn2, ha, hr⟩
    · exact ⟨[], by rw [jobs, if_pos h0]⟩
    · obtain ⟨Ls, h, -⟩ := jobs_eq c _ w n hn hn2 ha hr threads ht
      exact ⟨Ls, h⟩
  obtain ⟨Ls, hL⟩ := hjobs
  have hend : ∀ k (s : ScanSys V), s.weight ≤ k →
      ∃ s', Relation.ReflTransGen (Step c F del) s s' ∧ s'.Done := by
    intro k
    induction k with
    | zero =>
      intro s hk
      by_cases hd : s.Done
      · exact ⟨s, .refl, hd⟩
      · obtain ⟨s', hs'⟩ := progress c F del s hd
        have := weight_step c F del hs'
        omega
    | succ k ih =>
      intro s hk
      by_cases hd : s.Done
      · exact ⟨s, .refl, hd⟩
      · obtain ⟨s', hs'⟩ := progress c F del s hd
        have := weight_step c F del hs'
        obtain ⟨s'', h1, h2⟩ := ih s' (by omega)
        exact ⟨s'', h1.head hs', h2⟩
  obtain ⟨s, h1, h2⟩ := hend _ (ScanSys.init edb Ls) (Nat.le_refl _)
  exact ⟨_, _, Ls, s, hL, h1, h2, rfl, rfl⟩

end Verif.Diana.Kinds
