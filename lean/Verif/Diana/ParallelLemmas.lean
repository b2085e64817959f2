import Verif.Diana.Lemmas
import Verif.Common.ListLemmas
import Mathlib.Logic.Relation
import Mathlib.Data.List.Perm.Basic

/-! # Lemmas on the parallel Diana searches -/

set_option linter.unusedSectionVars false

namespace Verif.Diana

open Verif

variable {Kw V : Type} [DecidableEq Kw]

/-! ## The partition -/

/-- First position of thread `t`. -/
def lo (step rem t : Nat) : Nat := t * step + Nat.min t rem

theorem lo_succ (step rem t : Nat) :
    lo step rem (t + 1) = (if t < rem then lo step rem t + step + 1 else lo step rem t + step) := by
  unfold lo
  rw [Nat.succ_mul]
  by_cases h : t < rem
  · have h1 : Nat.min (t + 1) rem = t + 1 := Nat.min_eq_left (by omega)
    have h2 : Nat.min t rem = t := Nat.min_eq_left (by omega)
    rw [h1, h2, if_pos h]; omega
  · have h1 : Nat.min (t + 1) rem = rem := Nat.min_eq_right (by omega)
    have h2 : Nat.min t rem = rem := Nat.min_eq_right (by omega)
    rw [h1, h2, if_neg h]; omega

theorem lo_mono (step rem : Nat) {a b : Nat} (h : a ≤ b) : lo step rem a ≤ lo step rem b := by
  induction b with
  | zero => have : a = 0 := by omega
            subst this; exact Nat.le_refl _
  | succ b ih =>
    by_cases hab : a = b + 1
    · subst hab; exact Nat.le_refl _
    · have := ih (by omega)
      rw [lo_succ]; split <;> omega

theorem lo_top (n tc : Nat) (h : 0 < tc) : lo (n / tc) (n % tc) tc = n := by
  unfold lo
  have h1 : Nat.min tc (n % tc) = n % tc := Nat.min_eq_right (Nat.le_of_lt (Nat.mod_lt _ h))
  rw [h1]
  exact Nat.div_add_mod n tc

theorem splitLoop_eq (n tc : Nat) (h : 0 < tc) (k t : Nat) (hk : t + k = tc) :
    splitLoop n (n / tc) (n % tc) k t (lo (n / tc) (n % tc) t)
        (lo (n / tc) (n % tc) t + n / tc) =
      (List.range' t k).map (fun t => (lo (n / tc) (n % tc) t, lo (n / tc) (n % tc) (t + 1) - 1))
    := by
  induction k generalizing t with
  | zero => rfl
  | succ k ih =>
    have hmx : (if t < n % tc then lo (n / tc) (n % tc) t + n / tc + 1
        else lo (n / tc) (n % tc) t + n / tc) = lo (n / tc) (n % tc) (t + 1) := (lo_succ _ _ _).symm
    have hle : lo (n / tc) (n % tc) (t + 1) ≤ n := by
      have := lo_mono (n / tc) (n % tc) (show t + 1 ≤ tc by omega)
      rwa [lo_top n tc h] at this
    rw [splitLoop]
    simp only [hmx]
    rw [ih (t + 1) (by omega), List.range'_succ, List.map_cons,
      show Nat.min (lo (n / tc) (n % tc) (t + 1)) n = _ from Nat.min_eq_left hle]

theorem flatMap_range'_lo (step rem tc : Nat) :
    (List.range tc).flatMap (fun t => List.range' (lo step rem t) (lo step rem (t + 1) - lo step rem t))
      = List.range (lo step rem tc) := by
  induction tc with
  | zero => simp [lo]
  | succ tc ih =>
    rw [List.range_succ, List.flatMap_append, ih]
    simp only [List.flatMap_cons, List.flatMap_nil, List.append_nil]
    have hle := lo_mono step rem (Nat.le_succ tc)
    rw [List.range_eq_range', List.range_eq_range']
    have := List.range'_append (s := 0) (m := lo step rem tc)
      (n := lo step rem (tc + 1) - lo step rem tc) (step := 1)
    simp only [Nat.one_mul, Nat.zero_add] at this
    rw [this]
    congr 1
    have : lo step rem tc ≤ lo step rem (tc + 1) := hle
    omega

/-- Number of threads actually launched. -/
def effective (threadsCount : UInt8) (n : Nat) : Nat :=
  Nat.min (Nat.min threadsCount.toNat n) 0xFF

theorem effective_pos {threadsCount : UInt8} {n : Nat} (ht : threadsCount ≠ 0) (hn : 0 < n) :
    0 < effective threadsCount n ∧ effective threadsCount n ≤ n ∧
      effective threadsCount n ≤ threadsCount.toNat := by
  have h1 : threadsCount.toNat ≠ 0 := fun h => ht (UInt8.toNat_inj.mp h)
  unfold effective
  simp only [Nat.min_def]
  split <;> split <;> omega

theorem ranges_eq (threadsCount : UInt8) (addCount : UInt32) (ht : threadsCount ≠ 0)
    (hn : 0 < addCount.toNat) :
    ranges threadsCount addCount = some
      ((List.range (effective threadsCount addCount.toNat)).map (fun t =>
        (lo (addCount.toNat / effective threadsCount addCount.toNat)
          (addCount.toNat % effective threadsCount addCount.toNat) t,
         lo (addCount.toNat / effective threadsCount addCount.toNat)
          (addCount.toNat % effective threadsCount addCount.toNat) (t + 1) - 1))) := by
  obtain ⟨h1, h2, h3⟩ := effective_pos (n := addCount.toNat) ht hn
  unfold ranges
  have he : Nat.min (Nat.min threadsCount.toNat addCount.toNat) 0xFF =
    effective threadsCount addCount.toNat := rfl
  simp only [he]
  rw [if_neg (by omega)]
  have := splitLoop_eq addCount.toNat _ h1 (effective threadsCount addCount.toNat) 0 (by omega)
  have h0 : ∀ a b, lo a b 0 = 0 := by intro a b; simp [lo]
  rw [h0, Nat.zero_add] at this
  rw [this, List.range_eq_range']

/-- The jobs of the threads, put end to end, are the leaves of the sequential search. -/
theorem jobs_eq (c : Crypto Kw V) (req : SearchReq c) (w : Kw) (n : Nat) (hn : 0 < n)
    (hn2 : n < 2 ^ 32) (ha : req.addCount.toNat = n)
    (hr : req.rcprf = c.constrain (c.root (c.hash w)) 0 (n - 1)) (threadsCount : UInt8)
    (ht : threadsCount ≠ 0) :
    ∃ Ls, jobs c req threadsCount = some Ls ∧ Ls.flatten = leavesOf c w n ∧
      Ls.length ≤ threadsCount.toNat := by
  have h0 : req.addCount ≠ 0 := by
    intro h; rw [h] at ha; simp at ha; omega
  obtain ⟨h1, h2, h3⟩ := effective_pos (n := n) ht hn
  unfold jobs
  rw [if_neg h0, ranges_eq _ _ ht (by omega), Option.bind_some, hr, ha]
  rw [mapM_eq_some_map _ _ (fun p => (List.range' p.1 (p.2 + 1 - p.1)).map
    (fun i => (i, c.eval (c.root (c.hash w)) i)))]
  · refine ⟨_, rfl, ?_, by simpa using h3⟩
    rw [List.map_map, leavesOf]
    have := flatMap_range'_lo (n / effective threadsCount n) (n % effective threadsCount n)
      (effective threadsCount n)
    rw [lo_top n _ h1] at this
    rw [← this, List.map_flatMap, List.flatMap_def]
    congr 1
    apply List.map_congr_left
    intro t _
    simp only [Function.comp]
    have hs : 1 ≤ n / effective threadsCount n := (Nat.one_le_div_iff h1).mpr h2
    have := lo_succ (n / effective threadsCount n) (n % effective threadsCount n) t
    congr 2
    split at this <;> omega
  · intro p hp
    rw [List.mem_map] at hp
    obtain ⟨t, ht', rfl⟩ := hp
    rw [List.mem_range] at ht'
    have hs : 1 ≤ n / effective threadsCount n := (Nat.one_le_div_iff h1).mpr h2
    have e1 := lo_succ (n / effective threadsCount n) (n % effective threadsCount n) t
    have e2 := lo_mono (n / effective threadsCount n) (n % effective threadsCount n)
      (show t + 1 ≤ effective threadsCount n by omega)
    rw [lo_top n _ h1] at e2
    apply evalRange_eq
    · omega
    · simp only; split at e1 <;> omega
    · simp only; omega

/-! ## The threads -/

/-- Lookup with the position kept. -/
def look (c : Crypto Kw V) (edb : Edb V) (e : Nat × Leaf) : Option (Nat × V) :=
  (lookup c edb e.2).map (fun v => (e.1, v))

/-- What a thread has yet to report, as seen from the initial database. -/
def Worker.yield (c : Crypto Kw V) (edb0 : Edb V) (w : Worker V) : List (Nat × V) :=
  (w.pending.toList.map (fun p => (p.1, p.2.1))) ++ w.todo.filterMap (look c edb0)

/-- Keys a thread will still read or remove. -/
def Worker.keys (c : Crypto Kw V) (w : Worker V) : List Token :=
  (w.pending.toList.map (fun p => p.2.2)) ++ w.todo.map (fun e => c.token e.2)

/-- All keys of the jobs. -/
def allKeys (c : Crypto Kw V) (Ls : List (List (Nat × Leaf))) : List Token :=
  Ls.flatten.map (fun e => c.token e.2)

/-- Calls made by thread `t`. -/
def callsOf (t : Nat) (trace : List (Nat × V × Nat)) : List (Nat × V) :=
  (trace.filter (fun e => e.2.2 = t)).map (fun e => (e.1, e.2.1))

structure ScanInv (c : Crypto Kw V) (del : Bool) (edb0 : Edb V) (Ls : List (List (Nat × Leaf)))
    (s : ScanSys V) : Prop where
  len : s.workers.length = Ls.length
  calls : ∀ (t : Nat) (w : Worker V) (L : List (Nat × Leaf)), s.workers[t]? = some w →
    Ls[t]? = some L → callsOf t s.trace ++ w.yield c edb0 = L.filterMap (look c edb0)
  perm : (s.trace.map (fun e => (e.1, e.2.1)) ++ s.workers.flatMap (Worker.yield c edb0)).Perm
    (Ls.flatten.filterMap (look c edb0))
  keep : del = false → s.edb = edb0 ∧ ∀ w ∈ s.workers, w.pending = none
  nodup : del = true → (s.workers.flatMap (Worker.keys c)).Nodup
  sub : ∀ k ∈ s.workers.flatMap (Worker.keys c), k ∈ allKeys c Ls
  outstanding : ∀ k ∈ s.workers.flatMap (Worker.keys c), s.edb k = edb0 k
  outside : ∀ k, k ∉ allKeys c Ls → s.edb k = edb0 k
  gone : del = true → ∀ k ∈ allKeys c Ls, k ∉ s.workers.flatMap (Worker.keys c) → s.edb k = none

theorem callsOf_snoc (t t' : Nat) (trace : List (Nat × V × Nat)) (i : Nat) (v : V) :
    callsOf t (trace ++ [(i, v, t')]) = callsOf t trace ++ (if t' = t then [(i, v)] else []) := by
  by_cases h : t' = t <;> simp [callsOf, h]

theorem scanInv_init (c : Crypto Kw V) (del : Bool) (edb0 : Edb V)
    (Ls : List (List (Nat × Leaf))) (hnd : del = true → (allKeys c Ls).Nodup) :
    ScanInv c del edb0 Ls (ScanSys.init edb0 Ls) := by
  have hk : (ScanSys.init edb0 Ls).workers.flatMap (Worker.keys c) = allKeys c Ls := by
    simp [ScanSys.init, allKeys, List.flatMap_def, Worker.keys, Function.comp_def,
      List.map_flatten]
  have hy : (ScanSys.init edb0 Ls).workers.flatMap (Worker.yield c edb0) =
      Ls.flatten.filterMap (look c edb0) := by
    rw [List.filterMap_flatten]
    simp [ScanSys.init, List.flatMap_def, Worker.yield, Function.comp_def]
  refine ⟨by simp [ScanSys.init], ?_, ?_, ?_, ?_, ?_, ?_, ?_, ?_⟩
  · intro t w L hw hL
    simp only [ScanSys.init, List.getElem?_map, hL, Option.map_some, Option.some.injEq] at hw
    subst hw
    simp [ScanSys.init, callsOf, Worker.yield]
  · rw [hy]; simp [ScanSys.init]
  · intro _
    refine ⟨rfl, ?_⟩
    intro w hw
    simp only [ScanSys.init, List.mem_map] at hw
    obtain ⟨L, -, rfl⟩ := hw
    rfl
  · intro h; rw [hk]; exact hnd h
  · rw [hk]; exact fun k h => h
  · intro k _; rfl
  · intro k _; rfl
  · intro _ k h1 h2; rw [hk] at h2; exact absurd h1 h2

theorem scanInv_step (c : Crypto Kw V) (del : Bool) (edb0 : Edb V) (Ls : List (List (Nat × Leaf)))
    (s s' : ScanSys V) (hinv : ScanInv c del edb0 Ls s) (hstep : ScanStep c del s s') :
    ScanInv c del edb0 Ls s' := by
  cases hstep with
  | miss t i leaf rest h hm =>
    have hkey : c.token leaf ∈ s.workers.flatMap (Worker.keys c) :=
      List.mem_flatMap.mpr ⟨_, List.mem_of_getElem? h, by simp [Worker.keys]⟩
    have h0 : edb0 (c.token leaf) = none := by rw [← hinv.outstanding _ hkey, hm]
    have hy : (⟨(i, leaf) :: rest, none⟩ : Worker V).yield c edb0 =
        (⟨rest, none⟩ : Worker V).yield c edb0 := by
      simp [Worker.yield, look, lookup, h0]
    have hpk := Counter.set_perm_flatMap s.workers t _ (⟨rest, none⟩ : Worker V) (Worker.keys c)
      [c.token leaf] h (by simp [Worker.keys])
    have hpy := Counter.set_perm_flatMap s.workers t _ (⟨rest, none⟩ : Worker V)
      (Worker.yield c edb0) [] h (by rw [hy]; simp)
    have hmem : ∀ k, k ∈ (s.workers.set t ⟨rest, none⟩).flatMap (Worker.keys c) →
        k ∈ s.workers.flatMap (Worker.keys c) := fun k hk =>
      hpk.symm.subset (by simp only [List.mem_append]; exact Or.inr hk)
    refine ⟨by simpa using hinv.len, ?_, ?_, ?_, ?_, ?_, ?_, ?_, ?_⟩
    · intro t' w L hw hL
      rcases Counter.getElem?_set_cases h hw with ⟨rfl, rfl⟩ | ⟨-, hold⟩
      · rw [← hy]; exact hinv.calls t' _ L h hL
      · exact hinv.calls t' w L hold hL
    · refine List.Perm.trans ?_ hinv.perm
      exact List.Perm.append_left _ (by simpa using hpy.symm)
    · intro hd
      refine ⟨(hinv.keep hd).1, ?_⟩
      intro w hw
      rcases List.mem_or_eq_of_mem_set hw with hw | rfl
      · exact (hinv.keep hd).2 w hw
      · rfl
    · intro hd
      have := (hpk.nodup_iff).mp (hinv.nodup hd)
      exact (List.nodup_append.mp this).2.1
    · exact fun k hk => hinv.sub k (hmem k hk)
    · exact fun k hk => hinv.outstanding k (hmem k hk)
    · exact hinv.outside
    · intro hd k hk hk'
      by_cases hkk : k = c.token leaf
      · rw [hkk]; exact hm
      · exact hinv.gone hd k hk (fun hin => by
          have := hpk.subset hin
          simp only [List.mem_append, List.mem_singleton] at this
          exact this.elim hkk hk')
  | hit t i leaf rest v h hm hd =>
    have hkey : c.token leaf ∈ s.workers.flatMap (Worker.keys c) :=
      List.mem_flatMap.mpr ⟨_, List.mem_of_getElem? h, by simp [Worker.keys]⟩
    have h0 : edb0 (c.token leaf) = some v := by rw [← hinv.outstanding _ hkey, hm]
    have hy : (⟨(i, leaf) :: rest, none⟩ : Worker V).yield c edb0 =
        (i, c.xor v (c.mask leaf)) :: (⟨rest, none⟩ : Worker V).yield c edb0 := by
      simp [Worker.yield, look, lookup, h0]
    have hpk := Counter.set_perm_flatMap s.workers t _ (⟨rest, none⟩ : Worker V) (Worker.keys c)
      [c.token leaf] h (by simp [Worker.keys])
    have hpy := Counter.set_perm_flatMap s.workers t _ (⟨rest, none⟩ : Worker V)
      (Worker.yield c edb0) [(i, c.xor v (c.mask leaf))] h (by rw [hy]; simp)
    have hmem : ∀ k, k ∈ (s.workers.set t ⟨rest, none⟩).flatMap (Worker.keys c) →
        k ∈ s.workers.flatMap (Worker.keys c) := fun k hk =>
      hpk.symm.subset (by simp only [List.mem_append]; exact Or.inr hk)
    refine ⟨by simpa using hinv.len, ?_, ?_, ?_, ?_, ?_, ?_, ?_, ?_⟩
    · intro t' w L hw hL
      rw [callsOf_snoc]
      rcases Counter.getElem?_set_cases h hw with ⟨rfl, rfl⟩ | ⟨hne, hold⟩
      · have := hinv.calls t' _ L h hL
        rw [hy] at this
        rw [← this]; simp
      · rw [if_neg (Ne.symm hne), List.append_nil]
        exact hinv.calls t' w L hold hL
    · refine List.Perm.trans ?_ hinv.perm
      rw [List.map_append, List.append_assoc]
      exact List.Perm.append_left _ hpy.symm
    · intro hd
      refine ⟨(hinv.keep hd).1, ?_⟩
      intro w hw
      rcases List.mem_or_eq_of_mem_set hw with hw | rfl
      · exact (hinv.keep hd).2 w hw
      · rfl
    · intro hd'; rw [hd] at hd'; cases hd'
    · exact fun k hk => hinv.sub k (hmem k hk)
    · exact fun k hk => hinv.outstanding k (hmem k hk)
    · exact hinv.outside
    · intro hd'; rw [hd] at hd'; cases hd'
  | hitDelete t i leaf rest v h hm hd =>
    have hkey : c.token leaf ∈ s.workers.flatMap (Worker.keys c) :=
      List.mem_flatMap.mpr ⟨_, List.mem_of_getElem? h, by simp [Worker.keys]⟩
    have h0 : edb0 (c.token leaf) = some v := by rw [← hinv.outstanding _ hkey, hm]
    have hy : (⟨(i, leaf) :: rest, none⟩ : Worker V).yield c edb0 =
        (⟨rest, some (i, c.xor v (c.mask leaf), c.token leaf)⟩ : Worker V).yield c edb0 := by
      simp [Worker.yield, look, lookup, h0]
    have hpk := Counter.set_perm_flatMap s.workers t _
      (⟨rest, some (i, c.xor v (c.mask leaf), c.token leaf)⟩ : Worker V) (Worker.keys c)
      [] h (by simp [Worker.keys])
    have hpy := Counter.set_perm_flatMap s.workers t _
      (⟨rest, some (i, c.xor v (c.mask leaf), c.token leaf)⟩ : Worker V)
      (Worker.yield c edb0) [] h (by rw [hy]; simp)
    rw [List.nil_append] at hpk hpy
    refine ⟨by simpa using hinv.len, ?_, ?_, ?_, ?_, ?_, ?_, ?_, ?_⟩
    · intro t' w L hw hL
      rcases Counter.getElem?_set_cases h hw with ⟨rfl, rfl⟩ | ⟨-, hold⟩
      · rw [← hy]; exact hinv.calls t' _ L h hL
      · exact hinv.calls t' w L hold hL
    · exact (List.Perm.append_left _ hpy.symm).trans hinv.perm
    · intro hd'; rw [hd] at hd'; cases hd'
    · intro hd'; exact (hpk.nodup_iff).mp (hinv.nodup hd')
    · exact fun k hk => hinv.sub k (hpk.symm.subset hk)
    · exact fun k hk => hinv.outstanding k (hpk.symm.subset hk)
    · exact hinv.outside
    · exact fun hd k hk hk' => hinv.gone hd k hk (fun hin => hk' (hpk.subset hin))
  | remove t i v key rest h =>
    have hkey : key ∈ s.workers.flatMap (Worker.keys c) :=
      List.mem_flatMap.mpr ⟨_, List.mem_of_getElem? h, by simp [Worker.keys]⟩
    have hdel : del = true := by
      cases hd : del with
      | true => rfl
      | false =>
        have := (hinv.keep hd).2 _ (List.mem_of_getElem? h)
        simp at this
    have hy : (⟨rest, some (i, v, key)⟩ : Worker V).yield c edb0 =
        (i, v) :: (⟨rest, none⟩ : Worker V).yield c edb0 := by
      simp [Worker.yield]
    have hpk := Counter.set_perm_flatMap s.workers t _ (⟨rest, none⟩ : Worker V) (Worker.keys c)
      [key] h (by simp [Worker.keys])
    have hpy := Counter.set_perm_flatMap s.workers t _ (⟨rest, none⟩ : Worker V)
      (Worker.yield c edb0) [(i, v)] h (by rw [hy]; simp)
    have hmem : ∀ k, k ∈ (s.workers.set t ⟨rest, none⟩).flatMap (Worker.keys c) →
        k ∈ s.workers.flatMap (Worker.keys c) := fun k hk =>
      hpk.symm.subset (by simp only [List.mem_append]; exact Or.inr hk)
    have hnd := (hpk.nodup_iff).mp (hinv.nodup hdel)
    rw [List.nodup_append] at hnd
    refine ⟨by simpa using hinv.len, ?_, ?_, ?_, ?_, ?_, ?_, ?_, ?_⟩
    · intro t' w L hw hL
      rw [callsOf_snoc]
      rcases Counter.getElem?_set_cases h hw with ⟨rfl, rfl⟩ | ⟨hne, hold⟩
      · have := hinv.calls t' _ L h hL
        rw [hy] at this
        rw [← this]; simp
      · rw [if_neg (Ne.symm hne), List.append_nil]
        exact hinv.calls t' w L hold hL
    · refine List.Perm.trans ?_ hinv.perm
      rw [List.map_append, List.append_assoc]
      exact List.Perm.append_left _ hpy.symm
    · intro hd'; rw [hdel] at hd'; cases hd'
    · exact fun _ => hnd.2.1
    · exact fun k hk => hinv.sub k (hmem k hk)
    · intro k hk
      have hne : k ≠ key := fun e => hnd.2.2 key (by simp) k hk e.symm
      show s.edb.erase key k = edb0 k
      rw [Map.erase_of_ne _ hne]
      exact hinv.outstanding k (hmem k hk)
    · intro k hk
      have hne : k ≠ key := fun e => hk (e ▸ hinv.sub key hkey)
      show s.edb.erase key k = edb0 k
      rw [Map.erase_of_ne _ hne]
      exact hinv.outside k hk
    · intro hd k hk hk'
      show s.edb.erase key k = none
      by_cases hkk : k = key
      · rw [hkk]; simp
      · rw [Map.erase_of_ne _ hkk]
        exact hinv.gone hd k hk (fun hin => by
          have := hpk.subset hin
          simp only [List.mem_append, List.mem_singleton] at this
          exact this.elim hkk hk')

theorem scanInv_reachable (c : Crypto Kw V) (del : Bool) (edb0 : Edb V)
    (Ls : List (List (Nat × Leaf))) (hnd : del = true → (allKeys c Ls).Nodup) (s : ScanSys V)
    (h : Relation.ReflTransGen (ScanStep c del) (ScanSys.init edb0 Ls) s) :
    ScanInv c del edb0 Ls s := by
  induction h with
  | refl => exact scanInv_init c del edb0 Ls hnd
  | tail _ hst ih => exact scanInv_step c del edb0 Ls _ _ ih hst

theorem look_values (c : Crypto Kw V) (edb : Edb V) (l : List (Nat × Leaf)) :
    (l.filterMap (look c edb)).map (·.2) = l.filterMap (fun e => lookup c edb e.2) := by
  rw [List.map_filterMap]
  apply List.filterMap_congr
  intro e _
  cases h : lookup c edb e.2 <;> simp [look, h]

/-- Everything known about a finished run. -/
theorem scan_done (c : Crypto Kw V) (del : Bool) (edb0 : Edb V) (Ls : List (List (Nat × Leaf)))
    (hnd : del = true → (allKeys c Ls).Nodup) (s : ScanSys V)
    (h : Relation.ReflTransGen (ScanStep c del) (ScanSys.init edb0 Ls) s) (hdone : s.Done) :
    (∀ (t : Nat) (L : List (Nat × Leaf)), Ls[t]? = some L →
      callsOf t s.trace = L.filterMap (look c edb0)) ∧
    (s.trace.map (fun e => (e.1, e.2.1))).Perm (Ls.flatten.filterMap (look c edb0)) ∧
    (∀ k, s.edb k = if del = true ∧ k ∈ allKeys c Ls then none else edb0 k) ∧
    (∀ e ∈ s.trace, e.2.2 < Ls.length) := by
  have hinv := scanInv_reachable c del edb0 Ls hnd s h
  have hk : s.workers.flatMap (Worker.keys c) = [] := by
    rw [List.flatMap_eq_nil_iff]
    intro w hw
    obtain ⟨h1, h2⟩ := hdone w hw
    simp [Worker.keys, h1, h2]
  have hy : ∀ w ∈ s.workers, w.yield c edb0 = [] := by
    intro w hw
    obtain ⟨h1, h2⟩ := hdone w hw
    simp [Worker.yield, h1, h2]
  refine ⟨?_, ?_, ?_, ?_⟩
  · intro t L hL
    have hlt : t < s.workers.length := by
      rw [hinv.len]; exact (List.getElem?_eq_some_iff.mp hL).1
    have := hinv.calls t _ L (List.getElem?_eq_getElem hlt) hL
    rwa [hy _ (List.getElem_mem hlt), List.append_nil] at this
  · have := hinv.perm
    rwa [List.flatMap_eq_nil_iff.mpr hy, List.append_nil] at this
  · intro k
    cases hd : del with
    | false => simp [(hinv.keep hd).1]
    | true =>
      by_cases hkk : k ∈ allKeys c Ls
      · rw [if_pos ⟨rfl, hkk⟩]; exact hinv.gone hd k hkk (by rw [hk]; simp)
      · rw [if_neg (fun h => hkk h.2)]; exact hinv.outside k hkk
  · -- thread ids
    have : ∀ s, Relation.ReflTransGen (ScanStep c del) (ScanSys.init edb0 Ls) s →
        s.workers.length = Ls.length ∧ ∀ e ∈ s.trace, e.2.2 < Ls.length := by
      intro s hs
      induction hs with
      | refl => simp [ScanSys.init]
      | tail _ hst ih =>
        obtain ⟨ih1, ih2⟩ := ih
        cases hst with
        | miss t i leaf rest h hm => exact ⟨by simpa using ih1, ih2⟩
        | hitDelete t i leaf rest v h hm hd => exact ⟨by simpa using ih1, ih2⟩
        | hit t i leaf rest v h hm hd =>
          refine ⟨by simpa using ih1, ?_⟩
          intro e he
          simp only [List.mem_append, List.mem_singleton] at he
          rcases he with he | rfl
          · exact ih2 e he
          · rw [← ih1]; exact (List.getElem?_eq_some_iff.mp h).1
        | remove t i v key rest h =>
          refine ⟨by simpa using ih1, ?_⟩
          intro e he
          simp only [List.mem_append, List.mem_singleton] at he
          rcases he with he | rfl
          · exact ih2 e he
          · rw [← ih1]; exact (List.getElem?_eq_some_iff.mp h).1
    exact (this s h).2

/-- Splicing the lists of the threads. -/
theorem splice_eq (Ls : List (List (Nat × Leaf))) (c : Crypto Kw V) (edb0 : Edb V)
    (trace : List (Nat × V × Nat)) (threadsCount : UInt8) (hlen : Ls.length ≤ threadsCount.toNat)
    (hc : ∀ (t : Nat) (L : List (Nat × Leaf)), Ls[t]? = some L →
      callsOf t trace = L.filterMap (look c edb0))
    (hid : ∀ e ∈ trace, e.2.2 < Ls.length) :
    listResult threadsCount trace = Ls.flatten.filterMap (fun e => lookup c edb0 e.2) := by
  have hval : ∀ t, (trace.filter (fun e => e.2.2 = t)).map (fun e => e.2.1) =
      (callsOf t trace).map (·.2) := by
    intro t; simp [callsOf, Function.comp_def]
  have hsplit : listResult threadsCount trace =
      (List.range Ls.length).flatMap (fun t => (callsOf t trace).map (·.2)) := by
    unfold listResult
    simp only [hval]
    obtain ⟨d, hd⟩ : ∃ d, threadsCount.toNat = Ls.length + d := ⟨_, (Nat.add_sub_of_le hlen).symm⟩
    rw [hd, List.range_add, List.flatMap_append]
    have : ((List.range d).map (Ls.length + ·)).flatMap
        (fun t => (callsOf t trace).map (·.2)) = [] := by
      rw [List.flatMap_eq_nil_iff]
      intro t ht
      rw [List.mem_map] at ht
      obtain ⟨x, -, rfl⟩ := ht
      simp only [callsOf, List.map_map, List.map_eq_nil_iff, List.filter_eq_nil_iff,
        decide_eq_true_eq]
      intro e he h
      have := hid e he
      omega
    rw [this, List.append_nil]
  rw [hsplit, ← look_values, List.filterMap_flatten, List.map_flatten, List.flatMap_def]
  congr 1
  apply List.ext_getElem
  · simp
  · intro t h1 h2
    simp only [List.getElem_map, List.getElem_range]
    have hlt : t < Ls.length := by simpa using h1
    rw [hc t _ (List.getElem?_eq_getElem hlt)]

/-- Writing a trace with distinct positions into a vector. -/
theorem vector_fold (trace : List (Nat × V × Nat)) (hnd : (trace.map (·.1)).Nodup)
    (rs : List V) :
    (trace.foldl (fun rs e => if e.1 < rs.length then rs.set e.1 e.2.1 else rs) rs).length =
        rs.length ∧
    (∀ e ∈ trace, e.1 < rs.length →
      (trace.foldl (fun rs e => if e.1 < rs.length then rs.set e.1 e.2.1 else rs) rs)[e.1]? =
        some e.2.1) ∧
    ∀ p, (∀ e ∈ trace, e.1 ≠ p) →
      (trace.foldl (fun rs e => if e.1 < rs.length then rs.set e.1 e.2.1 else rs) rs)[p]? = rs[p]?
    := by
  induction trace generalizing rs with
  | nil => simp
  | cons x trace ih =>
    simp only [List.map_cons, List.nodup_cons] at hnd
    obtain ⟨h1, h2, h3⟩ := ih hnd.2 (if x.1 < rs.length then rs.set x.1 x.2.1 else rs)
    have hl : (if x.1 < rs.length then rs.set x.1 x.2.1 else rs).length = rs.length := by
      split <;> simp
    simp only [List.foldl_cons]
    refine ⟨by rw [h1, hl], ?_, ?_⟩
    · intro e he hlt
      rcases List.mem_cons.mp he with rfl | he
      · rw [h3 e.1 (fun e' he' heq => hnd.1 (List.mem_map.mpr ⟨e', he', heq⟩)), if_pos hlt]
        simp [hlt]
      · exact h2 e he (by rw [hl]; exact hlt)
    · intro p hp
      rw [h3 p (fun e he => hp e (by simp [he]))]
      have hne := hp x (by simp)
      split
      · rw [List.getElem?_set_ne hne]
      · rfl

end Verif.Diana
