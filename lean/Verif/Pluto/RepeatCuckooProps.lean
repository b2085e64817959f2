import Verif.Pluto.RepeatCuckoo

/-!
# C59: keywords given several times to the Pluto builder, with the default parameters: the theorems

The cuckoo table keeps two blocks with the same key and finds one of them; a third one makes it spill a block.
-/

namespace Verif.Pluto

open Tethys (CoreKey Token deriveCoreKey ValueEncoder listsOf)

variable {W : Type} [DecidableEq W]

/-- **C59 (part that holds)**, for Pluto with the default parameters: whatever lists are given, in any number for each keyword,
and whatever the table spills, the construction and the searches of these keywords never fault; a search returns documents of the
keyword only, each at most as often as in its lists, and the four zeros of each block of `C30_default_spurious`. Missing: all
documents, see `C59_cuckoo_violated`. -/
theorem C59_cuckoo_sound_partial (page size tsize depth : Nat) (hash : CoreKey → UInt64 × UInt64) (prf : W → Token)
    (H : List UInt8 → CoreKey) (enc : ValueEncoder) (n : UInt64) (rand : Nat → CoreKey)
    (index : List (W × List Index)) (hok : Spec.RepeatOk page size prf H n rand index) (ht : 0 < tsize)
    (hlen : (Spec.blocks page prf H n rand index).length < 2 ^ 64) :
    ∃ t fs, schemeBuild (cuckoo (cuckooLength page) tsize depth) page size (defaultLength page) hash prf H enc n
        rand index = .ok (t, fs) ∧
      ∀ w, (∃ x ∈ index, x.1 = w) →
        (∀ x ∈ index, x.1 = w → ∀ i ≤ x.2.length / defaultLength page,
          deriveCoreKey H (prf w) (1 + i) ≠ Oceanus.Spec.allOnes) →
        ∀ fuel, (∀ x ∈ index, x.1 = w → x.2.length / defaultLength page < fuel) →
        ∃ r r' m, schemeSearch (cuckoo (cuckooLength page) tsize depth) hash prf H enc t fs fuel w = .ok r ∧
          r.Perm (r' ++ List.replicate (4 * m) 0) ∧ r'.Subperm (Tethys.Spec.docs index w) ∧
          ∃ x ∈ index, x.1 = w ∧ m ≤ x.2.length / defaultLength page := by
  obtain ⟨t, fs, h1, h2⟩ := repeat_cuckoo page size tsize depth hash prf H enc n rand index hok ht hlen
  refine ⟨t, fs, h1, fun w hw hone fuel hfuel => ?_⟩
  obtain ⟨x, hx, rfl, hmax⟩ := exists_longest_of (defaultLength page) hw
  obtain ⟨r, h3, ⟨m, hm, r', h4, h5, -⟩, -⟩ := h2 x hx hmax (hone x hx rfl) fuel (hfuel x hx rfl)
  exact ⟨r, r', m, h3, h4, h5, x, hx, rfl, hm⟩

/-- **C59 (part that holds)**, for Pluto with the default parameters: if the table spills nothing, a keyword with one list is
answered as without repetition, with the zeros of `C30_default_spurious`. Missing: tables that spill, which three lists with a full
block are enough to cause (`C59_cuckoo_three_lists`, `C59_cuckoo_others_violated`). -/
theorem C59_cuckoo_others_partial (page size tsize depth : Nat) (hash : CoreKey → UInt64 × UInt64) (prf : W → Token)
    (H : List UInt8 → CoreKey) (enc : ValueEncoder) (n : UInt64) (rand : Nat → CoreKey)
    (index : List (W × List Index)) (hok : Spec.RepeatOk page size prf H n rand index) (ht : 0 < tsize)
    (hlen : (Spec.blocks page prf H n rand index).length < 2 ^ 64)
    (hsp : Oceanus.spilled tsize depth Oceanus.oceanusHash (Spec.blocks page prf H n rand index) = []) :
    ∃ t fs, schemeBuild (cuckoo (cuckooLength page) tsize depth) page size (defaultLength page) hash prf H enc n
        rand index = .ok (t, fs) ∧
      ∀ x ∈ index, (index.filter (fun y => decide (y.1 = x.1))).length = 1 →
        (∀ i ≤ x.2.length / defaultLength page, deriveCoreKey H (prf x.1) (1 + i) ≠ Oceanus.Spec.allOnes) →
        ∀ fuel, x.2.length / defaultLength page < fuel →
        ∃ r, schemeSearch (cuckoo (cuckooLength page) tsize depth) hash prf H enc t fs fuel x.1 = .ok r ∧
          r.Perm (x.2 ++ List.replicate (4 * (x.2.length / defaultLength page)) 0) := by
  obtain ⟨t, fs, h1, h2⟩ := repeat_cuckoo page size tsize depth hash prf H enc n rand index hok ht hlen
  refine ⟨t, fs, h1, fun x hx hone hgood fuel hfuel => ?_⟩
  obtain ⟨r, h3, -, h4⟩ := h2 x hx (by
    intro y hy hyx
    obtain ⟨z, hz⟩ := List.length_eq_one_iff.mp hone
    have hmem : ∀ y ∈ index, y.1 = x.1 → y = z := by
      intro y hy hyx
      have : y ∈ index.filter (fun y => decide (y.1 = x.1)) := by
        rw [List.mem_filter, decide_eq_true_eq]; exact ⟨hy, hyx⟩
      rw [hz] at this
      exact List.mem_singleton.mp this
    rw [hmem y hy hyx, hmem x hx rfl]) hgood fuel hfuel
  exact ⟨r, h3, h4 hsp hone⟩

/-- **C59 is violated whenever two lists of a keyword have a full block**, for Pluto with the default parameters and whatever the
table spills: the documents of at least one block are not found. -/
theorem C59_cuckoo_violated (page size tsize depth : Nat) (hash : CoreKey → UInt64 × UInt64) (prf : W → Token)
    (H : List UInt8 → CoreKey) (enc : ValueEncoder) (n : UInt64) (rand : Nat → CoreKey)
    (index : List (W × List Index)) (hok : Spec.RepeatOk page size prf H n rand index) (ht : 0 < tsize)
    (hlen : (Spec.blocks page prf H n rand index).length < 2 ^ 64) (w : W)
    (hone : ∀ x ∈ index, x.1 = w → ∀ i ≤ x.2.length / defaultLength page,
      deriveCoreKey H (prf w) (1 + i) ≠ Oceanus.Spec.allOnes)
    (htwo : 2 ≤ (index.filter (fun x => decide (x.1 = w ∧ defaultLength page ≤ x.2.length))).length) :
    ∃ t fs, schemeBuild (cuckoo (cuckooLength page) tsize depth) page size (defaultLength page) hash prf H enc n
        rand index = .ok (t, fs) ∧
      ∀ fuel r, (∀ x ∈ index, x.1 = w → x.2.length / defaultLength page < fuel) →
        schemeSearch (cuckoo (cuckooLength page) tsize depth) hash prf H enc t fs fuel w = .ok r →
        (r.filter (fun d => decide (d ≠ 0))).length + defaultLength page ≤ (Tethys.Spec.docs index w).length := by
  have hm : 0 < defaultLength page := by have := hok.room; rw [defaultLength_eq hok.room]; omega
  obtain ⟨t, fs, h1, h2⟩ := repeat_cuckoo page size tsize depth hash prf H enc n rand index hok ht hlen
  refine ⟨t, fs, h1, fun fuel r hfuel hr => ?_⟩
  have hw : ∃ x ∈ index, x.1 = w := by
    cases hf : index.filter (fun x => decide (x.1 = w ∧ defaultLength page ≤ x.2.length)) with
    | nil => rw [hf] at htwo; simp at htwo
    | cons x l =>
      have : x ∈ index.filter (fun x => decide (x.1 = w ∧ defaultLength page ≤ x.2.length)) := by
        rw [hf]; exact List.mem_cons_self ..
      rw [List.mem_filter, decide_eq_true_eq] at this
      exact ⟨x, this.1, this.2.1⟩
  obtain ⟨x, hx, rfl, hmax⟩ := exists_longest_of (defaultLength page) hw
  obtain ⟨r', h3, ⟨m, hle, r'', h4, -, h5⟩, -⟩ := h2 x hx hmax (hone x hx rfl) fuel (hfuel x hx rfl)
  rw [hr] at h3
  cases h3
  have hfilter : (r.filter (fun d => decide (d ≠ 0))).length ≤ r''.length := by
    rw [(h4.filter _).length_eq, List.filter_append, List.length_append]
    have : (List.replicate (4 * m) (0 : Index)).filter (fun d => decide (d ≠ 0)) = [] := by
      rw [List.filter_eq_nil_iff]
      intro a ha
      simp [(List.mem_replicate.mp ha).2]
    rw [this]
    exact List.length_filter_le _ _
  have hdocs := docs_length index x.1 (defaultLength page)
  have hsum := longest_sum hm hx htwo
  have h6 := Nat.mul_le_mul_right (defaultLength page) hsum
  rw [Nat.add_mul, Nat.one_mul] at h6
  have h7 := Nat.mul_le_mul_right (defaultLength page) hle
  omega

/-- **The table spills a block as soon as three lists of a keyword have a full block**, for Pluto with the default parameters,
whatever the size of the table. -/
theorem C59_cuckoo_three_lists (page size tsize depth : Nat) (prf : W → Token)
    (H : List UInt8 → CoreKey) (n : UInt64) (rand : Nat → CoreKey)
    (index : List (W × List Index)) (hok : Spec.RepeatOk page size prf H n rand index) (ht : 0 < tsize)
    (hlen : (Spec.blocks page prf H n rand index).length < 2 ^ 64) (w : W)
    (hthree : 3 ≤ (index.filter (fun x => decide (x.1 = w ∧ defaultLength page ≤ x.2.length))).length) :
    Oceanus.spilled tsize depth Oceanus.oceanusHash (Spec.blocks page prf H n rand index) ≠ [] := by
  have hroom := hok.room
  rw [defaultLength_eq hroom] at hthree
  have hm : 0 < page / 8 - 6 := by omega
  refine Oceanus.three_spill tsize depth Oceanus.oceanusHash _ ht hlen (deriveCoreKey H (prf w) 1) ?_
  refine Nat.le_trans hthree ?_
  unfold Spec.blocks entriesOf
  rw [List.map_map, List.map_append, List.count_append]
  refine Nat.le_trans ?_ (Nat.le_add_right _ _)
  clear hthree hok hlen
  unfold tableEntries
  induction index with
  | nil => simp
  | cons x index ih =>
    rw [List.filter_cons, List.flatMap_cons, List.map_append, List.count_append]
    split
    · rename_i hx
      rw [decide_eq_true_eq] at hx
      rw [List.length_cons, Nat.add_comm]
      refine Nat.add_le_add ?_ ih
      have hpos : 0 < (fullBlocks (cuckooLength page) (page / 8 - 6) (keyOf prf H x.1) x.2 [] 1).length := by
        rw [length_fullBlocks hm _ x.2 [] 1 hm]
        simpa using Nat.div_pos hx.2 hm
      apply List.count_pos_iff.mpr
      refine List.mem_map.mpr ⟨(fullBlocks (cuckooLength page) (page / 8 - 6) (keyOf prf H x.1) x.2 [] 1)[0]'hpos,
        List.getElem_mem _, ?_⟩
      have h5 : ((fullBlocks (cuckooLength page) (page / 8 - 6) (keyOf prf H x.1) x.2 [] 1).map Prod.fst)[0]? =
          some ((fullBlocks (cuckooLength page) (page / 8 - 6) (keyOf prf H x.1) x.2 [] 1)[0]'hpos).1 := by
        rw [List.getElem?_map, List.getElem?_eq_getElem hpos]; rfl
      rw [fullBlocks_fst, List.getElem?_map, List.getElem?_range' hpos] at h5
      simp at h5
      rw [← hx.1]
      exact h5.symm
    · exact Nat.le_trans ih (Nat.le_add_left _ _)

/-! ## Concrete cases -/

/-- Keyword 5 once, keyword 1 with `m` lists of one full block -/
def Sample.many (m : Nat) : List (Nat × List Index) :=
  (5, [31, 32, 33, 34, 35, 36, 37]) ::
    [(1, [1, 2, 3, 4, 5, 6, 7]), (1, [11, 12, 13, 14, 15, 16, 17]), (1, [21, 22, 23, 24, 25, 26, 27])].take m

theorem sample_many_ok : Spec.RepeatOk 104 2 Tethys.Sample.prf Tethys.Sample.H 28 Sample.rand (Sample.many 3) where
  buckets := by decide
  aligned := by decide
  small := by decide
  room := by decide
  total := by decide
  counters := by decide
  tokens := by decide
  hashes := by decide
  fresh := by decide

/-- The hypotheses of the theorems above, and searches: keyword 1 has two lists with a full block, the table spills nothing, one
full block of keyword 1 is lost, keyword 2 is answered exactly. -/
example : Spec.RepeatOk 104 2 Tethys.Sample.prf Tethys.Sample.H 17 Sample.rand Sample.repeated ∧
    (Spec.blocks 104 Tethys.Sample.prf Tethys.Sample.H 17 Sample.rand Sample.repeated).length = 3 ∧
    Oceanus.spilled 8 3 Oceanus.oceanusHash
      (Spec.blocks 104 Tethys.Sample.prf Tethys.Sample.H 17 Sample.rand Sample.repeated) = [] ∧
    2 ≤ (Sample.repeated.filter (fun x => decide (x.1 = 1 ∧ defaultLength 104 ≤ x.2.length))).length ∧
    (∀ x ∈ Sample.repeated, ∀ i ≤ x.2.length / defaultLength 104,
      deriveCoreKey Tethys.Sample.H (Tethys.Sample.prf x.1) (1 + i) ≠ Oceanus.Spec.allOnes) ∧
    (∀ x ∈ Sample.repeated, x.2.length / defaultLength 104 < 10) ∧
    (Sample.search (cuckoo 11 8 3) 7 17 Sample.repeated 1).toOption =
      some [8, 11, 12, 13, 14, 15, 16, 17, 0, 0, 0, 0] ∧
    (Sample.search (cuckoo 11 8 3) 7 17 Sample.repeated 2).toOption = some [9, 10] :=
  ⟨sample_repeated_ok, by decide, by decide +kernel, by decide, by decide, by decide, by decide +kernel,
    by decide +kernel⟩

/-- The hypotheses of `C59_cuckoo_three_lists` -/
example : Spec.RepeatOk 104 2 Tethys.Sample.prf Tethys.Sample.H 28 Sample.rand (Sample.many 3) ∧
    (Spec.blocks 104 Tethys.Sample.prf Tethys.Sample.H 28 Sample.rand (Sample.many 3)).length = 4 ∧
    3 ≤ ((Sample.many 3).filter (fun x => decide (x.1 = 1 ∧ defaultLength 104 ≤ x.2.length))).length :=
  ⟨sample_many_ok, by decide, by decide⟩

/-- **C59 is violated for the other keywords too**, for Pluto with the cuckoo table: with one list for keyword 1, the documents of
keyword 5 are found; with three lists for keyword 1, the block of keyword 5 is spilled and nothing is found. -/
theorem C59_cuckoo_others_violated :
    (Sample.search (cuckoo 11 4 4) 7 14 (Sample.many 1) 5).toOption =
      some [31, 32, 33, 34, 35, 36, 37, 0, 0, 0, 0] ∧
    (Sample.search (cuckoo 11 4 4) 7 28 (Sample.many 3) 5).toOption = some [] := by
  constructor <;> decide +kernel

end Verif.Pluto
