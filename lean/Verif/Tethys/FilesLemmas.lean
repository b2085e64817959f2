import Verif.Tethys.Files
import Verif.Tethys.SchemeProps

/-!
# Lemmas on the files of a Tethys database
-/

namespace Verif.Tethys

set_option linter.unusedSectionVars false

/-! ## The table file -/

theorem writeBytes_fill (A Z bs : List UInt8) :
    Vec.writeBytes (A ++ Z) A.length bs = A ++ bs ++ Z.drop bs.length := by
  unfold Vec.writeBytes
  rw [show A.length - (A ++ Z).length = 0 by simp, List.replicate_zero, List.append_nil,
    List.take_left, List.drop_append, List.drop_eq_nil_of_le (by omega), List.nil_append,
    show A.length + bs.length - A.length = bs.length by omega]

theorem toVal_toList {page : Nat} {p : List UInt8} (h : p.length = page) : (toVal page p).toList = p := by
  apply List.ext_getElem
  · simp [toVal, h]
  · intro i h1 h2
    simp [toVal, List.getD_eq_getElem?_getD, List.getElem?_eq_getElem h2]

/-- The loop of `build` on a new table -/
theorem pushPages_new (enc : ValueEncoder) (page : Nat) (g : Graph) (data : List (CoreKey × List Index))
    (m : Nat) : ∀ (k : Nat) (ps : List (List UInt8)) (t : Vec.Vec page) (A Z : List UInt8),
      encodeBuckets enc page g data (List.range' k m) = .ok ps → (∀ p ∈ ps, p.length = page) →
      t.committed = false → t.pending = [] → t.size = k → t.offset = A.length → t.file = A ++ Z →
      ∃ t', pushPages enc page g data (List.range' k m) t = (t', .ok ()) ∧ t'.committed = false ∧
        t'.pending = [] ∧ t'.file = A ++ ps.flatten ++ Z.drop (m * page) := by
  induction m with
  | zero =>
    intro k ps t A Z h _ hc hp _ _ hf
    cases h
    exact ⟨t, rfl, hc, hp, by simp [hf]⟩
  | succ m ih =>
    intro k ps t A Z h hl hc hp hs ho hf
    rw [List.range'_succ] at h ⊢
    unfold encodeBuckets at h
    split at h
    · cases h
    · rename_i p hp1
      split at h
      · cases h
      · rename_i qs hq
        cases h
        have hlp : p.length = page := hl p (List.mem_cons_self ..)
        have hpush : t.pushBack (toVal page p) page =
            ({ t with size := t.size + 1, file := A ++ p ++ Z.drop page, offset := A.length + page }, .ok k) := by
          unfold Vec.Vec.pushBack
          rw [if_neg (by simp [hc])]
          simp only [Nat.min_self]
          rw [if_neg (by simp), toVal_toList hlp, List.take_of_length_le (by omega), hf, ho, writeBytes_fill,
            hlp, hs]
        obtain ⟨t', h1, h2, h3, h4⟩ := ih (k + 1) qs
          { t with size := t.size + 1, file := A ++ p ++ Z.drop page, offset := A.length + page } (A ++ p)
          (Z.drop page) hq (fun q hq => hl q (List.mem_cons_of_mem _ hq)) hc hp (by simp [hs])
          (by simp [hlp]) rfl
        refine ⟨t', ?_, h2, h3, ?_⟩
        · unfold pushPages
          rw [hp1]
          dsimp only
          rw [hpush]
          dsimp only
          rw [if_neg (by simp), h1]
        · rw [h4, List.drop_drop, List.flatten_cons, Nat.succ_mul, Nat.add_comm]
          simp [List.append_assoc]

/-- The loop of `build` on a table that exists already -/
theorem pushPages_committed (enc : ValueEncoder) (page : Nat) (g : Graph)
    (data : List (CoreKey × List Index)) (vs : List Nat) (t : Vec.Vec page) (ht : t.committed = true) :
    (pushPages enc page g data vs t).1 = t ∧
      (vs ≠ [] → ∃ f, (pushPages enc page g data vs t).2 = .error f) := by
  cases vs with
  | nil => exact ⟨rfl, fun h => absurd rfl h⟩
  | cons v vs =>
    unfold pushPages
    split
    · exact ⟨rfl, fun _ => ⟨_, rfl⟩⟩
    · have : ∀ x, t.pushBack x page = (t, .error .runtimeError) := by
        intro x
        unfold Vec.Vec.pushBack
        simp [ht]
      rw [this]
      exact ⟨rfl, fun _ => ⟨_, rfl⟩⟩

theorem tableFile_existing (b : Builder) {file : List UInt8} (h : file ≠ []) :
    (b.tableFile file).committed = true ∧ (b.tableFile file).file = file ∧ (b.tableFile file).pending = [] ∧
      (b.tableFile file).sched = true := by
  unfold Builder.tableFile Vec.Vec.reserve Vec.Vec.open
  rw [if_pos (List.length_pos_iff.mpr h)]
  simp

theorem destroy_existing {page : Nat} {t : Vec.Vec page} (h : t.committed = true) (hp : t.pending = []) :
    t.destroy = t.file := by
  unfold Vec.Vec.destroy
  rw [if_pos h]
  split
  · unfold Vec.Vec.wait
    rw [hp]
    rfl
  · rfl

theorem commit_destroy {page : Nat} {t : Vec.Vec page} (h : t.committed = false) (hp : t.pending = []) :
    t.commit.destroy = t.file := by
  have h1 : t.commit.committed = true := by
    unfold Vec.Vec.commit
    rw [if_neg (by simp [h])]
  have h2 : t.commit.pending = [] ∧ t.commit.file = t.file := by
    unfold Vec.Vec.commit
    rw [if_neg (by simp [h])]
    split
    · simp [Vec.Vec.wait, hp]
    · simp [hp]
  rw [destroy_existing h1 h2.1, h2.2]

/-- `build` never changes a table that exists, nor the stash file beside it, and fails. -/
theorem buildFiles_existing (b : Builder) (enc : ValueEncoder) {file : List UInt8}
    (stash : Option (List UInt8)) (h : file ≠ []) (hn : 0 < b.size) :
    (b.buildFiles enc file stash).2.1 = (file, stash) ∧
      ∃ f, (b.buildFiles enc file stash).2.2 = .error f := by
  obtain ⟨h1, h2, h3, -⟩ := tableFile_existing b h
  have hd : (b.tableFile file).destroy = file := by rw [destroy_existing h1 h3, h2]
  unfold Builder.buildFiles
  by_cases hb : b.built = true
  · rw [if_pos hb]
    exact ⟨rfl, _, rfl⟩
  · rw [if_neg hb]
    dsimp only
    cases ha : b.alloc.allocate with
    | error f =>
      dsimp only
      rw [hd]
      exact ⟨rfl, _, rfl⟩
    | ok a =>
      dsimp only
      obtain ⟨e1, e2⟩ := pushPages_committed enc b.page a.graph b.data (List.range b.size)
        (b.tableFile file) h1
      obtain ⟨f, e2⟩ := e2 (by rw [Ne, List.range_eq_nil]; omega)
      rw [show pushPages enc b.page a.graph b.data (List.range b.size) (b.tableFile file) =
        (b.tableFile file, .error f) from Prod.ext e1 e2]
      dsimp only
      rw [hd]
      exact ⟨rfl, _, rfl⟩

theorem stopFile_existing (b : Builder) (enc : ValueEncoder) {file : List UInt8} (k : Nat) (h : file ≠ []) :
    b.stopFile enc file k = file := by
  obtain ⟨h1, h2, -, -⟩ := tableFile_existing b h
  unfold Builder.stopFile
  split
  · rfl
  · split
    · exact h2
    · rw [(pushPages_committed enc b.page _ b.data _ (b.tableFile file) h1).1, h2]

/-- `build` on an empty table file writes the pages of the model with lists. -/
theorem buildFiles_new (b : Builder) (enc : ValueEncoder) (old : Option (List UInt8)) (fs : Files)
    (h : b.build enc old = .ok fs) (hl : ∀ p ∈ fs.table, p.length = b.page) :
    ∃ b', b.buildFiles enc [] old = (b', (fs.table.flatten, fs.stash), .ok ()) := by
  unfold Builder.build at h
  unfold Builder.buildFiles
  by_cases hb : b.built = true
  · rw [if_pos hb] at h
    cases h
  rw [if_neg hb] at h ⊢
  dsimp only
  split at h
  · cases h
  rename_i a ha
  rw [ha]
  dsimp only
  split at h
  · cases h
  rename_i ps hps
  have hall : ∀ p ∈ ps, p.length = b.page := by
    split at h
    · cases h
      exact hl
    · split at h
      · cases h
      · cases h
        exact hl
  have htf : (b.tableFile []).committed = false ∧ (b.tableFile []).pending = [] ∧
      (b.tableFile []).size = 0 ∧ (b.tableFile []).offset = 0 ∧
      (b.tableFile []).file = List.replicate (b.size * b.page) 0 := by
    unfold Builder.tableFile
    rw [show Vec.Vec.open b.page [] true false = ⟨[], 0, 0, false, false, true, []⟩ from rfl]
    unfold Vec.Vec.reserve
    by_cases hs : b.size > 0
    · rw [if_pos ⟨rfl, hs⟩]
      simp [Vec.resize]
    · rw [if_neg (fun h => hs h.2)]
      simp [show b.size = 0 by omega]
  obtain ⟨t', h1, h2, h3, h4⟩ := pushPages_new enc b.page a.graph b.data b.size 0 ps (b.tableFile []) []
    (List.replicate (b.size * b.page) 0) (by rw [← List.range_eq_range']; exact hps) hall htf.1 htf.2.1
    htf.2.2.1 htf.2.2.2.1 (by rw [htf.2.2.2.2]; rfl)
  rw [← List.range_eq_range'] at h1
  rw [h1]
  dsimp only
  have h5 : t'.commit.destroy = ps.flatten := by
    rw [commit_destroy h2 h3, h4]
    simp
  rw [h5]
  split at h
  · rename_i hst
    cases h
    rw [if_pos hst]
    exact ⟨_, rfl⟩
  · rename_i hst
    rw [if_neg hst]
    split at h
    · cases h
    · rename_i s hs
      cases h
      rw [hs]
      exact ⟨_, rfl⟩

theorem flatten_length {page : Nat} (ps : List (List UInt8)) (h : ∀ p ∈ ps, p.length = page) :
    ps.flatten.length = ps.length * page := by
  induction ps with
  | nil => simp
  | cons p ps ih =>
    rw [List.flatten_cons, List.length_append, ih (fun q hq => h q (List.mem_cons_of_mem _ hq)),
      h p (List.mem_cons_self ..), List.length_cons, Nat.succ_mul, Nat.add_comm]

theorem flatten_page {page : Nat} (ps : List (List UInt8)) (h : ∀ p ∈ ps, p.length = page) (i : Nat)
    (hi : i < ps.length) : (ps.flatten.drop (i * page)).take page = ps[i] := by
  induction ps generalizing i with
  | nil => simp at hi
  | cons p ps ih =>
    have hp := h p (List.mem_cons_self ..)
    cases i with
    | zero =>
      rw [Nat.zero_mul, List.drop_zero, List.flatten_cons, List.take_append_of_le_length (by omega),
        List.take_of_length_le (by omega)]
      rfl
    | succ i =>
      rw [List.flatten_cons, Nat.succ_mul, List.drop_append, List.drop_eq_nil_of_le (by omega),
        List.nil_append, show i * page + page - p.length = i * page by omega]
      exact ih (fun q hq => h q (List.mem_cons_of_mem _ hq)) i (by simpa using hi)

theorem pagesOf_flatten {page : Nat} (hp : 0 < page) (ps : List (List UInt8))
    (h : ∀ p ∈ ps, p.length = page) : pagesOf page ps.flatten = ps := by
  unfold pagesOf
  rw [flatten_length ps h, Nat.mul_div_cancel _ hp]
  apply List.ext_getElem
  · simp
  · intro i h1 h2
    simp only [List.getElem_map, List.getElem_range]
    exact flatten_page ps h i h2

/-- The pages are what `get` returns on the file. -/
theorem pagesOf_get {page : Nat} (hp : 0 < page) (file : List UInt8) (i : Nat) (p : List UInt8)
    (h : (pagesOf page file)[i]? = some p) :
    ∃ x, (Vec.Vec.open page file true false).get i = .ok x ∧ x.toList = p := by
  unfold pagesOf at h
  rw [List.getElem?_map] at h
  have hi : i < file.length / page := by
    by_contra hn
    rw [List.getElem?_eq_none (by simp; omega)] at h
    cases h
  rw [List.getElem?_eq_getElem (by simpa using hi)] at h
  simp only [List.getElem_range, Option.map_some, Option.some.injEq] at h
  have hmul : (i + 1) * page ≤ file.length :=
    Nat.le_trans (Nat.mul_le_mul_right _ hi) (Nat.div_mul_le_self ..)
  rw [Nat.succ_mul] at hmul
  have hlen : ((file.drop (i * page)).take page).length = page := by
    rw [List.length_take, List.length_drop]; omega
  have h0 : 0 < file.length := by omega
  refine ⟨⟨((file.drop (i * page)).take page).toArray, by simpa using hlen⟩, ?_, by simpa using h⟩
  unfold Vec.Vec.open Vec.Vec.get
  rw [if_pos h0]
  dsimp only
  rw [if_neg (by omega), if_neg (by simp), dif_pos hlen]

end Verif.Tethys
