import Verif.Pluto.FaultsLemmas

/-!
# The calls that construct a Pluto database, when some fail

The specification of C72, and what holds during the calls.
-/

namespace Verif.Pluto

open Tethys (CoreKey Token deriveCoreKey ValueEncoder Params)

variable {W : Type}

/-! ## Specification -/

/-- The list that a call has inserted, as the caller knows it: the call returned without exception. -/
def Spec.accepted : Ev W × Except DiskFault Unit → Option (W × List Index)
  | (.insert w ids _, .ok ()) => some (w, ids)
  | _ => none

/-- A call and its outcome, in the construction of an index before the last call of `build`: an insertion
that succeeds; an insertion of a list of the index that fails because of `Put`; a call of `build` that fails
because of `Put`, and whose random keys are not those of blocks. -/
def Spec.CallOk (L : Nat) (prf : W → Token) (H : List UInt8 → CoreKey) (index : List (W × List Index)) :
    Ev W × Except DiskFault Unit → Prop
  | (.insert _ _ _, .ok ()) => True
  | (.insert w ids _, .error f) => f = .put ∧ (w, ids) ∈ index
  | (.build rand _, o) => o = .error .put ∧ ∀ i, ∀ a ∈ Spec.inputs L prf index, H a ≠ rand i
  | _ => False

/-- The calls that construct an index: each list is inserted by one call that succeeds, and calls that fail
may come before, after and in between. -/
structure Spec.Retried (page : Nat) (prf : W → Token) (H : List UInt8 → CoreKey)
    (index : List (W × List Index)) (es : List (Ev W)) (rs : List (Except DiskFault Unit)) : Prop where
  accepted : (es.zip rs).filterMap Spec.accepted = index
  calls : ∀ p ∈ es.zip rs, Spec.CallOk (page / 8 - 6) prf H index p

/-- A random key of one of the calls -/
def Spec.Drawn (es : List (Ev W)) (k : CoreKey) : Prop :=
  ∃ rand os, Ev.build rand os ∈ es ∧ ∃ i, rand i = k

/-- One of the insertions failed. -/
def Spec.Failed (es : List (Ev W)) (rs : List (Except DiskFault Unit)) : Prop :=
  ∃ w ids os f, (Ev.insert w ids os, Except.error f) ∈ es.zip rs

/-! ## Lemmas on runs -/

section
variable {N : Nat}

theorem sys_run_append (P : Params W) (es fs : List (Ev W)) : ∀ s : Sys N,
    s.run P (es ++ fs) = (((s.run P es).1.run P fs).1, (s.run P es).2 ++ ((s.run P es).1.run P fs).2) := by
  induction es with
  | nil => intro s; rfl
  | cons e es ih =>
    intro s
    rw [List.cons_append, Sys.run, Sys.run]
    dsimp only
    rw [ih]
    rfl

theorem sys_run_length (P : Params W) (es : List (Ev W)) : ∀ s : Sys N, (s.run P es).2.length = es.length := by
  induction es with
  | nil => intro s; rfl
  | cons e es ih => intro s; rw [Sys.run]; simp [ih]

theorem sys_run_cons (P : Params W) (s : Sys N) (e : Ev W) (es : List (Ev W)) :
    s.run P (e :: es) = (((s.step P e).1.run P es).1, (s.step P e).2 :: ((s.step P e).1.run P es).2) := rfl

variable {page size : Nat} {prf : W → Token} {H : List UInt8 → CoreKey} {n : UInt64}
  {rand : Nat → CoreKey} {index : List (W × List Index)}

theorem entries_inj (hok : Spec.IndexOk page size prf H n rand index) {y z : CoreKey × Vector Index N}
    (hy : y ∈ entriesOf N page prf H n rand index) (hz : z ∈ entriesOf N page prf H n rand index)
    (h : y.1 = z.1) : y = z :=
  List.inj_on_of_nodup_map (nodup_entries hok) hy hz h

/-- The key of an entry is a hash of the specification. -/
theorem entry_input (hok : Spec.IndexOk page size prf H n rand index) {y : CoreKey × Vector Index N}
    (hy : y ∈ tableEntries N (page / 8 - 6) prf H index) :
    ∃ a ∈ Spec.inputs (page / 8 - 6) prf index, y.1 = H a := by
  obtain ⟨z, hz, hy⟩ := List.mem_flatMap.mp hy
  have hy1 : y.1 ∈ (List.range' 1 (z.2.length / (page / 8 - 6))).map (keyOf prf H z.1) := by
    rw [← fst_fullBlocks (N := N) hok z]; exact List.mem_map_of_mem hy
  obtain ⟨j, hj, hjy⟩ := List.mem_map.mp hy1
  rw [List.mem_range'_1] at hj
  have hin : y.1 ∈ index.flatMap (Spec.keys (page / 8 - 6) prf H) :=
    List.mem_flatMap.mpr ⟨z, hz, List.mem_map.mpr ⟨j, List.mem_range.mpr (by omega), hjy⟩⟩
  have hm := Tethys.map_inputs prf H (fun x => x.2.length / (page / 8 - 6) + 2) index
  have : y.1 ∈ (Spec.inputs (page / 8 - 6) prf index).map H := by
    unfold Spec.inputs; rw [← hm]; exact hin
  obtain ⟨a, ha, he⟩ := List.mem_map.mp this
  exact ⟨a, ha, he.symm⟩

/-- The first key beyond the blocks of a list is a hash of the specification, and not the key of an entry. -/
theorem next_input (hok : Spec.IndexOk page size prf H n rand index) {x : W × List Index} (hx : x ∈ index) :
    (∃ a ∈ Spec.inputs (page / 8 - 6) prf index,
      deriveCoreKey H (prf x.1) (x.2.length / (page / 8 - 6) + 1) = H a) ∧
    ∀ y ∈ tableEntries N (page / 8 - 6) prf H index,
      y.1 ≠ deriveCoreKey H (prf x.1) (x.2.length / (page / 8 - 6) + 1) := by
  constructor
  · have hm := Tethys.map_inputs prf H (fun x => x.2.length / (page / 8 - 6) + 2) index
    have hin : deriveCoreKey H (prf x.1) (x.2.length / (page / 8 - 6) + 1) ∈
        index.flatMap (Spec.keys (page / 8 - 6) prf H) :=
      List.mem_flatMap.mpr ⟨x, hx, List.mem_map.mpr ⟨_, List.mem_range.mpr (by omega), rfl⟩⟩
    have : deriveCoreKey H (prf x.1) (x.2.length / (page / 8 - 6) + 1) ∈
        (Spec.inputs (page / 8 - 6) prf index).map H := by
      unfold Spec.inputs; rw [← hm]; exact hin
    obtain ⟨a, ha, he⟩ := List.mem_map.mp this
    exact ⟨a, ha, he.symm⟩
  · intro y hy he
    obtain ⟨z, hz, hy⟩ := List.mem_flatMap.mp hy
    have hy1 : y.1 ∈ (List.range' 1 (z.2.length / (page / 8 - 6))).map (keyOf prf H z.1) := by
      rw [← fst_fullBlocks (N := N) hok z]; exact List.mem_map_of_mem hy
    obtain ⟨j, hj, hjy⟩ := List.mem_map.mp hy1
    rw [List.mem_range'_1] at hj
    rw [he] at hjy
    have hcx := hok.counters x hx
    have hcz := hok.counters z hz
    have hin : ∀ (u : W × List Index), u ∈ index → ∀ i, i < u.2.length / (page / 8 - 6) + 2 →
        Tethys.Spec.blockInput (prf u.1) i ∈ Spec.inputs (page / 8 - 6) prf index := by
      intro u hu i hi
      exact List.mem_flatMap.mpr ⟨u, hu, List.mem_map.mpr ⟨i, List.mem_range.mpr hi, rfl⟩⟩
    unfold keyOf at hjy
    rw [Tethys.deriveCoreKey_input, Tethys.deriveCoreKey_input] at hjy
    have h1 := hok.hashes _ (hin z hz j (by omega)) _ (hin x hx (x.2.length / (page / 8 - 6) + 1) (by omega)) hjy
    have h2 := Tethys.blockInput_inj (by omega) (by omega) h1
    have h3 : z = x := List.inj_on_of_nodup_map hok.tokens hz hx h2.1
    rw [h3] at hj
    omega

/-- What holds during the construction, when the lists of `acc` are inserted; `D` holds for the random keys,
and `F` if an insertion fails. -/
structure Inv (P : Params W) (s0 : Tethys.Builder) (n : UInt64) (index : List (W × List Index))
    (d : Disk N) (D : CoreKey → Prop) (F : Prop) (acc : List (W × List Index)) (s : Sys N) : Prop where
  builder : ∃ c, s.builder = some ⟨s0.insertAll (storeLists (P.page / 8 - 6) P.prf P.H acc), c, n⟩ ∧
    Spec.fullCount (P.page / 8 - 6) acc ≤ c ∧ (Spec.fullCount (P.page / 8 - 6) index = 0 → c = 0) ∧
    (¬ F → c = Spec.fullCount (P.page / 8 - 6) acc)
  table : s.disk.table = d.table
  stash : s.disk.stash = d.stash
  written : ∀ y ∈ tableEntries N (P.page / 8 - 6) P.prf P.H acc, s.disk.rocks y.1 = some y.2
  others : ∀ k, (∀ y ∈ tableEntries N (P.page / 8 - 6) P.prf P.H index, y.1 ≠ k) → ¬ D k →
    s.disk.rocks k = d.rocks k

theorem storeLists_append {L : Nat} (xs ys : List (W × List Index)) :
    storeLists L prf H (xs ++ ys) = storeLists L prf H xs ++ storeLists L prf H ys := by
  unfold storeLists; simp

theorem tableEntries_append {L : Nat} (xs ys : List (W × List Index)) :
    tableEntries N L prf H (xs ++ ys) = tableEntries N L prf H xs ++ tableEntries N L prf H ys := by
  unfold tableEntries; simp

theorem store_small (hok : Spec.IndexOk page size prf H n rand index) :
    Tethys.SmallEnough page (storeLists (page / 8 - 6) prf H index) := by
  unfold Tethys.SmallEnough
  refine Nat.lt_of_le_of_lt (Nat.add_le_add_right ?_ _) hok.total
  generalize page / 8 - 6 = L
  unfold storeLists
  generalize index = l
  induction l with
  | nil => simp
  | cons x l ih =>
    simp only [List.flatMap_cons, List.map_append, List.sum_append, List.map_cons, List.sum_cons]
    refine Nat.add_le_add ?_ ih
    have := length_lastBlock_le (L := L) x.2 []
    split
    · simp at this ⊢; omega
    · simp

theorem fullCount_zero {L : Nat} (h : Spec.fullCount L index = 0) {x : W × List Index} (hx : x ∈ index) :
    x.2.length / L = 0 := by
  unfold Spec.fullCount at h
  rw [List.sum_eq_zero_iff] at h
  exact h _ (List.mem_map.mpr ⟨x, hx, rfl⟩)

/-- One call -/
theorem inv_step (P : Params W) {s0 : Tethys.Builder} (hs0 : Tethys.Builder.new P.page size P.hash = .ok s0)
    (hok : Spec.IndexOk P.page size P.prf P.H n rand index) {d : Disk N} {D : CoreKey → Prop} {F : Prop}
    {acc rest : List (W × List Index)} {s : Sys N} {e : Ev W}
    (hcall : Spec.CallOk (P.page / 8 - 6) P.prf P.H index (e, (s.step P e).2))
    (hD : ∀ rand os, e = .build rand os → ∀ i, D (rand i))
    (hF : ∀ w ids os f, (e, (s.step P e).2) = (.insert w ids os, .error f) → F)
    (hacc : acc ++ ((Spec.accepted (e, (s.step P e).2)).toList ++ rest) = index)
    (hinv : Inv P s0 n index d D F acc s) :
    Inv P s0 n index d D F (acc ++ (Spec.accepted (e, (s.step P e).2)).toList) (s.step P e).1 := by
  have hroom := hok.room
  have hL : 0 < P.page / 8 - 6 := by omega
  obtain ⟨⟨c, hb, hc1, hc2, hc3⟩, htab, hst, hw, hothers⟩ := hinv
  cases e with
  | new _ _ => exact hcall.elim
  | kill => exact hcall.elim
  | removeStore => exact hcall.elim
  | build rand' os =>
    have hdraw := hD rand' os rfl
    obtain ⟨hcall, hfresh⟩ := hcall
    rw [hcall]
    simp only [Spec.accepted, Option.toList, List.append_nil]
    unfold Sys.step at hcall ⊢
    rw [hb] at hcall ⊢
    dsimp only at hcall ⊢
    obtain ⟨done, h1, h2, -⟩ := fillDummies_spec (N := N) ((List.range' c
      ((nFullBlocks (tethysLength P.page) n).toNat - c)).map rand') os s.disk.rocks
    have key : ∀ r : Map CoreKey (Vector Index N) × Bool, r.1 = putAll s.disk.rocks
        (done.map (fun k => (k, padded N []))) →
        (∀ y ∈ tableEntries N (P.page / 8 - 6) P.prf P.H acc, r.1 y.1 = some y.2) ∧
        ∀ k, (∀ y ∈ tableEntries N (P.page / 8 - 6) P.prf P.H index, y.1 ≠ k) → ¬ D k → r.1 k = d.rocks k := by
      intro r hr
      rw [hr]
      have hrand : ∀ k ∈ done, ∃ i, rand' i = k := by
        intro k hk
        obtain ⟨i, -, hi⟩ := List.mem_map.mp (h2 k hk)
        exact ⟨i, hi⟩
      refine ⟨?_, ?_⟩
      · intro y hy
        rw [putAll_other, hw y hy]
        intro z hz he
        obtain ⟨k, hk, rfl⟩ := List.mem_map.mp hz
        obtain ⟨i, hi⟩ := hrand k hk
        obtain ⟨a, ha, hya⟩ := entry_input hok (y := y) (by
          rw [← hacc, tableEntries_append]; exact List.mem_append_left _ hy)
        exact hfresh i a ha (by rw [← hya, ← he, hi])
      · intro k hk hDk
        rw [putAll_other, hothers k hk hDk]
        intro z hz he
        obtain ⟨k', hk', rfl⟩ := List.mem_map.mp hz
        obtain ⟨i, hi⟩ := hrand k' hk'
        apply hDk
        rw [← he, ← hi]
        exact hdraw i
    have hk := key _ h1
    generalize fillDummies ((List.range' c ((nFullBlocks (tethysLength P.page) n).toNat - c)).map rand') os
      s.disk.rocks = r at hk hcall ⊢
    obtain ⟨m, o⟩ := r
    cases o with
    | false => exact ⟨⟨c, rfl, hc1, hc2, hc3⟩, htab, hst, hk.1, hk.2⟩
    | true =>
      exfalso
      dsimp only at hcall
      split at hcall <;> cases hcall
  | insert w ids os =>
    -- the list is one of the index
    have hmem : (w, ids) ∈ index := by
      cases ho : (s.step P (.insert w ids os)).2 with
      | ok _ =>
        rw [ho] at hacc
        rw [← hacc]
        simp [Spec.accepted]
      | error f =>
        rw [ho] at hcall
        exact hcall.2
    have hsub : ∀ y ∈ fullBlocks N (P.page / 8 - 6) (keyOf P.prf P.H w) ids [] 1,
        y ∈ tableEntries N (P.page / 8 - 6) P.prf P.H index := fun y hy =>
      List.mem_flatMap.mpr ⟨(w, ids), hmem, hy⟩
    have hacc' : ∀ y ∈ tableEntries N (P.page / 8 - 6) P.prf P.H acc,
        y ∈ tableEntries N (P.page / 8 - 6) P.prf P.H index := by
      intro y hy
      rw [← hacc, tableEntries_append]
      exact List.mem_append_left _ hy
    have hent : ∀ y ∈ tableEntries N (P.page / 8 - 6) P.prf P.H index,
        y ∈ entriesOf N P.page P.prf P.H n rand index := fun y hy => List.mem_append_left _ hy
    obtain ⟨done, k, h1, h2, h3, h4, h5⟩ := fillLoop_spec (N := N) (P.page / 8 - 6) (keyOf P.prf P.H w) ids [] 1
      os s.disk.rocks c
    rw [length_fullBlocks hL _ ids [] 1 hL, List.length_nil, Nat.zero_add] at h4 h5
    have hrocks : ∀ m : Map CoreKey (Vector Index N), m = putAll s.disk.rocks done →
        (∀ y ∈ tableEntries N (P.page / 8 - 6) P.prf P.H acc, m y.1 = some y.2) ∧
        (∀ y ∈ done, m y.1 = some y.2) ∧
        ∀ k, (∀ y ∈ tableEntries N (P.page / 8 - 6) P.prf P.H index, y.1 ≠ k) → ¬ D k → m k = d.rocks k := by
      rintro m rfl
      refine ⟨?_, ?_, ?_⟩
      · intro y hy
        apply putAll_mem
        · intro z hz he
          exact entries_inj hok (hent z (hsub z (h2 z hz))) (hent y (hacc' y hy)) he
        · exact Or.inl (hw y hy)
      · intro y hy
        apply putAll_mem
        · intro z hz he
          exact entries_inj hok (hent z (hsub z (h2 z hz))) (hent y (hsub y (h2 y hy))) he
        · exact Or.inr hy
      · intro k hk hDk
        rw [putAll_other, hothers k hk hDk]
        intro z hz
        exact hk z (hsub z (h2 z hz))
    have hzero : Spec.fullCount (P.page / 8 - 6) index = 0 → k = 0 := by
      intro h
      have := fullCount_zero h hmem
      simp only at this
      omega
    obtain ⟨hr1, hr2, hr3⟩ := hrocks _ h1
    clear hrocks h1
    have hloop : fillLoop (N := N) (tethysLength P.page) (deriveCoreKey P.H (P.prf w)) ids [] 1 os s.disk.rocks c =
      fillLoop (P.page / 8 - 6) (keyOf P.prf P.H w) ids [] 1 os s.disk.rocks c := rfl
    unfold Sys.step at hcall hacc hF ⊢
    rw [hb] at hcall hacc hF ⊢
    dsimp only at hcall hacc hF ⊢
    rw [hloop] at hcall hacc hF ⊢
    generalize fillLoop (P.page / 8 - 6) (keyOf P.prf P.H w) ids [] 1 os s.disk.rocks c = r at h3 h5 hr1 hr2 hr3 hcall hacc hF ⊢
    obtain ⟨m, c', o⟩ := r
    dsimp only at h3 h5 hr1 hr2 hr3
    subst h3
    rcases h5 with rfl | ⟨rfl, rfl, rfl⟩
    · -- `Put` fails
      simp only [Spec.accepted, Option.toList, List.append_nil]
      exact ⟨⟨c + k, rfl, by omega, fun h => by rw [hc2 h, hzero h],
        fun h => absurd (hF w ids os .put rfl) h⟩, htab, hst, hr1, hr3⟩
    · have hcount : Spec.fullCount (P.page / 8 - 6) (acc ++ [(w, ids)]) ≤ c + ids.length / (P.page / 8 - 6) := by
        unfold Spec.fullCount at hc1 ⊢
        simp only [List.map_append, List.sum_append, List.map_cons, List.map_nil, List.sum_cons, List.sum_nil]
        omega
      have hcount' : ¬ F → c + ids.length / (P.page / 8 - 6) =
          Spec.fullCount (P.page / 8 - 6) (acc ++ [(w, ids)]) := by
        intro h
        have := hc3 h
        unfold Spec.fullCount at this ⊢
        simp only [List.map_append, List.sum_append, List.map_cons, List.map_nil, List.sum_cons, List.sum_nil]
        omega
      have hwritten : ∀ y ∈ tableEntries N (P.page / 8 - 6) P.prf P.H (acc ++ [(w, ids)]), m y.1 = some y.2 := by
        intro y hy
        rw [tableEntries_append] at hy
        rcases List.mem_append.mp hy with hy | hy
        · exact hr1 y hy
        · exact hr2 y (by simpa [tableEntries] using hy)
      have hzero' : Spec.fullCount (P.page / 8 - 6) index = 0 → c + ids.length / (P.page / 8 - 6) = 0 :=
        fun h => by rw [hc2 h, hzero h]
      dsimp only at hcall hacc ⊢
      by_cases hlast : (lastBlock (P.page / 8 - 6) ids []).length > 0
      · rw [if_pos hlast] at hcall hacc ⊢
        cases hins : (s0.insertAll (storeLists (P.page / 8 - 6) P.prf P.H acc)).insertList
            (deriveCoreKey P.H (P.prf w) 0) (lastBlock (P.page / 8 - 6) ids []) with
        | mk st o =>
          rw [hins] at hcall hacc
          cases o with
          | error f =>
            exfalso
            have := hcall.1
            cases this
          | ok u =>
            simp only [Spec.accepted, Option.toList] at hacc ⊢
            have hsm := store_small hok
            rw [← hacc, storeLists_append, storeLists_append] at hsm
            have hone : storeLists (P.page / 8 - 6) P.prf P.H [(w, ids)] =
                [(keyOf P.prf P.H w 0, lastBlock (P.page / 8 - 6) ids [])] := by
              unfold storeLists
              simp only [List.flatMap_cons, List.flatMap_nil, List.append_nil]
              rw [if_pos hlast]
            rw [hone, ← List.append_assoc] at hsm
            have hlen := length_lastBlock hL ids [] hL
            have h6 := Tethys.insertList_ok hok.buckets hs0 (storeLists (P.page / 8 - 6) P.prf P.H acc)
              (keyOf P.prf P.H w 0, lastBlock (P.page / 8 - 6) ids []) (Tethys.smallEnough_append_left hsm)
              (by simp only; omega)
            have h7 : st = s0.insertAll (storeLists (P.page / 8 - 6) P.prf P.H (acc ++ [(w, ids)])) := by
              rw [storeLists_append, hone]
              exact congrArg Prod.fst (hins.symm.trans h6)
            exact ⟨⟨_, by rw [← h7], hcount, hzero', hcount'⟩, htab, hst, hwritten, hr3⟩
      · rw [if_neg hlast] at hcall hacc ⊢
        simp only [Spec.accepted, Option.toList] at hacc ⊢
        have hone : storeLists (P.page / 8 - 6) P.prf P.H [(w, ids)] = [] := by
          unfold storeLists
          simp only [List.flatMap_cons, List.flatMap_nil, List.append_nil]
          rw [if_neg hlast]
        refine ⟨⟨_, ?_, hcount, hzero', hcount'⟩, htab, hst, hwritten, hr3⟩
        rw [storeLists_append, hone, List.append_nil]

/-- The calls before the last one -/
theorem inv_run (P : Params W) {s0 : Tethys.Builder} (hs0 : Tethys.Builder.new P.page size P.hash = .ok s0)
    (hok : Spec.IndexOk P.page size P.prf P.H n rand index) {d : Disk N} {D : CoreKey → Prop} {F : Prop} (es : List (Ev W)) :
    ∀ (s : Sys N) (acc : List (W × List Index)),
      (∀ p ∈ es.zip (s.run P es).2, Spec.CallOk (P.page / 8 - 6) P.prf P.H index p) →
      (∀ rand os, Ev.build rand os ∈ es → ∀ i, D (rand i)) →
      (∀ w ids os f, (Ev.insert w ids os, Except.error f) ∈ es.zip (s.run P es).2 → F) →
      acc ++ (es.zip (s.run P es).2).filterMap Spec.accepted = index →
      Inv P s0 n index d D F acc s → Inv P s0 n index d D F index (s.run P es).1 := by
  induction es with
  | nil =>
    intro s acc _ _ _ hacc hinv
    simp only [List.zip_nil_left, List.filterMap_nil, List.append_nil] at hacc
    subst hacc
    exact hinv
  | cons e es ih =>
    intro s acc hcall hD hF hacc hinv
    rw [sys_run_cons] at hcall hacc hF ⊢
    dsimp only at hcall hacc hF ⊢
    rw [List.zip_cons_cons] at hcall hacc hF
    have hsplit : ((e, (s.step P e).2) :: es.zip ((s.step P e).1.run P es).2).filterMap Spec.accepted =
        (Spec.accepted (e, (s.step P e).2)).toList ++
          (es.zip ((s.step P e).1.run P es).2).filterMap Spec.accepted := by
      rw [List.filterMap_cons]
      cases Spec.accepted (e, (s.step P e).2) <;> rfl
    rw [hsplit] at hacc
    refine ih _ _ (fun p hp => hcall p (List.mem_cons_of_mem _ hp))
      (fun r o h => hD r o (List.mem_cons_of_mem _ h))
      (fun w ids os f h => hF w ids os f (List.mem_cons_of_mem _ h)) (by rw [List.append_assoc]; exact hacc)
      (inv_step P hs0 hok (hcall _ (List.mem_cons_self ..))
        (fun r o h => hD r o (by rw [h]; exact List.mem_cons_self ..))
        (fun w ids os f h => hF w ids os f (by rw [h]; exact List.mem_cons_self ..)) hacc hinv)

/-- The files of the Tethys store -/
theorem store_files (P : Params W) {s0 : Tethys.Builder} (hs0 : Tethys.Builder.new P.page size P.hash = .ok s0)
    (hok : Spec.IndexOk P.page size P.prf P.H n rand index) :
    ∃ fs, (s0.insertAll (storeLists (P.page / 8 - 6) P.prf P.H index)).build P.enc none = .ok fs ∧
      fs.table.length = size ∧ (∀ p ∈ fs.table, p.length = P.page) ∧
      (s0.insertAll (storeLists (P.page / 8 - 6) P.prf P.H index)).page = P.page := by
  have hsm := store_small hok
  obtain ⟨b0, a0, a, hb0, -, -, hpg⟩ := Tethys.insertAll_builder P.hash hok.buckets
    (storeLists (P.page / 8 - 6) P.prf P.H index) hsm
  rw [hs0] at hb0
  cases hb0
  obtain ⟨recs, cs, b0', hb0', -, -, hcs, -, hb⟩ := Tethys.build_spec (page := P.page) P.hash hok.buckets
    (storeLists (P.page / 8 - 6) P.prf P.H index) hsm
  rw [hs0] at hb0'
  cases hb0'
  refine ⟨_, hb P.enc none, by simp, ?_, by rw [hpg]⟩
  intro p hp
  obtain ⟨v, hv, rfl⟩ := List.mem_map.mp hp
  rw [Tethys.seal_length]
  unfold Tethys.pageOf
  have := hcs v (List.mem_range.mp hv)
  simp only [List.length_append, List.length_replicate]
  omega

/-- The construction with a table whose content is given -/
theorem const_build (P : Params W) {s0 : Tethys.Builder} (hs0 : Tethys.Builder.new P.page size P.hash = .ok s0)
    (hok : Spec.IndexOk P.page size P.prf P.H n rand index) {fs : Tethys.Files}
    (hfs : (s0.insertAll (storeLists (P.page / 8 - 6) P.prf P.H index)).build P.enc none = .ok fs)
    (m : Map CoreKey (Vector Index N)) (k : UInt64) (rand' : Nat → CoreKey) :
    schemeBuild (constTable m) P.page size (P.page / 8 - 6) P.hash P.prf P.H P.enc k rand' index =
      .ok (m, fs) := by
  have hroom := hok.room
  unfold schemeBuild
  rw [hs0]
  dsimp only
  have hidx := insertIndex_spec (ht := constTable m) (L := P.page / 8 - 6) hok.buckets hs0 (by omega) (by omega)
    P.prf P.H index [] () () 0 (by simpa using store_small hok) (constTable_insertAll m _)
  rw [List.nil_append, show s0.insertAll [] = s0 from rfl] at hidx
  rw [hidx]
  dsimp only
  unfold Builder.build
  dsimp only
  rw [addDummies_spec (ht := constTable m) _ () () (constTable_insertAll m _)]
  dsimp only
  rw [hfs]

end

/-- The values have exactly one block. -/
theorem const_search (P : Params W) {size : Nat} {n : UInt64} {rand : Nat → CoreKey}
    {index : List (W × List Index)} {s0 : Tethys.Builder}
    (hs0 : Tethys.Builder.new P.page size P.hash = .ok s0)
    (hok : Spec.IndexOk P.page size P.prf P.H n rand index) {fs : Tethys.Files}
    (hfs : (s0.insertAll (storeLists (P.page / 8 - 6) P.prf P.H index)).build P.enc none = .ok fs)
    (m : Map CoreKey (Vector Index (P.page / 8 - 6)))
    (hm : ∀ y ∈ tableEntries (P.page / 8 - 6) (P.page / 8 - 6) P.prf P.H index, m y.1 = some y.2)
    (hd : Spec.fullCount (P.page / 8 - 6) index = 0 →
      ∀ k ∈ Spec.dummies (P.page / 8 - 6) n rand index, m k = some (padded _ [])) :
    (∀ x ∈ index, m (deriveCoreKey P.H (P.prf x.1) (x.2.length / (P.page / 8 - 6) + 1)) = none →
      ∀ fuel, x.2.length / (P.page / 8 - 6) < fuel →
      ∃ r, schemeSearch (constTable m) P.hash P.prf P.H P.enc m fs fuel x.1 = .ok r ∧ r.Perm x.2) ∧
    ∀ w, Spec.Absent P.page P.prf P.H n rand index w → m (deriveCoreKey P.H (P.prf w) 1) = none →
      ∀ fuel, 0 < fuel → schemeSearch (constTable m) P.hash P.prf P.H P.enc m fs fuel w = .ok [] := by
  have key : ∀ (n' : UInt64), Spec.IndexOk P.page size P.prf P.H n' rand index →
      (∀ k ∈ Spec.dummies (P.page / 8 - 6) n' rand index, m k = some (padded _ [])) →
      (∀ w, Spec.Absent P.page P.prf P.H n rand index w → Spec.Absent P.page P.prf P.H n' rand index w) →
      (∀ x ∈ index, m (deriveCoreKey P.H (P.prf x.1) (x.2.length / (P.page / 8 - 6) + 1)) = none →
        ∀ fuel, x.2.length / (P.page / 8 - 6) < fuel →
        ∃ r, schemeSearch (constTable m) P.hash P.prf P.H P.enc m fs fuel x.1 = .ok r ∧ r.Perm x.2) ∧
      ∀ w, Spec.Absent P.page P.prf P.H n rand index w → m (deriveCoreKey P.H (P.prf w) 1) = none →
        ∀ fuel, 0 < fuel → schemeSearch (constTable m) P.hash P.prf P.H P.enc m fs fuel w = .ok [] := by
    intro n' hok' hdum habs
    have hlook : Looks (constTable m) m (entriesOf (P.page / 8 - 6) P.page P.prf P.H n' rand index)
        (fun k => m k = none) := by
      constructor
      · intro y hy
        have hy' : m y.1 = some y.2 := by
          rcases List.mem_append.mp hy with hy | hy
          · exact hm y hy
          · obtain ⟨k, hk, rfl⟩ := List.mem_map.mp hy
            exact hdum k hk
        exact rocksdb_get_some hy'
      · intro k _ hk
        exact rocksdb_get_none hk
    obtain ⟨fs', h1, h2, h3⟩ := search_spec (constTable m) P.hash P.enc hok' (Nat.le_refl _)
      (fun k => m k = none) (b := ()) (t := m) (constTable_insertAll m _) rfl hlook
    rw [const_build P hs0 hok hfs m n' rand] at h1
    cases h1
    refine ⟨?_, fun w hw hk fuel hf => h3 w (habs w hw) hk fuel hf⟩
    intro x hx hk fuel hf
    obtain ⟨r, hr, hp⟩ := h2 x hx hk fuel hf
    refine ⟨r, hr, ?_⟩
    rw [Nat.sub_self, Nat.mul_zero] at hp
    simpa using hp
  by_cases h0 : Spec.fullCount (P.page / 8 - 6) index = 0
  · exact key n hok (hd h0) (fun w hw => hw)
  · have hnil : Spec.dummies (P.page / 8 - 6) 1 rand index = [] := by
      unfold Spec.dummies
      have h1 : (nFullBlocks (P.page / 8 - 6) 1).toNat = 1 := by
        unfold nFullBlocks
        rw [UInt64.sub_self, UInt64.zero_div]
        rfl
      rw [h1, show 1 - Spec.fullCount (P.page / 8 - 6) index = 0 by omega]
      rfl
    refine key 1 ⟨hok.buckets, hok.aligned, hok.small, hok.room, hok.total, hok.counters, hok.tokens, hok.hashes,
      by rw [hnil]; exact List.nodup_nil, by rw [hnil]; simp⟩ (by rw [hnil]; simp) ?_
    intro w hw
    refine ⟨hw.1, fun i hi => ⟨(hw.2 i hi).1, by rw [hnil]; simp⟩⟩

/-- The blocks that the server reads -/
theorem server_blocks {page size : Nat} {prf : W → Token} {H : List UInt8 → CoreKey} {n : UInt64}
    {rand : Nat → CoreKey} {index : List (W × List Index)} (hok : Spec.IndexOk page size prf H n rand index)
    {m : Map CoreKey (Vector Index (page / 8 - 6))}
    (hm : ∀ y ∈ tableEntries (page / 8 - 6) (page / 8 - 6) prf H index, m y.1 = some y.2)
    {x : W × List Index} (hx : x ∈ index) (bad : CoreKey → Bool) (j : Nat)
    (hj : j ≤ x.2.length / (page / 8 - 6)) (hgood : ∀ i < j, bad (deriveCoreKey H (prf x.1) (i + 1)) = false)
    (hend : unread bad m (deriveCoreKey H (prf x.1) (j + 1)) = none) {fuel : Nat} (hf : j < fuel) :
    serverLoop (rocksdb (page / 8 - 6)) (unread bad m) (deriveCoreKey H (prf x.1)) fuel 1 =
      .ok (x.2.take (j * (page / 8 - 6))) := by
  have hroom := hok.room
  have hL : 0 < page / 8 - 6 := by omega
  have hc := hok.counters x hx
  have hlen : (fullBlocks (page / 8 - 6) (page / 8 - 6) (keyOf prf H x.1) x.2 [] 1).length =
      x.2.length / (page / 8 - 6) := by
    rw [length_fullBlocks hL _ x.2 [] 1 hL]; simp
  have htake := fullBlocks_take (key := keyOf prf H x.1) hL x.2 [] 1 j hL (by simpa using hj)
  rw [List.nil_append] at htake
  rw [← htake]
  have hlen' : ((fullBlocks (page / 8 - 6) (page / 8 - 6) (keyOf prf H x.1) x.2 [] 1).take j).length = j := by
    rw [List.length_take, hlen]; omega
  apply serverLoop_spec
  · rw [List.length_map, hlen']; exact hf
  · rw [List.length_map, hlen']; omega
  · intro i v hv
    rw [List.getElem?_map] at hv
    cases hi : ((fullBlocks (page / 8 - 6) (page / 8 - 6) (keyOf prf H x.1) x.2 [] 1).take j)[i]? with
    | none => rw [hi] at hv; cases hv
    | some y =>
      rw [hi] at hv
      cases hv
      have hlt : i < j := by
        have := (List.getElem?_eq_some_iff.mp hi).1
        omega
      rw [List.getElem?_take_of_lt hlt] at hi
      have hk : y.1 = deriveCoreKey H (prf x.1) (1 + i) := by
        have h5 : ((fullBlocks (page / 8 - 6) (page / 8 - 6) (keyOf prf H x.1) x.2 [] 1).map Prod.fst)[i]? =
            some y.1 := by
          rw [List.getElem?_map, hi]; rfl
        rw [fst_fullBlocks hok, List.getElem?_map, List.getElem?_range' (by omega)] at h5
        simp at h5
        exact h5.symm
      have h6 : unread bad m (deriveCoreKey H (prf x.1) (1 + i)) = some y.2 := by
        unfold unread
        rw [Nat.add_comm 1 i, hgood i hlt, ← Nat.add_comm 1 i, ← hk]
        exact hm y (List.mem_flatMap.mpr ⟨x, hx, List.mem_of_getElem? hi⟩)
      exact rocksdb_get_some h6
  · rw [List.length_map, hlen', Nat.add_comm]
    exact rocksdb_get_none hend

/-! ## All the calls -/

/-- The files after the calls -/
theorem retried_final (P : Params W) (size : Nat) (n : UInt64) (rand : Nat → CoreKey)
    (index : List (W × List Index)) (hok : Spec.IndexOk P.page size P.prf P.H n rand index)
    (d : Disk (P.page / 8 - 6)) (ht : d.table = []) (hst : d.stash = none) (es : List (Ev W)) (os : List Put)
    (s : Sys (P.page / 8 - 6)) (rs : List (Except DiskFault Unit))
    (hrun : Sys.run P ⟨d, none⟩ (.new size n :: (es ++ [.build rand os])) = (s, .ok () :: (rs ++ [.ok ()])))
    (hret : Spec.Retried P.page P.prf P.H index es rs) :
    ∃ s0 fs m, Tethys.Builder.new P.page size P.hash = .ok s0 ∧
      (s0.insertAll (storeLists (P.page / 8 - 6) P.prf P.H index)).build P.enc none = .ok fs ∧
      fs.table.length = size ∧ (∀ p ∈ fs.table, p.length = P.page) ∧
      s.disk = ⟨m, fs.table.flatten, fs.stash⟩ ∧
      (∀ y ∈ tableEntries (P.page / 8 - 6) (P.page / 8 - 6) P.prf P.H index, m y.1 = some y.2) ∧
      (∀ k, (∀ y ∈ tableEntries (P.page / 8 - 6) (P.page / 8 - 6) P.prf P.H index, y.1 ≠ k) →
        ¬ Spec.Drawn es k → k ∉ Spec.dummies (P.page / 8 - 6) n rand index → m k = d.rocks k) ∧
      ((Spec.fullCount (P.page / 8 - 6) index = 0 ∨ ¬ Spec.Failed es rs) →
        ∀ k ∈ Spec.dummies (P.page / 8 - 6) n rand index, m k = some (padded _ [])) ∧
      ∀ k, Spec.Drawn es k → ∀ a ∈ Spec.inputs (P.page / 8 - 6) P.prf index, P.H a ≠ k := by
  have hroom := hok.room
  have hL : 0 < P.page / 8 - 6 := by omega
  obtain ⟨s0, -, -, hs0, -⟩ := Tethys.insertAll_builder P.hash hok.buckets
    (storeLists (P.page / 8 - 6) P.prf P.H index) (store_small hok)
  obtain ⟨fs, hfs, hsize, hpages, hpage⟩ := store_files P hs0 hok
  -- the calls
  have hnew : Sys.step P (⟨d, none⟩ : Sys (P.page / 8 - 6)) (.new size n) = (⟨d, some ⟨s0, 0, n⟩⟩, .ok ()) := by
    unfold Sys.step
    dsimp only
    rw [hs0]
  rw [sys_run_cons, hnew, sys_run_append] at hrun
  dsimp only at hrun
  have hs := congrArg Prod.fst hrun
  have hr := (List.cons.inj (congrArg Prod.snd hrun)).2
  dsimp only at hs hr
  clear hrun
  rw [sys_run_cons] at hs hr
  obtain ⟨hr1, hr2⟩ := List.append_inj' hr rfl
  replace hr2 := (List.cons.inj hr2).1
  simp only [Sys.run] at hs
  subst hr1
  have hinv := inv_run P hs0 hok (d := d) (D := Spec.Drawn es) (F := Spec.Failed es
    (Sys.run P (⟨d, some ⟨s0, 0, n⟩⟩ : Sys (P.page / 8 - 6)) es).2) es ⟨d, some ⟨s0, 0, n⟩⟩ [] hret.calls
    (fun r o h i => ⟨r, o, h, i, rfl⟩) (fun w ids o f h => ⟨w, ids, o, f, h⟩) (by rw [List.nil_append]; exact hret.accepted)
    ⟨⟨0, rfl, Nat.le_refl _, fun _ => rfl, fun _ => rfl⟩, rfl, rfl, fun y hy => (by cases hy), fun _ _ _ => rfl⟩
  have hlen := sys_run_length P es (⟨d, some ⟨s0, 0, n⟩⟩ : Sys (P.page / 8 - 6))
  have hdrawn : ∀ k, Spec.Drawn es k → ∀ a ∈ Spec.inputs (P.page / 8 - 6) P.prf index, P.H a ≠ k := by
    rintro k ⟨r, o, hmem, i, rfl⟩ a ha
    have hz : Ev.build r o ∈ (es.zip (Sys.run P (⟨d, some ⟨s0, 0, n⟩⟩ : Sys (P.page / 8 - 6)) es).2).map Prod.fst := by
      rw [List.map_fst_zip (by omega)]; exact hmem
    obtain ⟨⟨e, q⟩, hp, he⟩ := List.mem_map.mp hz
    simp only at he
    subst he
    exact (hret.calls _ hp).2 i a ha
  clear hr hret hnew
  generalize (Sys.run P (⟨d, some ⟨s0, 0, n⟩⟩ : Sys (P.page / 8 - 6)) es).1 = s2 at hinv hs hr2
  -- the last call
  obtain ⟨⟨c, hb, hc1, hc2, hc3⟩, htab, hstash, hw, hothers⟩ := hinv
  obtain ⟨done, h1, -, h3⟩ := fillDummies_spec (N := P.page / 8 - 6) ((List.range' c
      ((nFullBlocks (tethysLength P.page) n).toNat - c)).map rand) os s2.disk.rocks
  unfold Sys.step at hs hr2
  rw [hb] at hs hr2
  dsimp only at hs hr2
  generalize hfd : fillDummies ((List.range' c ((nFullBlocks (tethysLength P.page) n).toNat - c)).map rand) os
    s2.disk.rocks = q at h1 h3 hs hr2
  obtain ⟨m, o⟩ := q
  cases o with
  | false => cases hr2
  | true =>
    have hdone := h3 rfl
    subst hdone
    dsimp only at h1 hs
    obtain ⟨b', hbf⟩ := Tethys.buildFiles_new _ P.enc none fs hfs (by rw [hpage]; exact hpages)
    rw [htab, ht, hstash, hst, hbf] at hs
    dsimp only at hs
    -- the content of the database
    have hdum : ∀ k ∈ (List.range' c ((nFullBlocks (tethysLength P.page) n).toNat - c)).map rand,
        k ∈ Spec.dummies (P.page / 8 - 6) n rand index := by
      intro k hk
      obtain ⟨i, hi, rfl⟩ := List.mem_map.mp hk
      rw [List.mem_range'_1] at hi
      refine List.mem_map.mpr ⟨i, ?_, rfl⟩
      rw [List.mem_range'_1]
      unfold tethysLength at hi
      omega
    have hm1 : ∀ y ∈ tableEntries (P.page / 8 - 6) (P.page / 8 - 6) P.prf P.H index, m y.1 = some y.2 := by
      intro y hy
      rw [h1, putAll_other, hw y hy]
      intro z hz he
      obtain ⟨k, hk, rfl⟩ := List.mem_map.mp hz
      obtain ⟨a, ha, hya⟩ := entry_input hok hy
      exact hok.fresh a ha k (hdum k hk) (by rw [← hya, ← he])
    have hm2 : ∀ k, (∀ y ∈ tableEntries (P.page / 8 - 6) (P.page / 8 - 6) P.prf P.H index, y.1 ≠ k) →
        ¬ Spec.Drawn es k → k ∉ Spec.dummies (P.page / 8 - 6) n rand index → m k = d.rocks k := by
      intro k hk hD hdk
      rw [h1, putAll_other, hothers k hk hD]
      intro z hz he
      obtain ⟨k', hk', rfl⟩ := List.mem_map.mp hz
      apply hdk
      rw [← he]
      exact hdum k' hk'
    have hm3 : (Spec.fullCount (P.page / 8 - 6) index = 0 ∨
        ¬ Spec.Failed es (Sys.run P (⟨d, some ⟨s0, 0, n⟩⟩ : Sys (P.page / 8 - 6)) es).2) →
        ∀ k ∈ Spec.dummies (P.page / 8 - 6) n rand index, m k = some (padded _ []) := by
      intro h0 k hk
      have hc0 : c = Spec.fullCount (P.page / 8 - 6) index := by
        rcases h0 with h0 | h0
        · rw [hc2 h0, h0]
        · exact hc3 h0
      rw [h1]
      apply putAll_mem (y := (k, padded _ []))
      · intro z hz he
        obtain ⟨k', -, rfl⟩ := List.mem_map.mp hz
        simp only at he
        rw [he]
      · right
        refine List.mem_map.mpr ⟨k, ?_, rfl⟩
        rw [hc0]
        exact hk
    exact ⟨s0, fs, m, hs0, hfs, hsize, hpages, by rw [← hs], hm1, hm2, hm3, hdrawn⟩

theorem retried_search (P : Params W) (size : Nat) (n : UInt64) (rand : Nat → CoreKey)
    (index : List (W × List Index)) (hok : Spec.IndexOk P.page size P.prf P.H n rand index)
    (d : Disk (P.page / 8 - 6)) (ht : d.table = []) (hst : d.stash = none) (es : List (Ev W)) (os : List Put)
    (s : Sys (P.page / 8 - 6)) (rs : List (Except DiskFault Unit))
    (hrun : Sys.run P ⟨d, none⟩ (.new size n :: (es ++ [.build rand os])) = (s, .ok () :: (rs ++ [.ok ()])))
    (hret : Spec.Retried P.page P.prf P.H index es rs) :
    (∀ x ∈ index, d.rocks (deriveCoreKey P.H (P.prf x.1) (x.2.length / (P.page / 8 - 6) + 1)) = none →
      ∀ (bad : CoreKey → Bool) (j fuel : Nat), j ≤ x.2.length / (P.page / 8 - 6) →
      x.2.length / (P.page / 8 - 6) < fuel →
      (∀ i < j, bad (deriveCoreKey P.H (P.prf x.1) (i + 1)) = false) →
      (j = x.2.length / (P.page / 8 - 6) ∨ bad (deriveCoreKey P.H (P.prf x.1) (j + 1)) = true) →
      ∃ r, s.disk.search P bad fuel x.1 = .ok r ∧
        r.Perm (x.2.take (j * (P.page / 8 - 6)) ++
          x.2.drop (x.2.length / (P.page / 8 - 6) * (P.page / 8 - 6)))) ∧
    ∀ w, Spec.Absent P.page P.prf P.H n rand index w → ¬ Spec.Drawn es (deriveCoreKey P.H (P.prf w) 1) →
      d.rocks (deriveCoreKey P.H (P.prf w) 1) = none → ∀ (bad : CoreKey → Bool) (fuel : Nat), 0 < fuel →
      s.disk.search P bad fuel w = .ok [] := by
  have hroom := hok.room
  have hL : 0 < P.page / 8 - 6 := by omega
  obtain ⟨s0, fs, m, hs0, hfs, hsize, hpages, hs, hm1, hm2, hm3, hdrawn⟩ := retried_final P size n rand index hok d
    ht hst es os s rs hrun hret
  obtain ⟨hsearch, habsent⟩ := const_search P hs0 hok hfs m hm1 (fun h => hm3 (Or.inl h))
  have hne : fs.table.flatten ≠ [] := by
    have hl := Tethys.flatten_length fs.table hpages
    have := hok.buckets
    intro he
    rw [he, hsize] at hl
    rcases Nat.mul_eq_zero.mp hl.symm with h | h <;> omega
  have hdisk : ∀ bad fuel w, s.disk.search P bad fuel w =
      schemeSearch (rocksdb (P.page / 8 - 6)) P.hash P.prf P.H P.enc (unread bad m) fs fuel w := by
    intro bad fuel w
    rw [hs]
    unfold Disk.search
    dsimp only
    rw [if_neg hne, Tethys.pagesOf_flatten (by omega) _ hpages]
  have hall : unread (fun _ => false) m = m := by
    funext k
    rfl
  refine ⟨?_, ?_⟩
  · intro x hx hk bad j fuel hj hfuel hgood hstop
    obtain ⟨⟨a, ha, hxa⟩, hnext⟩ := next_input (N := P.page / 8 - 6) hok hx
    have hmk : m (deriveCoreKey P.H (P.prf x.1) (x.2.length / (P.page / 8 - 6) + 1)) = none := by
      rw [hm2 _ hnext _ _, hk]
      · intro hD
        exact hdrawn _ hD a ha hxa.symm
      · intro hD
        exact hok.fresh a ha _ hD hxa.symm
    obtain ⟨R, hR, hperm⟩ := hsearch x hx hmk fuel hfuel
    obtain ⟨complete, r, hp1, hp2, rfl⟩ := search_parts hR
    have hall' := server_blocks hok hm1 hx (fun _ => false) (x.2.length / (P.page / 8 - 6)) (Nat.le_refl _)
      (fun _ _ => rfl) (by rw [hall]; exact hmk) hfuel
    rw [hall] at hall'
    rw [constTable_loop] at hp1
    have hcomp := Except.ok.inj (hp1.symm.trans hall')
    subst hcomp
    have hread := server_blocks hok hm1 hx bad j hj hgood (by
      unfold unread
      rcases hstop with rfl | h
      · split
        · rfl
        · exact hmk
      · rw [if_pos h]) (fuel := fuel) (by omega)
    refine ⟨_, (hdisk bad fuel x.1).trans (search_of_parts hread hp2), ?_⟩
    have hlast : r.Perm (x.2.drop (x.2.length / (P.page / 8 - 6) * (P.page / 8 - 6))) := by
      rw [← List.perm_append_right_iff (x.2.take (x.2.length / (P.page / 8 - 6) * (P.page / 8 - 6)))]
      exact hperm.trans ((List.Perm.of_eq (List.take_append_drop _ x.2).symm).trans List.perm_append_comm)
    exact (hlast.append_right _).trans List.perm_append_comm
  · intro w hw hD hk bad fuel hfuel
    have habs := Spec.Absent.keys hok hw 1 (by omega)
    have hmk : m (deriveCoreKey P.H (P.prf w) 1) = none := by
      rw [hm2 _ _ hD _, hk]
      · intro y hy he
        obtain ⟨z, hz, hy⟩ := List.mem_flatMap.mp hy
        have hy1 : y.1 ∈ (List.range' 1 (z.2.length / (P.page / 8 - 6))).map (keyOf P.prf P.H z.1) := by
          rw [← fst_fullBlocks (N := P.page / 8 - 6) hok z]; exact List.mem_map_of_mem hy
        obtain ⟨j, hj, hjy⟩ := List.mem_map.mp hy1
        rw [List.mem_range'_1] at hj
        apply habs
        rw [← he]
        exact List.mem_append_left _ (List.mem_flatMap.mpr ⟨z, hz,
          List.mem_map.mpr ⟨j, List.mem_range.mpr (by omega), hjy⟩⟩)
      · intro hd
        exact habs (List.mem_append_right _ hd)
    have hR := habsent w hw hmk fuel hfuel
    obtain ⟨complete, r, hp1, hp2, he⟩ := search_parts hR
    obtain ⟨rfl, rfl⟩ := List.append_eq_nil_iff.mp he.symm
    rw [hdisk, search_of_parts (r := []) (complete := []) _ hp2]
    · rfl
    · apply serverLoop_spec [] 1 fuel hfuel (by simp) (by simp)
      apply rocksdb_get_none
      unfold unread
      split
      · rfl
      · exact hmk

end Verif.Pluto
