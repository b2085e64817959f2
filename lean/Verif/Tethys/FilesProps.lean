import Verif.Tethys.FilesSearch

/-!
# Properties of the files of a Tethys database (C51)
-/

namespace Verif.Tethys

open Spec

set_option linter.unusedSectionVars false

variable {W : Type} [DecidableEq W]

/-! ## Lemmas on runs -/

theorem run_append (P : Params W) (es fs : List (Ev W)) : ∀ s : Sys W,
    s.run P (es ++ fs) = (((s.run P es).1.run P fs).1, (s.run P es).2 ++ ((s.run P es).1.run P fs).2) := by
  induction es with
  | nil => intro s; rfl
  | cons e es ih =>
    intro s
    rw [List.cons_append, Sys.run, Sys.run]
    dsimp only
    rw [ih]
    rfl

/-- The insertions of an index, when none fails -/
theorem run_inserts (P : Params W) (index : List (W × List Index)) : ∀ (d : Disk W) (b : Builder)
    (sb : SchemeBuilder W), (SchemeBuilder.mk b d.counters).insertIndex P.prf P.H index = (sb, .ok ()) →
    Sys.run P ⟨d, some b⟩ (index.map (fun x => Ev.insert x.1 x.2)) =
      (⟨{ d with counters := sb.counters }, some sb.store⟩, List.replicate index.length (.ok ())) := by
  induction index with
  | nil =>
    intro d b sb h
    cases h
    rfl
  | cons x xs ih =>
    intro d b sb h
    unfold SchemeBuilder.insertIndex at h
    split at h
    · cases h
    · rename_i b' hb'
      rw [List.map_cons, Sys.run]
      have hstep : Sys.step P ⟨d, some b⟩ (.insert x.1 x.2) =
          (⟨{ d with counters := b'.counters }, some b'.store⟩, .ok ()) := by
        unfold Sys.step
        dsimp only
        rw [hb']
      rw [hstep]
      dsimp only
      rw [ih { d with counters := b'.counters } b'.store sb h]
      rfl

/-- The builder and the counters after the insertion of an index in a new builder -/
theorem run_index (P : Params W) (n : Nat) (index : List (W × List Index))
    (hok : IndexOk P.page n P.prf P.H index) (s : Sys W) {b0 : Builder}
    (hb0 : Builder.new P.page n P.hash = .ok b0) :
    s.run P (.new n :: index.map (fun x => Ev.insert x.1 x.2)) =
      (⟨{ s.disk with counters := countersOf P.page index s.disk.counters },
        some (b0.insertAll (blocksOf P.page P.prf P.H index))⟩,
        List.replicate (index.length + 1) (.ok ())) := by
  have hroom := hok.room
  have hm : 0 < P.page / 8 - 6 := by omega
  have hs : SmallEnough P.page (blocksOf P.page P.prf P.H index) := by
    unfold SmallEnough
    rw [sum_blocksOf hm]
    exact hok.total
  have hindex := insertIndex_spec hok.buckets hb0 hm P.prf P.H index [] s.disk.counters (by simpa using hs)
  rw [List.nil_append] at hindex
  have hstep : Sys.step P s (.new n) = (⟨s.disk, some b0⟩, .ok ()) := by
    unfold Sys.step
    dsimp only
    rw [hb0]
  rw [Sys.run, hstep]
  dsimp only
  rw [run_inserts P index s.disk b0 _ hindex]
  rfl

theorem new_size {page n : Nat} {hash : CoreKey → UInt64 × UInt64} {b0 : Builder}
    (h : Builder.new page n hash = .ok b0) : b0.size = n := by
  unfold Builder.new at h
  split at h
  · cases h
  · cases h; rfl

theorem insertList_size (b : Builder) (k : CoreKey) (v : List Index) : (b.insertList k v).1.size = b.size := by
  unfold Builder.insertList
  split
  · rfl
  · dsimp only
    split
    · rfl
    · split <;> rfl

theorem insertAll_size (ins : List (CoreKey × List Index)) : ∀ b : Builder, (b.insertAll ins).size = b.size := by
  induction ins with
  | nil => intro b; rfl
  | cons x xs ih =>
    intro b
    show ((b.insertList x.1 x.2).1.insertAll xs).size = b.size
    rw [ih, insertList_size]

/-- A build that finds no table and no stash file -/
theorem run_build (P : Params W) (n : Nat) (index : List (W × List Index))
    (hok : IndexOk P.page n P.prf P.H index) (d : Disk W) (ht : d.table = []) (hst : d.stash = none) :
    ∃ fs b, Sys.run P ⟨d, none⟩ (buildEvents n index) =
        (⟨⟨fs.table.flatten, fs.stash, countersOf P.page index d.counters⟩, some b⟩,
          List.replicate (index.length + 2) (.ok ())) ∧
      fs.table.flatten ≠ [] ∧ pagesOf P.page fs.table.flatten = fs.table ∧
      ∀ (c : Map W UInt32) (w : W),
        (∀ x ∈ index, x.1 = w → ∀ k, c w = some k →
          Unused P.page P.prf P.H index (P.prf w) (blockCount P.page x.2.length) k.toNat →
          ∃ r, schemeSearch P.hash P.prf P.H P.enc fs c w = .ok r ∧
            r.Subperm (x.2.take (k.toNat * (P.page / 8 - 6))) ∧
            ((∀ y ∈ index, y.2.length % (P.page / 8 - 6) ≠ 0) →
              r.Perm (x.2.take (k.toNat * (P.page / 8 - 6))))) ∧
        ((∀ k, c w = some k → Unused P.page P.prf P.H index (P.prf w) 0 k.toNat) →
          schemeSearch P.hash P.prf P.H P.enc fs c w = .ok []) := by
  have hroom := hok.room
  obtain ⟨b0, fs, h1, h2, h3, h4, h5, h6⟩ := search_counters P.page n P.hash P.prf P.H P.enc index hok
  obtain ⟨b', h7⟩ := buildFiles_new _ P.enc none fs h2 (by rw [h5]; exact h4)
  refine ⟨fs, b', ?_, ?_, pagesOf_flatten (by omega) _ h4, h6⟩
  · unfold buildEvents
    rw [← List.cons_append, run_append, run_index P n index hok ⟨d, none⟩ h1]
    dsimp only
    rw [Sys.run]
    have hstep : Sys.step P (⟨{ d with counters := countersOf P.page index d.counters },
          some (b0.insertAll (blocksOf P.page P.prf P.H index))⟩ : Sys W) .build =
        (⟨⟨fs.table.flatten, fs.stash, countersOf P.page index d.counters⟩, some b'⟩, .ok ()) := by
      unfold Sys.step
      dsimp only
      rw [ht, hst, h7]
    rw [hstep]
    dsimp only
    rw [Sys.run]
    rw [show index.length + 2 = (index.length + 1) + 1 by omega, List.replicate_succ' (n := index.length + 1)]
  · have hl := flatten_length fs.table h4
    have := hok.buckets
    intro he
    rw [he, h3] at hl
    rcases Nat.mul_eq_zero.mp hl.symm with h | h <;> omega

theorem search_of {P : Params W} {d : Disk W} {fs : Files} (h1 : d.table = fs.table.flatten)
    (h2 : d.stash = fs.stash) (h3 : fs.table.flatten ≠ []) (h4 : pagesOf P.page fs.table.flatten = fs.table)
    (w : W) : d.search P w = schemeSearch P.hash P.prf P.H P.enc fs d.counters w := by
  unfold Disk.search
  rw [h1, if_neg h3, h4, h2]

theorem countersOf_mem {page : Nat} {index : List (W × List Index)} (hd : (index.map Prod.fst).Nodup)
    (m : Map W UInt32) {x : W × List Index} (hx : x ∈ index) :
    countersOf page index m x.1 = some (UInt32.ofNat (blockCount page x.2.length)) :=
  (countersOf_spec page index m hd x.1).1 x hx rfl

theorem ofNat_blockCount {page n : Nat} {prf : W → Token} {H : List UInt8 → CoreKey}
    {index : List (W × List Index)} (hok : IndexOk page n prf H index) {x : W × List Index} (hx : x ∈ index) :
    (UInt32.ofNat (blockCount page x.2.length)).toNat = blockCount page x.2.length := by
  rw [UInt32.toNat_ofNat']
  exact Nat.mod_eq_of_lt (hok.counters x hx)

theorem take_blockCount {page : Nat} (hm : 0 < page / 8 - 6) (l : List Index) :
    l.take (blockCount page l.length * (page / 8 - 6)) = l := by
  apply List.take_of_length_le
  unfold blockCount
  have := Nat.lt_mul_div_succ l.length hm
  rw [Nat.mul_comm] at this
  omega

/-! ## The properties -/

/-- **C51**, when there is no table and no stash file: whatever was left in the counter database by earlier
builders, a build succeeds, and a search then returns the documents of the new index: those of the keyword,
or nothing for a keyword that has none. The restriction on the lengths is the one of C26. With a table,
see `C51_existing_table_kept`; with a stash file, `C51_stale_stash_violated`. -/
theorem C51_build_partial (P : Params W) (n : Nat) (index : List (W × List Index)) (d : Disk W)
    (hok : IndexOk P.page n P.prf P.H index) (hmul : ∀ x ∈ index, x.2.length % (P.page / 8 - 6) ≠ 0)
    (ht : d.table = []) (hst : d.stash = none) :
    (∀ o ∈ (Sys.run P ⟨d, none⟩ (buildEvents n index)).2, o = .ok ()) ∧
    (∀ x ∈ index, ∃ r, (Sys.run P ⟨d, none⟩ (buildEvents n index)).1.disk.search P x.1 = .ok r ∧ r.Perm x.2) ∧
    ∀ w, (∀ x ∈ index, x.1 ≠ w) → (∀ k, d.counters w = some k → Unused P.page P.prf P.H index (P.prf w) 0 k.toNat) →
      (Sys.run P ⟨d, none⟩ (buildEvents n index)).1.disk.search P w = .ok [] := by
  have hroom := hok.room
  obtain ⟨fs, b, h1, h2, h3, h4⟩ := run_build P n index hok d ht hst
  rw [h1]
  refine ⟨?_, ?_, ?_⟩
  · intro o ho
    exact List.eq_of_mem_replicate ho
  · intro x hx
    rw [search_of rfl rfl h2 h3]
    dsimp only
    obtain ⟨r, h5, -, h6⟩ := (h4 (countersOf P.page index d.counters) x.1).1 x hx rfl _
      (countersOf_mem hok.keywords _ hx) (by
        intro i h7 h8
        rw [ofNat_blockCount hok hx] at h8
        omega)
    refine ⟨r, h5, ?_⟩
    have := h6 hmul
    rw [ofNat_blockCount hok hx, take_blockCount (by omega)] at this
    exact this
  · intro w hw hk
    rw [search_of rfl rfl h2 h3]
    apply (h4 (countersOf P.page index d.counters) w).2
    intro k hc
    rw [(countersOf_spec P.page index d.counters hok.keywords w).2 hw] at hc
    exact hk k hc

/-- **C51**: a table that exists is never changed by a builder, nor the stash file beside it, whatever the
builders do and whenever the processes stop; and `build` reports the error. -/
theorem C51_existing_table_kept (P : Params W) (s : Sys W) (hs : s.disk.table ≠ [])
    (hb : ∀ b, s.builder = some b → 0 < b.size) (es : List (Ev W)) (hr : ∀ e ∈ es, e ≠ .removeTable)
    (hn : ∀ n, Ev.new n ∈ es → 0 < n) :
    (s.run P es).1.disk.table = s.disk.table ∧ (s.run P es).1.disk.stash = s.disk.stash ∧
    ∀ i, es[i]? = some .build → (s.run P (es.take i)).1.builder ≠ none →
      ∃ f, (s.run P es).2[i]? = some (.error f) := by
  induction es generalizing s with
  | nil => exact ⟨rfl, rfl, by simp⟩
  | cons e es ih =>
    have hstep : (s.step P e).1.disk.table = s.disk.table ∧ (s.step P e).1.disk.stash = s.disk.stash ∧
        (∀ b, (s.step P e).1.builder = some b → 0 < b.size) ∧
        (e = .build → s.builder ≠ none → ∃ f, (s.step P e).2 = .error f) := by
      cases e with
      | new n =>
        unfold Sys.step
        dsimp only
        cases h : Builder.new P.page n P.hash with
        | error f => exact ⟨rfl, rfl, (by intro b hb; cases hb), (by intro h; cases h)⟩
        | ok b0 =>
          refine ⟨rfl, rfl, ?_, (by intro h; cases h)⟩
          intro b hb
          cases hb
          rw [new_size h]
          exact hn n (List.mem_cons_self ..)
      | insert w ids =>
        unfold Sys.step
        dsimp only
        cases h : s.builder with
        | none => exact ⟨rfl, rfl, (by intro b hb; rw [h] at hb; cases hb), (by intro h; cases h)⟩
        | some b =>
          refine ⟨rfl, rfl, ?_, (by intro h; cases h)⟩
          intro b' hb'
          cases hb'
          have hsize : ∀ (max : Nat) (key : Nat → CoreKey) (ids block : List Index) (c : Nat) (b : Builder),
              (insertLoop max key ids block c b).1.size = b.size := by
            intro max key ids
            induction ids with
            | nil => intros; rfl
            | cons id ids ih =>
              intro block c b
              unfold insertLoop
              dsimp only
              split
              · split
                · rename_i b' f hb'
                  have := insertList_size b (key c) (block ++ [id])
                  rw [hb'] at this
                  exact this
                · rename_i b' hb'
                  have := insertList_size b (key c) (block ++ [id])
                  rw [hb'] at this
                  rw [ih, this]
              · exact ih _ _ _
          have h0 := hb b h
          unfold SchemeBuilder.insertList
          dsimp only
          have e1 := hsize (b.page / 8 - 6) (deriveCoreKey P.H (P.prf w)) ids [] 0 b
          split
          · rename_i s' f hs'
            rw [hs'] at e1
            dsimp only at e1 ⊢
            omega
          · rename_i s' bl c hs'
            rw [hs'] at e1
            dsimp only at e1
            have e2 := insertList_size s' (deriveCoreKey P.H (P.prf w) c) bl
            split
            · rename_i s2 f hs2
              rw [hs2] at e2
              dsimp only at e2 ⊢
              omega
            · rename_i s2 hs2
              rw [hs2] at e2
              dsimp only at e2 ⊢
              omega
      | build =>
        unfold Sys.step
        dsimp only
        cases h : s.builder with
        | none => exact ⟨rfl, rfl, (by intro b hb; rw [h] at hb; cases hb), (fun _ hn => absurd rfl hn)⟩
        | some b =>
          dsimp only
          obtain ⟨e1, e2⟩ := buildFiles_existing b P.enc s.disk.stash hs (hb b h)
          rw [e1]
          refine ⟨rfl, rfl, ?_, fun _ _ => e2⟩
          intro b' hb'
          cases hb'
          have : (b.buildFiles P.enc s.disk.table s.disk.stash).1.size = b.size := by
            unfold Builder.buildFiles
            split
            · rfl
            · dsimp only
              split
              · rfl
              · split
                · rfl
                · split
                  · rfl
                  · split <;> rfl
          rw [this]
          exact hb b h
      | kill => exact ⟨rfl, rfl, (by intro b hb; cases hb), (by intro h; cases h)⟩
      | killBuild k =>
        unfold Sys.step
        dsimp only
        cases h : s.builder with
        | none => exact ⟨rfl, rfl, (by intro b hb; rw [h] at hb; cases hb), (by intro h; cases h)⟩
        | some b => exact ⟨stopFile_existing b P.enc k hs, rfl, (by intro b hb; cases hb), (by intro h; cases h)⟩
      | removeTable => exact absurd rfl (hr _ (List.mem_cons_self ..))
    obtain ⟨e1, e2, e3, e4⟩ := hstep
    obtain ⟨f1, f2, f3⟩ := ih (s.step P e).1 (by rw [e1]; exact hs) e3
      (fun e he => hr e (List.mem_cons_of_mem _ he)) (fun n h => hn n (List.mem_cons_of_mem _ h))
    rw [Sys.run]
    refine ⟨by rw [← e1]; exact f1, by rw [← e2]; exact f2, ?_⟩
    intro i hi hbi
    cases i with
    | zero =>
      simp only [List.getElem?_cons_zero, Option.some.injEq] at hi
      obtain ⟨f, hf⟩ := e4 hi hbi
      exact ⟨f, by simp [hf]⟩
    | succ i =>
      rw [List.take_succ_cons, Sys.run] at hbi
      exact f3 i (by simpa using hi) hbi

/-- **C51** is false for a build that finds a table. It fails, the table is kept, but the counters
were overwritten by `insert_list`: a search of a keyword of both indexes then returns only the documents of
as many blocks as the new list has. The others are lost. -/
theorem C51_failed_build_violated (P : Params W) (n n' : Nat) (index index' : List (W × List Index)) (d : Disk W)
    (hok : IndexOk P.page n P.prf P.H index) (hmul : ∀ x ∈ index, x.2.length % (P.page / 8 - 6) ≠ 0)
    (hok' : IndexOk P.page n' P.prf P.H index') (ht : d.table = []) (hst : d.stash = none) :
    (∃ f, (Sys.run P ⟨d, none⟩ (buildEvents n index ++ buildEvents n' index')).2.getLast? = some (.error f)) ∧
    ∀ x ∈ index, ∀ y ∈ index', x.1 = y.1 → blockCount P.page y.2.length ≤ blockCount P.page x.2.length →
      ∃ r, (Sys.run P ⟨d, none⟩ (buildEvents n index ++ buildEvents n' index')).1.disk.search P x.1 = .ok r ∧
        r.Perm (x.2.take (blockCount P.page y.2.length * (P.page / 8 - 6))) := by
  obtain ⟨fs, b, h1, h2, h3, h4⟩ := run_build P n index hok d ht hst
  obtain ⟨b0, -, hb0, -⟩ := search_counters P.page n' P.hash P.prf P.H P.enc index' hok'
  rw [run_append, h1]
  dsimp only
  have hrun : Sys.run P ⟨⟨fs.table.flatten, fs.stash, countersOf P.page index d.counters⟩, some b⟩
        (buildEvents n' index') =
      (⟨⟨fs.table.flatten, fs.stash, countersOf P.page index' (countersOf P.page index d.counters)⟩,
        some ((b0.insertAll (blocksOf P.page P.prf P.H index')).buildFiles P.enc fs.table.flatten fs.stash).1⟩,
        List.replicate (index'.length + 1) (.ok ()) ++
          [((b0.insertAll (blocksOf P.page P.prf P.H index')).buildFiles P.enc fs.table.flatten fs.stash).2.2]) := by
    unfold buildEvents
    rw [← List.cons_append, run_append, run_index P n' index' hok' _ hb0]
    dsimp only
    rw [Sys.run, Sys.run]
    have hsz : 0 < (b0.insertAll (blocksOf P.page P.prf P.H index')).size := by
      rw [insertAll_size, new_size hb0]
      have := hok'.buckets
      omega
    obtain ⟨e1, -⟩ := buildFiles_existing (b0.insertAll (blocksOf P.page P.prf P.H index')) P.enc fs.stash h2 hsz
    unfold Sys.step
    dsimp only
    rw [e1]
  rw [hrun]
  constructor
  · have hsz : 0 < (b0.insertAll (blocksOf P.page P.prf P.H index')).size := by
      rw [insertAll_size, new_size hb0]
      have := hok'.buckets
      omega
    obtain ⟨-, f, e2⟩ := buildFiles_existing (b0.insertAll (blocksOf P.page P.prf P.H index')) P.enc fs.stash h2 hsz
    refine ⟨f, ?_⟩
    rw [e2, ← List.append_assoc, List.getLast?_append]
    rfl
  · intro x hx y hy hxy hle
    rw [search_of rfl rfl h2 h3]
    dsimp only
    obtain ⟨r, h5, -, h6⟩ := (h4 (countersOf P.page index' (countersOf P.page index d.counters)) x.1).1 x hx rfl _
      (by rw [hxy]; exact countersOf_mem hok'.keywords _ hy) (by
        intro i h7 h8
        rw [ofNat_blockCount hok' hy] at h8
        omega)
    refine ⟨r, h5, ?_⟩
    have := h6 hmul
    rwa [ofNat_blockCount hok' hy] at this

/-! ## Interrupted builds -/

theorem writeBytes_ne_nil {file : List UInt8} (h : file ≠ []) (off : Nat) (bs : List UInt8) :
    Vec.writeBytes file off bs ≠ [] := by
  have h0 := List.length_pos_iff.mpr h
  intro he
  have : (Vec.writeBytes file off bs).length = 0 := by rw [he]; rfl
  unfold Vec.writeBytes at this
  simp only [List.length_append, List.length_take, List.length_replicate, List.length_drop] at this
  omega

theorem pushPages_ne_nil (enc : ValueEncoder) (page : Nat) (g : Graph) (data : List (CoreKey × List Index))
    (vs : List Nat) : ∀ t : Vec.Vec page, t.file ≠ [] → (pushPages enc page g data vs t).1.file ≠ [] := by
  induction vs with
  | nil => intro t h; exact h
  | cons v vs ih =>
    intro t h
    unfold pushPages
    split
    · exact h
    · rename_i p hp
      have hf : (t.pushBack (toVal page p) page).1.file ≠ [] := by
        unfold Vec.Vec.pushBack
        split
        · exact h
        · dsimp only
          split
          · exact writeBytes_ne_nil h _ _
          · exact writeBytes_ne_nil h _ _
      split
      · rename_i t' e ht
        rw [ht] at hf
        exact hf
      · rename_i t' pos ht
        rw [ht] at hf
        split
        · exact hf
        · exact ih t' hf

/-- The table is not empty as soon as it is reserved. -/
theorem stopFile_ne_nil (b : Builder) (enc : ValueEncoder) (file : List UInt8) (k : Nat) (hb : b.built = false)
    (hn : 0 < b.size) (hp : 0 < b.page) : b.stopFile enc file k ≠ [] := by
  have h0 : (b.tableFile file).file ≠ [] := by
    by_cases hf : file = []
    · subst hf
      unfold Builder.tableFile
      rw [show Vec.Vec.open b.page [] true false = ⟨[], 0, 0, false, false, true, []⟩ from rfl]
      unfold Vec.Vec.reserve
      rw [if_pos ⟨rfl, hn⟩]
      have : 0 < b.size * b.page := Nat.mul_pos hn hp
      intro h
      have h2 := congrArg List.length h
      simp only [Vec.resize, List.take_nil, List.nil_append, List.length_nil, Nat.sub_zero,
        List.length_replicate] at h2
      omega
    · rw [(tableFile_existing b hf).2.1]
      exact hf
  unfold Builder.stopFile
  rw [if_neg (by simp [hb])]
  split
  · exact h0
  · exact pushPages_ne_nil enc b.page _ b.data _ _ h0

theorem insertList_built (b : Builder) (k : CoreKey) (v : List Index) : (b.insertList k v).1.built = b.built := by
  unfold Builder.insertList
  split
  · rfl
  · dsimp only
    split
    · rfl
    · split <;> rfl

theorem insertAll_built (ins : List (CoreKey × List Index)) : ∀ b : Builder, (b.insertAll ins).built = b.built := by
  induction ins with
  | nil => intro b; rfl
  | cons x xs ih =>
    intro b
    show ((b.insertList x.1 x.2).1.insertAll xs).built = b.built
    rw [ih, insertList_built]

theorem new_built {page n : Nat} {hash : CoreKey → UInt64 × UInt64} {b0 : Builder}
    (h : Builder.new page n hash = .ok b0) : b0.built = false := by
  unfold Builder.new at h
  split at h
  · cases h
  · cases h; rfl

/-- **C51** is false when the process stops in `build`: whenever this happens, the table that it leaves is
not empty, so that it passes for a finished one, and no later build succeeds. -/
theorem C51_interrupted_violated (P : Params W) (n n' : Nat) (index index' : List (W × List Index)) (d : Disk W)
    (k : Nat) (hok : IndexOk P.page n P.prf P.H index) (hok' : IndexOk P.page n' P.prf P.H index') :
    let s := (Sys.run P ⟨d, none⟩ (.new n :: (index.map (fun x => .insert x.1 x.2) ++ [.killBuild k]))).1
    s.disk.table ≠ [] ∧ (∃ f, (s.run P (buildEvents n' index')).2.getLast? = some (.error f)) ∧
      (s.run P (buildEvents n' index')).1.disk.table = s.disk.table := by
  dsimp only
  have hroom := hok.room
  obtain ⟨b0, -, hb0, -, -, -, hpg, -⟩ := search_counters P.page n P.hash P.prf P.H P.enc index hok
  obtain ⟨b1, -, hb1, -⟩ := search_counters P.page n' P.hash P.prf P.H P.enc index' hok'
  rw [← List.cons_append, run_append, run_index P n index hok ⟨d, none⟩ hb0]
  dsimp only
  rw [Sys.run, Sys.run]
  unfold Sys.step
  dsimp only
  have hne := stopFile_ne_nil (b0.insertAll (blocksOf P.page P.prf P.H index)) P.enc d.table k
    (by rw [insertAll_built, new_built hb0]) (by
      rw [insertAll_size, new_size hb0]
      have := hok.buckets
      omega) (by rw [hpg]; omega)
  generalize (b0.insertAll (blocksOf P.page P.prf P.H index)).stopFile P.enc d.table k = file at hne
  refine ⟨hne, ?_⟩
  have hsz : 0 < (b1.insertAll (blocksOf P.page P.prf P.H index')).size := by
    rw [insertAll_size, new_size hb1]
    have := hok'.buckets
    omega
  obtain ⟨e1, f, e2⟩ := buildFiles_existing (b1.insertAll (blocksOf P.page P.prf P.H index')) P.enc d.stash hne hsz
  unfold buildEvents
  rw [← List.cons_append, run_append, run_index P n' index' hok' _ hb1]
  dsimp only
  rw [Sys.run, Sys.run]
  unfold Sys.step
  dsimp only
  rw [e1, e2]
  refine ⟨⟨f, ?_⟩, rfl⟩
  rw [List.getLast?_append]
  rfl

/-! ## Calls that are refused -/

theorem insertList_refused (b : Builder) (hb : b.built = true) (k : CoreKey) (v : List Index) :
    b.insertList k v = (b, .error .runtimeError) := by
  rw [Builder.insertList, if_pos hb]

theorem insertLoop_refused (max : Nat) (key : Nat → CoreKey) (b : Builder) (hb : b.built = true) (ids : List Index) :
    ∀ (block : List Index) (c : Nat), insertLoop max key ids block c b = (b, .error .runtimeError) ∨
      ∃ r, insertLoop max key ids block c b = (b, .ok r) := by
  induction ids with
  | nil => intro block c; exact Or.inr ⟨_, rfl⟩
  | cons id ids ih =>
    intro block c
    rw [insertLoop]
    split
    · rw [insertList_refused b hb]
      exact Or.inl rfl
    · exact ih _ _

/-- **C51**: after a build that succeeded, the same builder refuses every insertion and every build, and they
change nothing: not the table, the stash, the counters, nor the builder. -/
theorem C51_built_refuses (P : Params W) (s : Sys W) (hb : s.builder.isSome = true) (h : (s.step P .build).2 = .ok ())
    (later : List (Option (W × List Index))) :
    Sys.run P (s.step P .build).1 (later.map (fun o => match o with
      | some x => .insert x.1 x.2
      | none => .build)) = ((s.step P .build).1, later.map (fun _ => .error .runtimeError)) := by
  obtain ⟨d, ob⟩ := s
  cases ob with
  | none => cases hb
  | some b =>
    have hbuilt : (b.buildFiles P.enc d.table d.stash).1.built = true := by
      have h' : (b.buildFiles P.enc d.table d.stash).2.2 = .ok () := h
      revert h'
      unfold Builder.buildFiles
      split
      · intro h'; cases h'
      · dsimp only
        split
        · intro h'; cases h'
        · split
          · intro h'; cases h'
          · split
            · intro _; rfl
            · split
              · intro h'; cases h'
              · intro _; rfl
    show Sys.run P ⟨⟨(b.buildFiles P.enc d.table d.stash).2.1.1, (b.buildFiles P.enc d.table d.stash).2.1.2,
      d.counters⟩, some (b.buildFiles P.enc d.table d.stash).1⟩ _ = (⟨⟨(b.buildFiles P.enc d.table d.stash).2.1.1,
      (b.buildFiles P.enc d.table d.stash).2.1.2, d.counters⟩, some (b.buildFiles P.enc d.table d.stash).1⟩, _)
    generalize (b.buildFiles P.enc d.table d.stash).1 = b' at hbuilt
    generalize (b.buildFiles P.enc d.table d.stash).2.1.1 = tb
    generalize (b.buildFiles P.enc d.table d.stash).2.1.2 = st
    induction later with
    | nil => rfl
    | cons o later ih =>
      have hstep : Sys.step P ⟨⟨tb, st, d.counters⟩, some b'⟩ (match o with
          | some x => .insert x.1 x.2
          | none => .build) = (⟨⟨tb, st, d.counters⟩, some b'⟩, .error .runtimeError) := by
        cases o with
        | some x =>
          unfold Sys.step SchemeBuilder.insertList
          dsimp only
          rcases insertLoop_refused (b'.page / 8 - 6) (deriveCoreKey P.H (P.prf x.1)) b' hbuilt x.2 [] 0 with e | ⟨r, e⟩
          · rw [e]
          · rw [e]
            dsimp only
            rw [insertList_refused b' hbuilt]
        | none =>
          unfold Sys.step Builder.buildFiles
          dsimp only
          rw [if_pos hbuilt]
      rw [List.map_cons, Sys.run, hstep]
      dsimp only
      rw [ih]
      rfl

/-- **C51**: without a table, or with the empty table of a process that stopped, searches are refused. -/
theorem C51_no_table (P : Params W) (d : Disk W) (h : d.table = []) (w : W) :
    d.search P w = .error .runtimeError := by
  rw [Disk.search, if_pos h]

/-! ## Concrete instances -/

namespace Sample

/-- The parameters of the examples: pages of 104 bytes -/
def params : Params Nat := ⟨104, hash, prf, H, .encrypt cipher key⟩

/-- Nothing on disk -/
def empty : Sys Nat := ⟨⟨[], none, Map.empty⟩, none⟩

/-- A second index: the list of the first keyword is shorter. -/
def index' : List (Nat × List Index) := [(1, [21]), (7, [22, 23])]

/-- The search of a keyword after some events -/
def after (es : List (Ev Nat)) (w : Nat) : Except Fault (List Index) :=
  (empty.run params es).1.disk.search params w

end Sample

theorem sample_index'_ok : IndexOk 104 2 Sample.prf Sample.H Sample.index' where
  buckets := by decide
  aligned := by decide
  small := by decide
  room := by decide
  total := by decide
  counters := by decide
  tokens := by decide
  hashes := by decide

/-- The hypotheses of `C51_build_partial` and `C51_failed_build_violated` hold, and the searches before and after
the failed build: a document is lost. -/
example : IndexOk 104 2 Sample.prf Sample.H Sample.index ∧
    (∀ x ∈ Sample.index, x.2.length % (104 / 8 - 6) ≠ 0) ∧
    IndexOk 104 2 Sample.prf Sample.H Sample.index' ∧
    (Sample.after (buildEvents 2 Sample.index) 1).toOption = some [1, 2, 3, 4, 5, 6, 7, 8] ∧
    (Sample.after (buildEvents 2 Sample.index ++ buildEvents 2 Sample.index') 1).toOption =
      some [1, 2, 3, 4, 5, 6, 7] :=
  ⟨sample_index_ok, by decide, sample_index'_ok, by decide +kernel, by decide +kernel⟩

/-- A counter database that is not empty meets the hypothesis of `C51_build_partial` on it: the
keyword 7 had two blocks. -/
example : Unused 104 Sample.prf Sample.H Sample.index (Sample.prf 7) 0 (2 : UInt32).toNat := by
  intro i _ hi
  have hi : i < 2 := hi
  have : ∀ i < 2, ∀ a ∈ inputs Sample.prf (fun x => blockCount 104 x.2.length) Sample.index,
    Sample.H (blockInput (Sample.prf 7) i) ≠ Sample.H a := by decide +kernel
  exact this i hi

/-- `C51_existing_table_kept` applies to the database built before. -/
example : (Sample.empty.run Sample.params (buildEvents 2 Sample.index)).1.disk.table ≠ [] := by decide +kernel

/-- The hypotheses of `C51_built_refuses` hold for a builder with a list in the stash. -/
example : let s := (Sample.empty.run Sample.params (.new 2 :: Sample.index.map (fun x => .insert x.1 x.2))).1
    s.builder.isSome = true ∧ (s.step Sample.params .build).2.toOption = some () ∧
      (s.step Sample.params .build).1.disk.stash.isSome = true := by decide +kernel

/-- A process that stops before `build` leaves no table, as in `C51_no_table`. -/
example : (Sample.empty.run Sample.params (.new 2 :: (Sample.index.map (fun x => .insert x.1 x.2) ++ [.kill]))).1.disk.table =
    [] := by decide +kernel

/-- When the process stops after the last page and before the stash is written, the documents in the stash are
lost: keyword 5 has a document and the search returns nothing, without error. -/
theorem C51_interrupted_loses_stash :
    (Sample.after (buildEvents 2 Sample.index) 5).toOption = some [11] ∧
    (Sample.after (.new 2 :: (Sample.index.map (fun x => .insert x.1 x.2) ++ [.killBuild 2])) 5).toOption =
      some [] := by
  constructor <;> decide +kernel

/-- **C51** is false when a stash file is left: the user removes the table of a database and builds another
index. No call fails. Keyword 5 has no document in the new index, and the search returns one: the
stash of the old index is still there. -/
theorem C51_stale_stash_violated :
    (∀ x ∈ Sample.index', x.1 ≠ 5) ∧
    ((Sample.empty.run Sample.params (buildEvents 2 Sample.index ++ .removeTable :: buildEvents 2 Sample.index')).2.all
      (fun o => o.toOption == some ())) = true ∧
    (Sample.after (buildEvents 2 Sample.index ++ .removeTable :: buildEvents 2 Sample.index') 5).toOption =
      some [11] := by
  refine ⟨by decide, by decide +kernel, by decide +kernel⟩

end Verif.Tethys
