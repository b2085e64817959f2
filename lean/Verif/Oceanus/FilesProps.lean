import Verif.Oceanus.FilesLemmas
import Verif.Oceanus.Props
import Verif.Pluto.Lemmas

/-!
# Properties of the files of an Oceanus database (C48)
-/

namespace Verif.Oceanus

open Spec

variable {n N : Nat}

/-- The insertions of a build, as insertions of bytes -/
def rawIns (ins : List (Key × Vector Index N)) : List (Key × Vector UInt8 (8 * N)) :=
  ins.map (fun x => (x.1, ocSerialize x.2))

theorem buildEvents_eq (size depth max : Nat) (ins : List (Key × Vector Index N)) :
    buildEvents size depth max ins =
      .new size depth max :: (insertEvents (rawIns ins) ++ [.commit]) := by
  unfold buildEvents insertEvents rawIns
  rw [List.map_map]
  rfl

/-- Lookups by `Oceanus` in a file of which the lookups in the table are known -/
theorem ocGet_of {file : List UInt8} {t : FTable (8 * N)} {t' : Table (8 * N)} {k : Key}
    (h1 : FTable.open (8 * N) oceanusHash file = .ok t) (h2 : ∀ k, t.get k = t'.get k) :
    (ocGet file k : Except Fault (Vector Index N)) =
      match t'.get k with
      | .error f => .error f
      | .ok p => .ok (ocDeserialize p) := by
  unfold ocGet
  rw [h1]
  dsimp only
  rw [h2]
  cases t'.get k <;> rfl

/-- A build whose calls all succeed: the files it found, and the table it leaves -/
theorem build_success (size depth max : Nat) (hs : 0 < size) (d : Disk)
    (ins : List (Key × Vector UInt8 n)) (hl : ins.length < 2 ^ 64)
    (hok : ((d.tmp = [] ∨ ins = []) ∧ d.table = [])) (hash : Key → CKey) :
    ∃ fb tab t t', Sys.run hash (⟨d, none⟩ : Sys n) (.new size depth max :: (insertEvents ins ++ [.commit])) =
        (⟨⟨[], tab⟩, some fb⟩, (Sys.run hash (⟨d, none⟩ : Sys n)
          (.new size depth max :: (insertEvents ins ++ [.commit]))).2) ∧
      (∀ o ∈ (Sys.run hash (⟨d, none⟩ : Sys n)
          (.new size depth max :: (insertEvents ins ++ [.commit]))).2, o = .ok ()) ∧
      build size depth hash ins = .ok t' ∧ FTable.open n hash tab = .ok t ∧ ∀ k, t.get k = t'.get k := by
  obtain ⟨b, lost, hb, h⟩ := (built_new (n := n) size depth hash).insertAll hs ins (by simpa using hl)
  simp only [List.nil_append] at h
  have hidx : ∀ c ∈ b.alloc.t0 ++ b.alloc.t1, c.full = true → c.index.toNat < b.data.length := by
    intro c hc hf
    have : c ∈ cellsFrom hash 0 ins := h.perm.mem_iff.mp
      (List.mem_append_left _ (List.mem_filter.mpr ⟨hc, hf⟩))
    obtain ⟨i, x, hx, rfl⟩ := mem_cellsFrom.mp this
    have := (List.getElem?_eq_some_iff.mp hx).1
    rw [h.data]
    simp only [UInt64.toNat_ofNat', List.length_map]
    omega
  obtain ⟨file, hfile, hlen, -⟩ := writeTable_spec b.data (b.alloc.t0 ++ b.alloc.t1) hidx
  rw [List.length_append, h.wf.l0, h.wf.l1] at hlen
  have hsz := h.size
  have hbuild : build size depth hash ins = .ok ⟨hash, file, b.alloc.size⟩ := by
    unfold build
    rw [hb]
    dsimp only
    unfold Builder.commit
    rw [hfile]
    dsimp only
    unfold Table.open
    rw [if_neg (by intro hn; rw [hn] at hlen; simp at hlen; omega), if_neg (by omega),
      show file.length / 2 = b.alloc.size by omega]
  -- the builder before `commit`
  have hpre : ∃ fb d1, (Sys.run hash ⟨(FBuilder.open n hash size depth max d).2,
        some (FBuilder.open n hash size depth max d).1⟩ (insertEvents ins)).1 = ⟨d1, some fb⟩ ∧
      (∀ o ∈ (Sys.run hash ⟨(FBuilder.open n hash size depth max d).2,
        some (FBuilder.open n hash size depth max d).1⟩ (insertEvents ins)).2, o = .ok ()) ∧
      d1.table = d.table ∧ fb.alloc = b.alloc ∧ fb.committed = false ∧
      (∀ c ∈ b.alloc.t0 ++ b.alloc.t1, c.full = true → ∀ p, b.data[c.index.toNat]? = some p →
        fb.data.commit.get c.index.toNat = .ok p) := by
    rcases hok.1 with htmp | hins
    · obtain ⟨fb, d1, e1, e2, e3, e4⟩ := (rel_open (n := n) hash size depth max d htmp).insertAll hash ins
        (FBuilder.open n hash size depth max d).2 hb
      refine ⟨fb, d1, e1, e2, e3, e4.alloc, e4.c1, ?_⟩
      intro c _ _ p hp
      have hh := e4.holds.commit
      have hcm := Vec.commit_committed fb.data
      have hsl := hh.slot _ _ hp
      rw [hh.nopend (Or.inr hcm)] at hsl
      refine Vec.get_of_slot ?_ hcm (hsl.resolve_left (by simp))
      rw [hh.size]
      exact Nat.le_of_lt (List.getElem?_eq_some_iff.mp hp).1
    · subst hins
      cases hb
      refine ⟨_, _, rfl, (by intro o ho; cases ho), rfl, rfl, rfl, ?_⟩
      intro c hc hf
      have : c ∈ entries (Alloc.new size depth) := List.mem_filter.mpr ⟨hc, hf⟩
      rw [entries_new] at this
      cases this
  obtain ⟨fb, d1, e1, e2, e3, e4, e5, e6⟩ := hpre
  obtain ⟨fb', tab, f1, t, f2, f3⟩ := commit_spec (hash := hash) (d := d1) e4 e5 (by rw [e3, hok.2]) hfile
    (by omega) (by omega) e6
  have hstep : Sys.run hash (⟨d1, some fb⟩ : Sys n) [.commit] = (⟨⟨[], tab⟩, some fb'⟩, [.ok ()]) := by
    show (Sys.mk (fb.commit d1).2.1 (some (fb.commit d1).1), [(fb.commit d1).2.2]) = _
    rw [f1]
  have hrun : Sys.run hash (⟨d, none⟩ : Sys n) (.new size depth max :: (insertEvents ins ++ [.commit])) =
      (⟨⟨[], tab⟩, some fb'⟩, .ok () :: ((Sys.run hash ⟨(FBuilder.open n hash size depth max d).2,
        some (FBuilder.open n hash size depth max d).1⟩ (insertEvents ins)).2 ++ [.ok ()])) := by
    rw [Sys.run]
    show ((Sys.run hash ⟨(FBuilder.open n hash size depth max d).2,
        some (FBuilder.open n hash size depth max d).1⟩ (insertEvents ins ++ [.commit])).1,
      Except.ok () :: (Sys.run hash ⟨(FBuilder.open n hash size depth max d).2,
        some (FBuilder.open n hash size depth max d).1⟩ (insertEvents ins ++ [.commit])).2) = _
    rw [sysRun_append, e1, hstep]
  refine ⟨fb', tab, t, _, ?_, ?_, hbuild, f2, f3⟩
  · rw [hrun]
  · rw [hrun]
    intro o ho
    simp only [List.mem_cons, List.mem_append, List.not_mem_nil, or_false] at ho
    rcases ho with ho | ho | ho
    · exact ho
    · exact e2 o ho
    · exact ho

/-- No call of a build fails only if it found no file (or a data file, and nothing is inserted). -/
theorem build_ok_only (size depth max : Nat) (hs : 0 < size) (d : Disk)
    (ins : List (Key × Vector UInt8 n)) (hash : Key → CKey)
    (hok : ∀ o ∈ (Sys.run hash (⟨d, none⟩ : Sys n)
      (.new size depth max :: (insertEvents ins ++ [.commit]))).2, o = .ok ()) :
    (d.tmp = [] ∨ ins = []) ∧ d.table = [] := by
  rw [Sys.run] at hok
  have hok' : ∀ o ∈ (Sys.run hash ⟨(FBuilder.open n hash size depth max d).2,
      some (FBuilder.open n hash size depth max d).1⟩ (insertEvents ins ++ [.commit])).2, o = .ok () :=
    fun o ho => hok o (List.mem_cons_of_mem _ ho)
  constructor
  · by_cases ht : d.tmp = []
    · exact Or.inl ht
    · right
      cases ins with
      | nil => rfl
      | cons x xs =>
        exfalso
        have hc : (FBuilder.open n hash size depth max d).1.data.committed = true := by
          show ((Vec.Vec.open (16 + n) d.tmp true false).reserve max).committed = true
          rw [(Vec.reserve_flags _ _).1]
          exact open_committed ht _ _
        have := hok' _ (by
          rw [insertEvents, List.map_cons, List.cons_append, Sys.run]
          exact List.mem_cons_self)
        have e : (Sys.step hash (⟨(FBuilder.open n hash size depth max d).2,
          some (FBuilder.open n hash size depth max d).1⟩ : Sys n) (.insert x.1 x.2)).2 =
            .error .runtimeError := (insert_stale hc _ x.1 x.2).1
        rw [e] at this
        cases this
  · by_cases ht : d.table = []
    · exact ht
    · exfalso
      -- the builder exists, is not committed and has its cells until `commit`
      have key : ∀ (xs : List (Key × Vector UInt8 n)) (fb : FBuilder n) (d' : Disk),
          fb.committed = false → fb.alloc.WF → fb.alloc.size = size → d'.table = d.table →
          (∀ o ∈ (Sys.run hash ⟨d', some fb⟩ (insertEvents xs ++ [.commit])).2, o = .ok ()) → False := by
        intro xs
        induction xs with
        | nil =>
          intro fb d' hc hw hz hd ho
          have hne : fb.alloc.t0 ++ fb.alloc.t1 ≠ [] := by
            intro h0
            have := congrArg List.length h0
            rw [List.length_append, hw.l0, List.length_nil] at this
            omega
          obtain ⟨f, hf⟩ := (commit_existing (fb := fb) (by rw [hd]; exact ht)).2 hc hne
          have := ho ((fb.commit d').2.2) (List.mem_cons_self)
          rw [hf] at this
          cases this
        | cons x xs ih =>
          intro fb d' hc hw hz hd ho
          rw [insertEvents, List.map_cons, List.cons_append, Sys.run] at ho
          have h1 : (fb.insert d' x.1 x.2).2.2 = .ok () := ho _ List.mem_cons_self
          refine ih (fb.insert d' x.1 x.2).1 (fb.insert d' x.1 x.2).2.1 ?_ ?_ ?_ ?_
            (fun o h => ho o (List.mem_cons_of_mem _ h))
          all_goals
            unfold FBuilder.insert at h1 ⊢
            rw [if_neg (by simp [hc])] at h1 ⊢
            rcases hp : fb.data.pushBack (x.1 ++ x.2) (16 + n) with ⟨data, r⟩
            rw [hp] at h1
            cases r with
            | error e => cases h1
            | ok pos =>
              dsimp only at h1 ⊢
              cases ha : fb.alloc.insert (fb.hash x.1) (UInt64.ofNat pos) with
              | error f => rw [ha] at h1; cases h1
              | ok q =>
                obtain ⟨a, spill⟩ := q
                dsimp only
                have hi : UInt64.ofNat pos ≠ emptyIndex := by
                  intro he
                  unfold Alloc.insert at ha
                  rw [if_pos he] at ha
                  cases ha
                obtain ⟨a', r, l, g1, g2, g3, -⟩ := insert_spec hw (by omega) (fb.hash x.1) _ hi
                rw [ha] at g1
                cases g1
                first
                  | exact hc
                  | exact g2
                  | (rw [g3]; exact hz)
                  | exact hd
      exact key ins (FBuilder.open n hash size depth max d).1 (FBuilder.open n hash size depth max d).2 rfl
        (wf_new size depth) rfl rfl hok'

/-! ## C48 -/

/-- **C48.** Whatever files a previous process left: if no call of a build reports an error, then the table
contains exactly what was inserted. A lookup of an inserted key returns its block of indexes, unless it was
spilled, in which case it is not found, and another key is not found (except the key of bytes 255, see
`C32_all_ones_found`); the temporary file is removed. -/
theorem C48_success_exact_partial (size depth max : Nat) (hs : 0 < size) (d : Disk)
    (ins : List (Key × Vector Index N)) (hl : ins.length < 2 ^ 64) (hd : (ins.map Prod.fst).Nodup)
    (hok : ∀ o ∈ (Sys.run oceanusHash ⟨d, none⟩ (buildEvents size depth max ins)).2, o = .ok ()) :
    ∃ tab, (Sys.run oceanusHash ⟨d, none⟩ (buildEvents size depth max ins)).1.disk = ⟨[], tab⟩ ∧
      (∀ (i : Nat) x, ins[i]? = some x →
        UInt64.ofNat i ∉ spilled size depth oceanusHash (rawIns ins) → ocGet tab x.1 = .ok x.2) ∧
      (∀ (i : Nat) x, ins[i]? = some x →
        UInt64.ofNat i ∈ spilled size depth oceanusHash (rawIns ins) → x.1 ≠ allOnes →
        (ocGet tab x.1 : Except Fault (Vector Index N)) = .error .outOfRange) ∧
      ∀ k, (∀ x ∈ ins, x.1 ≠ k) → k ≠ allOnes →
        (ocGet tab k : Except Fault (Vector Index N)) = .error .outOfRange := by
  rw [buildEvents_eq] at hok ⊢
  have h0 := build_ok_only size depth max hs d (rawIns ins) oceanusHash hok
  obtain ⟨fb, tab, t, t', h1, -, h3, h4, h5⟩ := build_success size depth max hs d (rawIns ins)
    (by simpa [rawIns] using hl) h0 oceanusHash
  obtain ⟨t'', g1, g2, g3, g4, -⟩ := build_spec size depth oceanusHash (rawIns ins) hs
    (by simpa [rawIns] using hl) (by simpa [rawIns, Function.comp_def] using hd)
  rw [h3] at g1
  cases g1
  have hmem : ∀ (i : Nat) x, ins[i]? = some x → (rawIns ins)[i]? = some (x.1, ocSerialize x.2) := by
    intro i x hx
    simp [rawIns, hx]
  refine ⟨tab, by rw [h1], ?_, ?_, ?_⟩
  · intro i x hx hsp
    rw [ocGet_of h4 h5, g2 i _ (hmem i x hx) hsp]
    show Except.ok (Pluto.deserializeValue (Pluto.serializeValue x.2)) = _
    rw [Pluto.deserialize_serialize]
  · intro i x hx hsp hk
    rw [ocGet_of h4 h5, g3 i _ (hmem i x hx) hsp hk]
  · intro k hk hk'
    rw [ocGet_of h4 h5, g4 k (by
      intro x hx
      obtain ⟨y, hy, rfl⟩ := List.mem_map.mp hx
      exact hk y hy) hk']

/-- **C48.** A build succeeds exactly when no table exists and there is no temporary file (or nothing is
inserted). -/
theorem C48_succeeds_iff (size depth max : Nat) (hs : 0 < size) (d : Disk)
    (ins : List (Key × Vector Index N)) (hl : ins.length < 2 ^ 64) :
    (∀ o ∈ (Sys.run oceanusHash ⟨d, none⟩ (buildEvents size depth max ins)).2, o = .ok ()) ↔
      (d.tmp = [] ∨ ins = []) ∧ d.table = [] := by
  rw [buildEvents_eq]
  constructor
  · intro h
    have := build_ok_only size depth max hs d (rawIns ins) oceanusHash h
    simpa [rawIns] using this
  · intro h
    obtain ⟨-, -, -, -, -, h2, -⟩ := build_success size depth max hs d (rawIns ins)
      (by simpa [rawIns] using hl) (by simpa [rawIns] using h) oceanusHash
    exact h2

/-- **C48.** An existing table is never altered, by any sequence of uses of builders, with any number of
stops of the process. -/
theorem C48_existing_table_kept (hash : Key → CKey) (es : List (Ev n)) : ∀ (s : Sys n),
    s.disk.table ≠ [] → (Sys.run hash s es).1.disk.table = s.disk.table := by
  induction es with
  | nil => intro s _; rfl
  | cons e es ih =>
    intro s h
    have h1 := step_table hash s e h
    rw [Sys.run]
    exact (ih _ (by rw [h1]; exact h)).trans h1

/-! ### Violations -/

theorem length_pushBack {sz : Nat} (v : Vec.Vec sz) (x : Vec.Val sz) :
    v.file.length ≤ (v.pushBack x sz).1.file.length := by
  unfold Vec.Vec.pushBack
  split
  · exact Nat.le_refl _
  · dsimp only
    split <;> (dsimp only; rw [Vec.length_writeBytes]; omega)

theorem length_commit {sz : Nat} {v : Vec.Vec sz} (h : v.pending = []) : v.commit.file = v.file := by
  unfold Vec.Vec.commit
  split
  · rfl
  · split
    · unfold Vec.Vec.wait; rw [h]; rfl
    · rfl

/-- The data file is not empty, and the process has a builder. -/
structure Dirty (s : Sys n) : Prop where
  tmp : s.disk.tmp ≠ []
  builder : ∃ b, s.builder = some b ∧ b.data.file = s.disk.tmp ∧ b.data.pending = []

theorem Dirty.insert {s : Sys n} (h : Dirty s) (hash : Key → CKey) (k : Key) (v : Vector UInt8 n) :
    Dirty (s.step hash (.insert k v)).1 := by
  obtain ⟨d, ob⟩ := s
  obtain ⟨ht, b, hb, hf, hp⟩ := h
  dsimp only at hb hf ht
  subst hb
  have hpos := List.length_pos_iff.mpr ht
  have hlen := length_pushBack b.data (k ++ v)
  have hpend : (b.data.pushBack (k ++ v) (16 + n)).1.pending = [] := by
    unfold Vec.Vec.pushBack
    split
    · exact hp
    · dsimp only
      split <;> exact hp
  have hne : (b.data.pushBack (k ++ v) (16 + n)).1.file ≠ [] := by
    intro h0
    rw [h0, hf, List.length_nil] at hlen
    omega
  show Dirty ⟨(b.insert d k v).2.1, some (b.insert d k v).1⟩
  unfold FBuilder.insert
  split
  · exact ⟨ht, b, rfl, hf, hp⟩
  · rcases hq : b.data.pushBack (k ++ v) (16 + n) with ⟨data, r⟩
    rw [hq] at hne hpend
    dsimp only at hne hpend
    cases r with
    | error e => exact ⟨hne, _, rfl, rfl, hpend⟩
    | ok pos =>
      dsimp only
      split
      · exact ⟨hne, _, rfl, rfl, hpend⟩
      · exact ⟨hne, _, rfl, rfl, hpend⟩

theorem Dirty.inserts (hash : Key → CKey) (xs : List (Key × Vector UInt8 n)) : ∀ {s : Sys n}, Dirty s →
    Dirty (Sys.run hash s (insertEvents xs)).1 := by
  induction xs with
  | nil => intro s h; exact h
  | cons x xs ih => intro s h; exact ih (h.insert hash x.1 x.2)

/-- The end of a process: killed outside of `commit`, or in it -/
def Stops (e : Ev n) : Prop := e = .kill ∨ ∃ k, e = .killCommit k

theorem Dirty.stops {s : Sys n} (h : Dirty s) (hash : Key → CKey) {e : Ev n} (he : Stops e)
    (hc : ∀ b, s.builder = some b → b.committed = false) :
    (s.step hash e).1.disk.tmp ≠ [] ∧ (s.step hash e).1.builder = none := by
  obtain ⟨d, ob⟩ := s
  obtain ⟨ht, b, hb, hf, hp⟩ := h
  dsimp only at hb hf ht
  subst hb
  rcases he with rfl | ⟨k, rfl⟩
  · exact ⟨ht, rfl⟩
  · refine ⟨?_, rfl⟩
    show (b.stop d k).tmp ≠ []
    unfold FBuilder.stop
    rw [if_neg (by simp [hc b rfl]), length_commit hp, hf]
    exact ht

theorem dirty_new (hash : Key → CKey) (size depth max : Nat) (hm : 0 < max) (d : Disk) :
    Dirty ((⟨d, none⟩ : Sys n).step hash (.new size depth max)).1 := by
  refine ⟨?_, _, rfl, rfl, ?_⟩
  · show ((Vec.Vec.open (16 + n) d.tmp true false).reserve max).file ≠ []
    by_cases ht : d.tmp = []
    · intro h0
      have := congrArg List.length h0
      unfold Vec.Vec.reserve at this
      rw [ht, if_pos ⟨rfl, hm⟩, Vec.length_resize, List.length_nil] at this
      have := Nat.mul_pos hm (show 0 < 16 + n by omega)
      omega
    · rw [reserve_committed (open_committed ht _ _), open_file]
      exact ht
  · show ((Vec.Vec.open (16 + n) d.tmp true false).reserve max).pending = []
    unfold Vec.Vec.reserve
    split <;> exact open_pending _ _ _

theorem inserts_uncommitted (hash : Key → CKey) (xs : List (Key × Vector UInt8 n)) : ∀ {s : Sys n},
    (∀ b, s.builder = some b → b.committed = false) →
    ∀ b, (Sys.run hash s (insertEvents xs)).1.builder = some b → b.committed = false := by
  induction xs with
  | nil => intro s h; exact h
  | cons x xs ih =>
    intro s h
    refine ih (s := (s.step hash (.insert x.1 x.2)).1) ?_
    obtain ⟨d, ob⟩ := s
    cases ob with
    | none => intro b hb; cases hb
    | some b0 =>
      intro b hb
      have hb : some (b0.insert d x.1 x.2).1 = some b := hb
      cases hb
      have hc := h b0 rfl
      unfold FBuilder.insert
      rw [if_neg (by simp [hc])]
      rcases b0.data.pushBack (x.1 ++ x.2) (16 + n) with ⟨data, r⟩
      cases r with
      | error e => exact hc
      | ok pos =>
        dsimp only
        split <;> exact hc

/-- **C48** is violated: after a build that was interrupted at any point, in the insertions or in `commit`,
no build of a database that is not empty succeeds. -/
theorem C48_interrupted_violated (size depth max size' depth' max' : Nat) (hs : 0 < size') (hm : 0 < max)
    (pre ins : List (Key × Vector Index N)) (hl : ins.length < 2 ^ 64) (hne : ins ≠ [])
    (last : Ev (8 * N)) (hlast : Stops last) (s : Sys (8 * N))
    (hrun : (Sys.run oceanusHash ⟨⟨[], []⟩, none⟩
      (.new size depth max :: (insertEvents (rawIns pre) ++ [last]))).1 = s) :
    ¬ ∀ o ∈ (Sys.run oceanusHash s (buildEvents size' depth' max' ins)).2, o = .ok () := by
  have h1 := (dirty_new (n := 8 * N) oceanusHash size depth max hm ⟨[], []⟩).inserts oceanusHash (rawIns pre)
  have h2 := h1.stops oceanusHash hlast (inserts_uncommitted oceanusHash (rawIns pre) (by
    intro b hb
    have hb : some (FBuilder.open (8 * N) oceanusHash size depth max ⟨[], []⟩).1 = some b := hb
    cases hb
    rfl))
  have hs' : s = (Sys.step oceanusHash (Sys.run oceanusHash
      ((⟨⟨[], []⟩, none⟩ : Sys (8 * N)).step oceanusHash (.new size depth max)).1
      (insertEvents (rawIns pre))).1 last).1 := by
    rw [← hrun, Sys.run, sysRun_append]
    rfl
  rw [← hs'] at h2
  obtain ⟨d, ob⟩ := s
  obtain ⟨h2, h3⟩ := h2
  dsimp only at h2 h3
  subst h3
  intro hok
  rcases ((C48_succeeds_iff size' depth' max' hs d ins hl).mp hok).1 with h | h
  · exact h2 h
  · exact hne h

/-- **C48** is violated: when a temporary file is left and there is no table, all the insertions of a new
builder are refused, and its destructor then makes a valid table, without reporting an error, in which no
key is found. By `C48_existing_table_kept` no later build replaces it. -/
theorem C48_failed_rebuild_violated (size depth max : Nat) (hs : 0 < size) (d : Disk) (h1 : d.tmp ≠ [])
    (h2 : d.table = []) (ins : List (Key × Vector Index N)) :
    ∃ tab, Sys.run oceanusHash (⟨d, none⟩ : Sys (8 * N))
        (.new size depth max :: (insertEvents (rawIns ins) ++ [.destroy])) =
        (⟨⟨[], tab⟩, none⟩, .ok () :: (ins.map (fun _ => .error .runtimeError) ++ [.ok ()])) ∧
      ∀ k, k ≠ allOnes → (ocGet tab k : Except Fault (Vector Index N)) = .error .outOfRange := by
  obtain ⟨fb, tab, t, t', e1, -, e3, e4, e5⟩ := build_success (n := 8 * N) size depth max hs d []
    (by simp) ⟨Or.inr rfl, h2⟩ oceanusHash
  have hc : (FBuilder.open (8 * N) oceanusHash size depth max d).1.data.committed = true := by
    show ((Vec.Vec.open (16 + 8 * N) d.tmp true false).reserve max).committed = true
    rw [(Vec.reserve_flags _ _).1]
    exact open_committed h1 _ _
  have hdisk : (FBuilder.open (8 * N) oceanusHash size depth max d).2 = d := by
    show ({ d with tmp := ((Vec.Vec.open (16 + 8 * N) d.tmp true false).reserve max).file } : Disk) = d
    rw [reserve_committed (open_committed h1 _ _), open_file]
  have hins : ∀ xs : List (Key × Vector Index N),
      Sys.run oceanusHash ⟨d, some (FBuilder.open (8 * N) oceanusHash size depth max d).1⟩
        (insertEvents (rawIns xs)) =
      (⟨d, some (FBuilder.open (8 * N) oceanusHash size depth max d).1⟩,
        xs.map (fun _ => .error .runtimeError)) := by
    intro xs
    induction xs with
    | nil => rfl
    | cons x xs ih =>
      have hst : Sys.step oceanusHash
          (⟨d, some (FBuilder.open (8 * N) oceanusHash size depth max d).1⟩ : Sys (8 * N))
          (.insert x.1 (ocSerialize x.2)) =
          (⟨d, some (FBuilder.open (8 * N) oceanusHash size depth max d).1⟩, .error .runtimeError) := by
        have hd : ((FBuilder.open (8 * N) oceanusHash size depth max d).1.insert d x.1 (ocSerialize x.2)).2.1 =
            d := by
          unfold FBuilder.insert
          rw [if_neg (by simp [FBuilder.open]), pushBack_error hc]
          show ({ d with tmp := ((Vec.Vec.open (16 + 8 * N) d.tmp true false).reserve max).file } : Disk) = d
          rw [reserve_committed (open_committed h1 _ _), open_file]
        show (Sys.mk ((FBuilder.open (8 * N) oceanusHash size depth max d).1.insert d x.1 (ocSerialize x.2)).2.1
          (some ((FBuilder.open (8 * N) oceanusHash size depth max d).1.insert d x.1 (ocSerialize x.2)).1),
          ((FBuilder.open (8 * N) oceanusHash size depth max d).1.insert d x.1 (ocSerialize x.2)).2.2) = _
        rw [hd, (insert_stale hc d x.1 (ocSerialize x.2)).1, (insert_stale hc d x.1 (ocSerialize x.2)).2]
      show Sys.run oceanusHash _ (.insert x.1 (ocSerialize x.2) :: insertEvents (rawIns xs)) = _
      rw [Sys.run, hst]
      dsimp only
      rw [ih]
      rfl
  -- the same `commit` as in a build without insertion
  have hcm : ((FBuilder.open (8 * N) oceanusHash size depth max d).1.commit d).2 = (⟨[], tab⟩, .ok ()) := by
    have e1' : Sys.run oceanusHash (⟨d, none⟩ : Sys (8 * N))
        (.new size depth max :: (insertEvents [] ++ [.commit])) =
      (⟨((FBuilder.open (8 * N) oceanusHash size depth max d).1.commit
          (FBuilder.open (8 * N) oceanusHash size depth max d).2).2.1,
        some ((FBuilder.open (8 * N) oceanusHash size depth max d).1.commit
          (FBuilder.open (8 * N) oceanusHash size depth max d).2).1⟩,
        [.ok (), ((FBuilder.open (8 * N) oceanusHash size depth max d).1.commit
          (FBuilder.open (8 * N) oceanusHash size depth max d).2).2.2]) := rfl
    have hall := (C48_succeeds_iff (N := N) size depth max hs d [] (by simp)).mpr ⟨Or.inr rfl, h2⟩
    rw [buildEvents_eq] at hall
    rw [show rawIns ([] : List (Key × Vector Index N)) = [] from rfl, e1', hdisk] at hall
    rw [e1', hdisk] at e1
    have a1 := congrArg (fun q => q.1.disk) e1
    have a2 := hall _ (List.mem_cons_of_mem _ List.mem_cons_self)
    exact Prod.ext a1 a2
  refine ⟨tab, ?_, ?_⟩
  · have hnew : Sys.step oceanusHash (⟨d, none⟩ : Sys (8 * N)) (.new size depth max) =
        (⟨d, some (FBuilder.open (8 * N) oceanusHash size depth max d).1⟩, .ok ()) := by
      show (Sys.mk (FBuilder.open (8 * N) oceanusHash size depth max d).2 _, _) = _
      rw [hdisk]
    have hdes : Sys.run oceanusHash
        (⟨d, some (FBuilder.open (8 * N) oceanusHash size depth max d).1⟩ : Sys (8 * N)) [.destroy] =
        (⟨⟨[], tab⟩, none⟩, [.ok ()]) := by
      show (Sys.mk ((FBuilder.open (8 * N) oceanusHash size depth max d).1.commit d).2.1 none,
        [((FBuilder.open (8 * N) oceanusHash size depth max d).1.commit d).2.2]) = _
      rw [hcm]
    rw [Sys.run, hnew]
    dsimp only
    rw [sysRun_append, hins]
    dsimp only
    rw [hdes]
  · intro k hk
    obtain ⟨t'', g1, -, -, g4, -⟩ := build_spec (n := 8 * N) size depth oceanusHash [] hs (by simp) (by simp)
    rw [e3] at g1
    cases g1
    rw [ocGet_of e4 e5, g4 k (by simp) hk]

/-- A committed builder refuses insertions, and `commit` and the destructor do nothing. -/
theorem run_committed (hash : Key → CKey) (b : FBuilder n) (hb : b.committed = true) (d : Disk)
    (later : List (Option (Key × Vector UInt8 n))) :
    Sys.run hash ⟨d, some b⟩ (later.map (fun o => match o with
      | some x => Ev.insert x.1 x.2
      | none => .commit)) = (⟨d, some b⟩, later.map (fun o => match o with
      | some _ => .error .runtimeError
      | none => .ok ())) := by
  induction later with
  | nil => rfl
  | cons o later ih =>
    have hstep : Sys.step hash (⟨d, some b⟩ : Sys n) (match o with
        | some x => Ev.insert x.1 x.2
        | none => .commit) = (⟨d, some b⟩, match o with
        | some _ => .error .runtimeError
        | none => .ok ()) := by
      cases o with
      | some x =>
        show ((⟨(b.insert d x.1 x.2).2.1, some (b.insert d x.1 x.2).1⟩ : Sys n), (b.insert d x.1 x.2).2.2) = _
        rw [FBuilder.insert, if_pos hb]
      | none =>
        show ((⟨(b.commit d).2.1, some (b.commit d).1⟩ : Sys n), (b.commit d).2.2) = _
        rw [FBuilder.commit, if_pos hb]
    rw [List.map_cons, Sys.run, hstep]
    dsimp only
    rw [ih]
    rfl

/-- **C48.** Once `commit` was called, whatever its outcome and whatever files were found, later insertions by the
same builder are refused, and neither they nor further calls of `commit` or the destructor change a file. -/
theorem C48_after_commit (hash : Key → CKey) (size depth max : Nat) (d : Disk) (ins : List (Key × Vector UInt8 n))
    (later : List (Option (Key × Vector UInt8 n))) :
    let build : List (Ev n) := .new size depth max :: (ins.map (fun x => .insert x.1 x.2) ++ [.commit])
    let more : List (Ev n) := later.map (fun o => match o with
      | some x => .insert x.1 x.2
      | none => .commit)
    Sys.run hash ⟨d, none⟩ (build ++ more) = ((Sys.run hash ⟨d, none⟩ build).1,
      (Sys.run hash ⟨d, none⟩ build).2 ++ later.map (fun o => match o with
        | some _ => .error .runtimeError
        | none => .ok ())) ∧
    (Sys.run hash ⟨d, none⟩ (build ++ more ++ [.destroy])).1.disk = (Sys.run hash ⟨d, none⟩ build).1.disk := by
  intro build more
  have hb : ∃ b d', (Sys.run hash ⟨d, none⟩ build).1 = (⟨d', some b⟩ : Sys n) ∧ b.committed = true := by
    have hins : ∀ (xs : List (Key × Vector UInt8 n)) (b : FBuilder n) (d : Disk), ∃ b' d',
        (Sys.run hash ⟨d, some b⟩ (xs.map (fun x => Ev.insert x.1 x.2))).1 = ⟨d', some b'⟩ := by
      intro xs
      induction xs with
      | nil => intro b d; exact ⟨b, d, rfl⟩
      | cons x xs ih =>
        intro b d
        exact ih (b.insert d x.1 x.2).1 (b.insert d x.1 x.2).2.1
    obtain ⟨b1, d1, e1⟩ := hins ins (FBuilder.open n hash size depth max d).1 (FBuilder.open n hash size depth max d).2
    have e2 : (Sys.run hash ⟨d, none⟩ build).1 = (Sys.step hash ⟨d1, some b1⟩ .commit).1 := by
      show (Sys.run hash (⟨(FBuilder.open n hash size depth max d).2,
        some (FBuilder.open n hash size depth max d).1⟩ : Sys n) (ins.map _ ++ [.commit])).1 = _
      rw [sysRun_append, e1]
      rfl
    refine ⟨(b1.commit d1).1, (b1.commit d1).2.1, e2, ?_⟩
    unfold FBuilder.commit
    split
    · assumption
    · dsimp only
      split <;> rfl
  obtain ⟨b, d', e, hc⟩ := hb
  have h1 : Sys.run hash ⟨d, none⟩ (build ++ more) = ((Sys.run hash ⟨d, none⟩ build).1,
      (Sys.run hash ⟨d, none⟩ build).2 ++ later.map (fun o => match o with
        | some _ => .error .runtimeError
        | none => .ok ())) := by
    rw [sysRun_append, e, run_committed hash b hc d' later]
  refine ⟨h1, ?_⟩
  rw [sysRun_append, h1, e]
  show (b.commit d').2.1 = d'
  rw [FBuilder.commit, if_pos hc]

/-- **C48.** A lookup without a table, or in an empty file left by a stopped process, is refused. -/
theorem C48_no_table (key : Key) :
    (ocGet [] key : Except Fault (Vector Index N)) = .error .runtimeError := rfl

/-! ### Examples -/

namespace Sample

/-- Blocks of one index -/
def blocks : List (Key × Vector Index 1) := [(key 0 0, #v[7]), (key 3 1, #v[8]), (key 1 2, #v[9])]

/-- Files after some events, and what a lookup returns then -/
def after (d : Disk) (es : List (Ev 8)) : Disk := (Sys.run oceanusHash ⟨d, none⟩ es).1.disk

end Sample

/-- A build of three blocks on a new disk meets the hypotheses of `C48_success_exact_partial`. -/
example : (Sample.blocks.map Prod.fst).Nodup ∧
    (∀ o ∈ (Sys.run oceanusHash ⟨⟨[], []⟩, none⟩ (buildEvents 3 5 4 Sample.blocks)).2, o = .ok ()) ∧
    (ocGet (Sample.after ⟨[], []⟩ (buildEvents 3 5 4 Sample.blocks)).table (Sample.key 3 1) :
      Except Fault (Vector Index 1)).toOption = some #v[8] := by
  refine ⟨by decide +kernel, ?_, by decide +kernel⟩
  exact (C48_succeeds_iff 3 5 4 (by omega) ⟨[], []⟩ Sample.blocks (by decide)).mpr ⟨Or.inl rfl, rfl⟩

/-- An interrupted build, as in `C48_interrupted_violated`: the two first blocks were inserted. -/
example : (Sample.after ⟨[], []⟩
      (.new 3 5 4 :: (insertEvents (rawIns (Sample.blocks.take 2)) ++ [.kill]))).tmp.length = 96 ∧
    Stops (Ev.kill (n := 8)) := ⟨by decide +kernel, Or.inl rfl⟩

/-- The table left by an interrupted `commit` meets the hypothesis of `C48_existing_table_kept`. -/
example : (Sample.after ⟨[], []⟩
      (.new 3 5 4 :: (insertEvents (rawIns Sample.blocks) ++ [.killCommit 1]))).table.length = 144 := by
  decide +kernel

/-- A build of three blocks, and a fourth insertion that comes too late -/
example : ((Sys.run oceanusHash ⟨⟨[], []⟩, none⟩ (buildEvents 3 5 4 Sample.blocks ++
      [.insert (Sample.key 2 2) (ocSerialize #v[10]), .commit])).2.map Except.toOption) =
      [some (), some (), some (), some (), some (), none, some ()] ∧
    (ocGet (Sample.after ⟨[], []⟩ (buildEvents 3 5 4 Sample.blocks ++
      [.insert (Sample.key 2 2) (ocSerialize #v[10]), .commit])).table (Sample.key 3 1) :
      Except Fault (Vector Index 1)).toOption = some #v[8] := by
  decide +kernel

end Verif.Oceanus
