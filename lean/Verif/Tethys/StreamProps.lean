import Verif.Tethys.StreamLemmas

/-!
# C76: a stash file that was not written completely

Full statement: the construction of a Tethys database reports an error when the stash file cannot be opened or
written completely, and a client that opens a stash file of which only a part was written (the disk was full, or
the process stopped) either refuses it or returns the documents of the index.

It does not hold: the states of the streams are not looked at. `C76_load` says what is read from a part of
the file, `C76_kept` and `C76_build_partial` which searches are not touched; the `_violated` theorems say what
happens to the others.
-/

namespace Verif.Tethys.Stream

open Verif

/-! ## What is read -/

/-- **C76**: what is read from the first `n` bytes of a file of records: the complete records, then, if the next
record has begun, a key and a list with bytes from the memory. No error is reported. -/
theorem C76_load (J : Memory) (xs : List (CoreKey × List Index)) (hx : ∀ x ∈ xs, x.2.length < 2 ^ 60) (n : Nat) :
    load J (some ((Spec.file xs).take n)) =
      .ok ((Spec.whole xs n ++ Spec.stray J 0 xs n).foldl (fun m x => m.put x.1 x.2) Map.empty) :=
  load_cut J xs hx n

/-- **C76**: reading any file ends, with an exception only if a number of values is too large. -/
theorem C76_ends (J : Memory) (st : Option (List UInt8)) :
    load J st = .error .lengthError ∨ ∃ m, load J st = .ok m :=
  load_total J st

/-- **C76**, a number of values too large for `reserve` after records that can be read: an exception. -/
theorem C76_large (J : Memory) (xs : List (CoreKey × List Index)) (hx : ∀ x ∈ xs, x.2.length < 2 ^ 60) (key : CoreKey)
    (size : Nat) (h1 : 2 ^ 60 ≤ size) (h2 : size < 2 ^ 64) (rest : List UInt8) :
    load J (some (Spec.file xs ++ (key.toList ++ leBytes 8 size ++ rest))) = .error .lengthError := by
  have main : ∀ (xs : List (CoreKey × List Index)) (_ : ∀ x ∈ xs, x.2.length < 2 ^ 60) (fuel k : Nat)
      (_ : xs.length < fuel) (m : Map CoreKey (List Index)),
      readMap J fuel k ⟨Spec.file xs ++ (key.toList ++ leBytes 8 size ++ rest), false, false⟩ m =
        .error .lengthError := by
    intro xs
    induction xs with
    | nil =>
      intro _ fuel k hf m
      obtain ⟨fuel, rfl⟩ : ∃ f, fuel = f + 1 := ⟨fuel - 1, by omega⟩
      have hne : key.toList ++ leBytes 8 size ++ rest ≠ [] := by
        intro h
        have := congrArg List.length h
        simp at this
      simp only [Spec.file, List.flatMap_nil, List.nil_append, readMap, In.more, Bool.false_eq_true, if_false, if_neg hne,
        if_true]
      unfold readKV
      simp only [List.append_assoc]
      rw [read_whole _ _ _ 16 (by simp)]
      simp only
      rw [read_whole _ _ _ 8 (by simp)]
      simp only
      rw [ofLeBytes_leBytes _ _ (by omega), if_pos h1]
    | cons x xs ih =>
      intro hx fuel k hf m
      obtain ⟨fuel, rfl⟩ : ∃ f, fuel = f + 1 := ⟨fuel - 1, by omega⟩
      have hne : Spec.record x ++ (Spec.file xs ++ (key.toList ++ leBytes 8 size ++ rest)) ≠ [] := by
        intro h
        have := congrArg List.length h
        rw [List.length_append, record_length] at this
        simp [Spec.size] at this
      have hfile : Spec.file (x :: xs) ++ (key.toList ++ leBytes 8 size ++ rest) =
          Spec.record x ++ (Spec.file xs ++ (key.toList ++ leBytes 8 size ++ rest)) := by
        simp [Spec.file]
      rw [hfile]
      simp only [readMap, In.more, Bool.false_eq_true, if_false, if_neg hne, if_true]
      rw [readKV_whole J k x (hx x (by simp))]
      exact ih (fun y hy => hx y (by simp [hy])) fuel _ (by simp only [List.length_cons] at hf; omega) _
  refine main xs hx _ 0 ?_ _
  have hl : xs.length ≤ (Spec.file xs).length := by
    clear hx
    induction xs with
    | nil => simp
    | cons x xs ih =>
      simp only [Spec.file, List.flatMap_cons, List.length_append, List.length_cons, record_length] at ih ⊢
      unfold Spec.size
      omega
  simp only [List.length_append]
  omega

/-- **C76**: the model without streams is right about the files it reads: the memory does not matter. -/
theorem C76_streams (J : Memory) (st : Option (List UInt8)) (m : Map CoreKey (List Index))
    (h : loadStash st = .ok m) (hl : ∀ b, st = some b → b.length < 2 ^ 63) : load J st = .ok m :=
  load_deserialize J st m h hl

theorem whole_append_broken (xs : List (CoreKey × List Index)) (n : Nat) :
    Spec.whole xs n ++ Spec.broken xs n = xs := by
  induction xs generalizing n with
  | nil => rfl
  | cons x xs ih =>
    unfold Spec.whole Spec.broken
    by_cases hn : n < Spec.size x
    · simp [hn]
    · simp [hn, ih]

theorem stash_agrees (J : Memory) (xs : List (CoreKey × List Index)) (n : Nat)
    (key : CoreKey) (hb : ∀ y ∈ Spec.broken xs n, y.1 ≠ key) (hj : ∀ y ∈ Spec.stray J 0 xs n, y.1 ≠ key) :
    ((Spec.whole xs n ++ Spec.stray J 0 xs n).foldl (fun m x => m.put x.1 x.2) Map.empty) key =
      (xs.foldl (fun m x => m.put x.1 x.2) (Map.empty : Map CoreKey (List Index))) key := by
  have skip : ∀ (ys : List (CoreKey × List Index)) (m : Map CoreKey (List Index)), (∀ y ∈ ys, y.1 ≠ key) →
      (ys.foldl (fun m x => m.put x.1 x.2) m) key = m key := by
    intro ys
    induction ys with
    | nil => intro m _; rfl
    | cons y ys ih =>
      intro m h
      rw [List.foldl_cons, ih _ (fun z hz => h z (List.mem_cons_of_mem _ hz)),
        Map.put_of_ne _ _ (fun e => h y (List.mem_cons_self ..) e.symm)]
  conv => rhs; rw [← whole_append_broken xs n]
  rw [List.foldl_append, List.foldl_append, skip _ _ hj, skip _ _ hb]

/-- **C76**: the lists of the complete records are read as they were written, and there is nothing for the keys
without a record, except for the key that is read from an incomplete record. -/
theorem C76_records (J : Memory) (xs : List (CoreKey × List Index)) (hs : Spec.Sound xs) (n : Nat) :
    ∃ m, load J (some ((Spec.file xs).take n)) = .ok m ∧
      ∀ key, (∀ y ∈ Spec.stray J 0 xs n, y.1 ≠ key) →
        (∀ x ∈ Spec.whole xs n, x.1 = key → m key = some x.2) ∧
        ((∀ x ∈ Spec.whole xs n, x.1 ≠ key) → m key = none) := by
  refine ⟨_, C76_load J xs hs.1 n, ?_⟩
  intro key hj
  have hd : ((Spec.whole xs n).map Prod.fst).Nodup := by
    have := hs.2
    rw [← whole_append_broken xs n, List.map_append] at this
    exact (List.nodup_append.mp this).1
  have skip : ∀ (ys : List (CoreKey × List Index)) (m : Map CoreKey (List Index)), (∀ y ∈ ys, y.1 ≠ key) →
      (ys.foldl (fun m x => m.put x.1 x.2) m) key = m key := by
    intro ys
    induction ys with
    | nil => intro m _; rfl
    | cons y ys ih =>
      intro m h
      rw [List.foldl_cons, ih _ (fun z hz => h z (List.mem_cons_of_mem _ hz)),
        Map.put_of_ne _ _ (fun e => h y (List.mem_cons_self ..) e.symm)]
  rw [List.foldl_append, skip _ _ hj]
  obtain ⟨h1, h2⟩ := foldl_put (Spec.whole xs n) Map.empty hd key
  exact ⟨h1, fun h => (h2 h).trans rfl⟩

/-! ## Searches -/

/-- The outcome of a call that knows no `std::length_error` -/
def outcome {α : Type} : Except Fault α → Except Failure α
  | .ok a => .ok a
  | .error f => .error (.fault f)

theorem search_agrees {W : Type} (J : Memory) (P : Params W) (d d' : Disk W) (w : W)
    (m m' : Map CoreKey (List Index)) (ht : d'.table = d.table) (hc : d'.counters = d.counters)
    (h : loadStash d.stash = .ok m) (h' : load J d'.stash = .ok m')
    (hk : ∀ key ∈ Spec.keys P d.counters w, m' key = m key) :
    search J P d' w = outcome (d.search P w) := by
  unfold search Disk.search
  rw [ht, hc]
  by_cases h0 : d.table = []
  · rw [if_pos h0, if_pos h0]; rfl
  · rw [if_neg h0, if_neg h0]
    unfold Stream.schemeSearch Tethys.schemeSearch Client.open Store.open
    have hnone : loadStash none = .ok Map.empty := rfl
    simp only [h, h', hnone]
    have hreq : (Client.mk m' d.counters P.prf P.enc : Client W).searchRequest w =
        (Client.mk m d.counters P.prf P.enc : Client W).searchRequest w := rfl
    rw [hreq]
    cases hs : serverSearch P.H ⟨pagesOf P.page d.table, P.hash, Map.empty⟩
        ((Client.mk m d.counters P.prf P.enc : Client W).searchRequest w) with
    | error f => rfl
    | ok ps =>
      simp only
      have hcg : (Client.mk m' d.counters P.prf P.enc : Client W).decodeResults ps =
          (Client.mk m d.counters P.prf P.enc : Client W).decodeResults ps := by
        refine decodeResults_congr _ _ ?_ ps ?_
        · rfl
        intro p hp
        unfold serverSearch at hs
        obtain ⟨i, hi, e⟩ := serverLoop_keys P.H _ _ _ ps hs p hp
        rw [e]
        apply hk
        unfold Spec.keys
        exact List.mem_map.mpr ⟨i, hi, rfl⟩
      rw [hcg]
      cases (Client.mk m d.counters P.prf P.enc : Client W).decodeResults ps with
      | error f => rfl
      | ok r => rfl

theorem load_file (xs : List (CoreKey × List Index)) (hx : ∀ x ∈ xs, x.2.length < 2 ^ 60) :
    loadStash (some (Spec.file xs)) = .ok (xs.foldl (fun m x => m.put x.1 x.2) Map.empty) :=
  deserializeMap_spec xs (fun x h => by have := hx x h; omega) _ (Nat.lt_succ_self _) _

/-- **C76**: a search returns what it would return with the complete stash file, if the keys of its documents do not
belong to incomplete records. -/
theorem C76_kept {W : Type} (J : Memory) (P : Params W) (d : Disk W) (xs : List (CoreKey × List Index))
    (hs : Spec.Sound xs) (hd : d.stash = some (Spec.file xs)) (n : Nat) (w : W)
    (hu : Spec.Untouched J xs n (Spec.keys P d.counters w)) :
    search J P { d with stash := some ((Spec.file xs).take n) } w = outcome (d.search P w) :=
  search_agrees J P d _ w _ _ rfl rfl (hd ▸ load_file xs hs.1) (C76_load J xs hs.1 n)
    (fun key hk => stash_agrees J xs n key (hu key hk).1 (hu key hk).2)

/-! ## The construction -/

variable {W : Type} [DecidableEq W]

theorem buildFiles_medium (M : Medium) (b : Builder) (enc : ValueEncoder) (file : List UInt8) :
    (b.buildFiles enc file none).2.2 = (buildFiles M b enc file none).2.2 ∧
    (b.buildFiles enc file none).1 = (buildFiles M b enc file none).1 ∧
    (b.buildFiles enc file none).2.1.1 = (buildFiles M b enc file none).2.1.1 ∧
    (buildFiles M b enc file none).2.1.2 = (b.buildFiles enc file none).2.1.2.bind (M.store none) := by
  unfold Builder.buildFiles buildFiles
  by_cases hb : b.built = true
  · simp [hb]
  · simp only [hb, if_false, Bool.false_eq_true]
    cases b.alloc.allocate with
    | error f => exact ⟨rfl, rfl, rfl, rfl⟩
    | ok a =>
      simp only
      cases hp : pushPages enc b.page a.graph b.data (List.range b.size) (b.tableFile file) with
      | mk t r =>
        cases r with
        | error f => exact ⟨rfl, rfl, rfl, rfl⟩
        | ok u =>
          simp only
          by_cases hst : a.stashed = []
          · simp [hst]
          · simp only [hst, if_false]
            cases serializeStash a.graph.edges b.data (setOrder a.graph.edges a.stashed) with
            | error f => exact ⟨rfl, rfl, rfl, rfl⟩
            | ok s => exact ⟨rfl, rfl, rfl, rfl⟩

theorem run_stash (P : Params W) (s : Sys W) (es : List (Ev W))
    (hes : ∀ e ∈ es, (∃ n, e = .new n) ∨ ∃ w ids, e = .insert w ids) :
    (Sys.run P s es).1.disk.stash = s.disk.stash ∧ ∀ M, run M P s es = Sys.run P s es := by
  induction es generalizing s with
  | nil => exact ⟨rfl, fun _ => rfl⟩
  | cons e es ih =>
    obtain ⟨h1, h2⟩ := ih (s.step P e).1 (fun e he => hes e (List.mem_cons_of_mem _ he))
    have hstep : (s.step P e).1.disk.stash = s.disk.stash ∧ ∀ M, step M P s e = s.step P e := by
      rcases hes e (List.mem_cons_self ..) with ⟨n, rfl⟩ | ⟨w, ids, rfl⟩
      · refine ⟨?_, fun _ => rfl⟩
        unfold Sys.step
        dsimp only
        split <;> rfl
      · refine ⟨?_, fun _ => rfl⟩
        unfold Sys.step
        dsimp only
        split <;> rfl
    refine ⟨?_, fun M => ?_⟩
    · rw [Sys.run]
      exact h1.trans hstep.1
    · rw [Sys.run, run, hstep.2 M, h2 M]

theorem run_snoc (M : Medium) (P : Params W) (s : Sys W) (es : List (Ev W)) (e : Ev W) :
    run M P s (es ++ [e]) =
      ((step M P (run M P s es).1 e).1, (run M P s es).2 ++ [(step M P (run M P s es).1 e).2]) := by
  induction es generalizing s with
  | nil => rfl
  | cons a es ih => simp only [List.cons_append, run, ih]

theorem sysRun_snoc (P : Params W) (s : Sys W) (es : List (Ev W)) (e : Ev W) :
    Sys.run P s (es ++ [e]) =
      (((Sys.run P s es).1.step P e).1, (Sys.run P s es).2 ++ [((Sys.run P s es).1.step P e).2]) := by
  induction es generalizing s with
  | nil => rfl
  | cons a es ih => simp only [List.cons_append, Sys.run, ih]

/-- What the medium does to a construction from nothing: the outcomes, the table and the counters are the same. -/
theorem run_medium (M : Medium) (P : Params W) (n : Nat) (index : List (W × List Index)) (d : Disk W)
    (hst : d.stash = none) :
    (run M P ⟨d, none⟩ (buildEvents n index)).2 = (Sys.run P ⟨d, none⟩ (buildEvents n index)).2 ∧
    (run M P ⟨d, none⟩ (buildEvents n index)).1.disk =
      { (Sys.run P ⟨d, none⟩ (buildEvents n index)).1.disk with
        stash := (Sys.run P ⟨d, none⟩ (buildEvents n index)).1.disk.stash.bind (M.store none) } := by
  unfold buildEvents
  rw [← List.cons_append, run_snoc, sysRun_snoc]
  obtain ⟨h1, h2⟩ := run_stash P ⟨d, none⟩ (.new n :: index.map (fun x => .insert x.1 x.2)) (by
    intro e he
    rcases List.mem_cons.mp he with rfl | he
    · exact Or.inl ⟨n, rfl⟩
    · obtain ⟨x, _, rfl⟩ := List.mem_map.mp he
      exact Or.inr ⟨_, _, rfl⟩)
  rw [h2 M]
  have h1 := h1.trans hst
  generalize (Sys.run P ⟨d, none⟩ (.new n :: index.map (fun x => .insert x.1 x.2))).1 = s at h1 ⊢
  generalize (Sys.run P ⟨d, none⟩ (.new n :: index.map (fun x => .insert x.1 x.2))).2 = o
  obtain ⟨⟨tb, st, ct⟩, bd⟩ := s
  simp only at h1
  subst h1
  cases bd with
  | none => exact ⟨rfl, rfl⟩
  | some b =>
    obtain ⟨h3, -, h4, h5⟩ := buildFiles_medium M b P.enc tb
    constructor
    · show o ++ [(buildFiles M b P.enc tb none).2.2] = o ++ [(b.buildFiles P.enc tb none).2.2]
      rw [h3]
    · show Disk.mk (buildFiles M b P.enc tb none).2.1.1 (buildFiles M b P.enc tb none).2.1.2 ct = _
      rw [← h4, h5]
      rfl

/-- The stash file of a construction is a file of records, which can be read. -/
theorem run_records (P : Params W) (n : Nat) (index : List (W × List Index))
    (hok : Tethys.Spec.IndexOk P.page n P.prf P.H index) (d : Disk W) (ht : d.table = []) (hst : d.stash = none) :
    ∃ xs, Spec.Sound xs ∧ ((Sys.run P ⟨d, none⟩ (buildEvents n index)).1.disk.stash = none ∨
      (Sys.run P ⟨d, none⟩ (buildEvents n index)).1.disk.stash = some (Spec.file xs)) := by
  have hroom := hok.room
  have hm : 0 < P.page / 8 - 6 := by omega
  have hs : SmallEnough P.page (blocksOf P.page P.prf P.H index) := by
    unfold SmallEnough
    rw [sum_blocksOf hm]
    exact hok.total
  have hfits : ∀ y ∈ blocksOf P.page P.prf P.H index, y.2.length + 6 ≤ P.page / 8 := by
    intro y hy
    obtain ⟨x, hx, hy⟩ := List.mem_flatMap.mp hy
    have := cut_length_le hm (block := []) (ids := x.2) (by simpa using hm) _ (mem_keyed hy)
    omega
  have hfilter : (blocksOf P.page P.prf P.H index).filter (fits P.page) = blocksOf P.page P.prf P.H index := by
    rw [List.filter_eq_self]
    intro y hy
    exact decide_eq_true (hfits y hy)
  have hd : DistinctKeys P.page (blocksOf P.page P.prf P.H index) := by
    unfold DistinctKeys
    rw [hfilter, blocksOf_fst hm]
    exact hok.keys
  obtain ⟨b0, a0, a, hb0, -, -, hpg⟩ := insertAll_builder P.hash hok.buckets (blocksOf P.page P.prf P.H index) hs
  obtain ⟨recs, cs, b0', hb0', hrecs, hsp, hcs, -, hb⟩ := build_spec (page := P.page) P.hash hok.buckets
    (blocksOf P.page P.prf P.H index) hs
  rw [hb0] at hb0'
  cases hb0'
  have hnodup : (recs.map Placed.key).Nodup := by
    have : recs.map Placed.key = (recs.map (fun r => (r.key, r.vals))).map Prod.fst := by
      rw [List.map_map]; rfl
    rw [this, hrecs]
    exact hd
  have hlen : ∀ r ∈ recs, r.vals.length < 2 ^ 60 := by
    intro r hr
    have hmem : (r.key, r.vals) ∈ recs.map (fun r => (r.key, r.vals)) := List.mem_map.mpr ⟨r, hr, rfl⟩
    rw [hrecs, hfilter] at hmem
    have := hfits _ hmem
    have := hok.small
    simp only at *
    omega
  refine ⟨stashPairs recs, ⟨?_, stashPairs_nodup hnodup⟩, ?_⟩
  · intro x hx
    obtain ⟨r, hr, -, rfl⟩ := mem_stashPairs.mp hx
    have := hlen r hr
    have := r.mid_length (hsp r hr)
    simp only
    omega
  · obtain ⟨b1, fs, h1, h2, -, h4, h5, -⟩ := search_counters P.page n P.hash P.prf P.H P.enc index hok
    rw [hb0] at h1
    cases h1
    obtain ⟨b', h7⟩ := buildFiles_new _ P.enc none fs h2 (by rw [h5]; exact h4)
    have hstash : (Sys.run P ⟨d, none⟩ (buildEvents n index)).1.disk.stash = fs.stash := by
      unfold buildEvents
      rw [← List.cons_append, sysRun_snoc, run_index P n index hok ⟨d, none⟩ hb0]
      show ((b0.insertAll (blocksOf P.page P.prf P.H index)).buildFiles P.enc d.table d.stash).2.1.2 = _
      rw [ht, hst, h7]
    rw [hstash]
    have hfs := hb P.enc none
    rw [h2] at hfs
    rw [Except.ok.inj hfs]
    simp only
    by_cases hz : recs.filter Placed.stashed = []
    · rw [if_pos hz]; exact Or.inl rfl
    · rw [if_neg hz, stashBytes_pairs recs hsp]; exact Or.inr rfl

/-- **C76**: whatever happens to the stash file, the construction reports no error. The stash file holds the first
bytes of a file of records (or there is none), and the searches whose keys do not belong to incomplete records
return the documents of the index. -/
theorem C76_build_partial (J : Memory) (P : Params W) (n : Nat) (index : List (W × List Index))
    (hok : Tethys.Spec.IndexOk P.page n P.prf P.H index) (hmul : ∀ x ∈ index, x.2.length % (P.page / 8 - 6) ≠ 0)
    (d : Disk W) (ht : d.table = []) (hst : d.stash = none) (room : Nat) :
    (∀ o ∈ (run (.room room) P ⟨d, none⟩ (buildEvents n index)).2, o = .ok ()) ∧
    ∃ xs, Spec.Sound xs ∧
      ((run (.room room) P ⟨d, none⟩ (buildEvents n index)).1.disk.stash = none ∨
        (run (.room room) P ⟨d, none⟩ (buildEvents n index)).1.disk.stash = some ((Spec.file xs).take room)) ∧
      ∀ x ∈ index,
        Spec.Untouched J xs room
          (Spec.keys P (run (.room room) P ⟨d, none⟩ (buildEvents n index)).1.disk.counters x.1) →
        ∃ r, search J P (run (.room room) P ⟨d, none⟩ (buildEvents n index)).1.disk x.1 = .ok r ∧ r.Perm x.2 := by
  obtain ⟨h1, h2, -⟩ := C51_build_partial P n index d hok hmul ht hst
  obtain ⟨h3, h4⟩ := run_medium (.room room) P n index d hst
  obtain ⟨xs, h5, h6⟩ := run_records P n index hok d ht hst
  rw [h3, h4]
  refine ⟨h1, xs, h5, ?_, ?_⟩
  · rcases h6 with h6 | h6
    · exact Or.inl (by rw [h6]; rfl)
    · exact Or.inr (by rw [h6]; rfl)
  · intro x hx hu
    obtain ⟨r, h7, h8⟩ := h2 x hx
    refine ⟨r, ?_, h8⟩
    rcases h6 with h6 | h6
    · exact (search_agrees J P (Sys.run P ⟨d, none⟩ (buildEvents n index)).1.disk
        { (Sys.run P ⟨d, none⟩ (buildEvents n index)).1.disk with
          stash := (Sys.run P ⟨d, none⟩ (buildEvents n index)).1.disk.stash.bind (Medium.store (.room room) none) }
        x.1 Map.empty Map.empty rfl rfl (by rw [h6]; rfl) (by rw [h6]; rfl) (fun _ _ => rfl)).trans
        (congrArg outcome h7)
    · have := C76_kept J P _ xs h5 h6 room x.1 hu
      rw [h7] at this
      rw [h6]
      exact this

/-- **C76**, when the stash file cannot be opened: whatever is done, it stays as it was. -/
theorem C76_closed (P : Params W) (s : Sys W) (es : List (Ev W)) :
    (run .closed P s es).1.disk.stash = s.disk.stash := by
  induction es generalizing s with
  | nil => rfl
  | cons e es ih =>
    have hstep : (step .closed P s e).1.disk.stash = s.disk.stash := by
      cases e with
      | build =>
        unfold step
        dsimp only
        split
        · rfl
        · next b hb =>
          show (buildFiles .closed b P.enc s.disk.table s.disk.stash).2.1.2 = _
          unfold buildFiles Medium.store
          dsimp only
          repeat' split
          all_goals rfl
      | _ =>
        unfold step Sys.step
        dsimp only
        try split
        all_goals rfl
    exact (ih _).trans hstep

example : (run .closed Sample.params ⟨⟨[], some [1, 2, 3], Map.empty⟩, none⟩
    (buildEvents 2 Sample.index)).1.disk.stash = some [1, 2, 3] := C76_closed ..

/-- **C76**, when the file is complete: all searches return the documents of the index, whatever the memory. -/
theorem C76_complete (J : Memory) (P : Params W) (n : Nat) (index : List (W × List Index))
    (hok : Tethys.Spec.IndexOk P.page n P.prf P.H index) (hmul : ∀ x ∈ index, x.2.length % (P.page / 8 - 6) ≠ 0)
    (d : Disk W) (ht : d.table = []) (hst : d.stash = none) (room : Nat)
    (hroom : ∀ b, (Sys.run P ⟨d, none⟩ (buildEvents n index)).1.disk.stash = some b → b.length ≤ room)
    (x : W × List Index) (hx : x ∈ index) :
    ∃ r, search J P (run (.room room) P ⟨d, none⟩ (buildEvents n index)).1.disk x.1 = .ok r ∧ r.Perm x.2 := by
  obtain ⟨-, h2, -⟩ := C51_build_partial P n index d hok hmul ht hst
  obtain ⟨-, h4⟩ := run_medium (.room room) P n index d hst
  obtain ⟨xs, h5, h6⟩ := run_records P n index hok d ht hst
  obtain ⟨r, h7, h8⟩ := h2 x hx
  refine ⟨r, ?_, h8⟩
  rw [h4]
  rcases h6 with h6 | h6
  · exact (search_agrees J P (Sys.run P ⟨d, none⟩ (buildEvents n index)).1.disk
      { (Sys.run P ⟨d, none⟩ (buildEvents n index)).1.disk with
        stash := (Sys.run P ⟨d, none⟩ (buildEvents n index)).1.disk.stash.bind (Medium.store (.room room) none) }
      x.1 Map.empty Map.empty rfl rfl (by rw [h6]; rfl) (by rw [h6]; rfl) (fun _ _ => rfl)).trans
      (congrArg outcome h7)
  · have hall : ∀ (ys : List (CoreKey × List Index)) (k m : Nat), (Spec.file ys).length ≤ m →
        Spec.broken ys m = [] ∧ Spec.stray J k ys m = [] := by
      intro ys
      induction ys with
      | nil => intro k m _; exact ⟨rfl, rfl⟩
      | cons y ys ih =>
        intro k m hm
        have hl := record_length y
        simp only [Spec.file, List.flatMap_cons, List.length_append] at hm
        obtain ⟨i1, i2⟩ := ih (k + 1 + y.2.length) (m - Spec.size y) (by unfold Spec.file; omega)
        unfold Spec.broken Spec.stray
        rw [if_neg (by omega), if_neg (by omega)]
        exact ⟨i1, i2⟩
    obtain ⟨e1, e2⟩ := hall xs 0 room (hroom _ h6)
    have := C76_kept J P _ xs h5 h6 room x.1 (by
      intro key _
      rw [e1, e2]
      exact ⟨fun y hy => absurd hy (by simp), fun y hy => absurd hy (by simp)⟩)
    rw [h7] at this
    rw [h6]
    exact this

/-! ## What happens otherwise -/

theorem stray_append (J : Memory) (xs : List (CoreKey × List Index)) (x : CoreKey × List Index) (o k : Nat)
    (h0 : o ≠ 0) (ho : o < Spec.size x) :
    Spec.whole (xs ++ [x]) ((Spec.file xs).length + o) = xs ∧
    Spec.stray J k (xs ++ [x]) ((Spec.file xs).length + o) =
      [Spec.cut J (k + (xs.map (fun y => 1 + y.2.length)).sum) x o] := by
  induction xs generalizing k with
  | nil => simp [Spec.whole, Spec.stray, Spec.file, h0, ho]
  | cons y ys ih =>
    have hl := record_length y
    obtain ⟨i1, i2⟩ := ih (k + 1 + y.2.length)
    simp only [Spec.file, List.flatMap_cons, List.length_append, hl, List.cons_append, Spec.whole, Spec.stray,
      List.map_cons, List.sum_cons]
    rw [if_neg (by omega), if_neg (by omega)]
    unfold Spec.file at i1 i2
    rw [show Spec.size y + (ys.flatMap Spec.record).length + o - Spec.size y =
      (ys.flatMap Spec.record).length + o by omega, i1, i2]
    refine ⟨rfl, ?_⟩
    congr 2
    omega

/-- A memory that holds the given values, from variable `k` on -/
def holding (k : Nat) (vs : List Index) : Memory := fun v b => (indexBytes (vs.getD (v - k) 0)).getD b 0

/-- **C76 violated**: if the key and the number of values of a record were written, the list that is read is
whatever is in the memory: any list of the same length is possible. -/
theorem C76_any_documents (xs : List (CoreKey × List Index)) (x : CoreKey × List Index)
    (hx : ∀ y ∈ xs ++ [x], y.2.length < 2 ^ 60) (hne : x.2 ≠ []) (vs : List Index) (hv : vs.length = x.2.length) :
    ∃ J m, load J (some ((Spec.file (xs ++ [x])).take ((Spec.file xs).length + 24))) = .ok m ∧
      m x.1 = some vs := by
  have hpos := List.length_pos_iff.mpr hne
  obtain ⟨h1, h2⟩ := stray_append (holding ((xs.map (fun y => 1 + y.2.length)).sum + 1) vs)
    xs x 24 0 (by omega) (by unfold Spec.size; omega)
  refine ⟨holding ((xs.map (fun y => 1 + y.2.length)).sum + 1) vs, _, C76_load _ (xs ++ [x]) hx _, ?_⟩
  rw [h1, h2, List.foldl_append, List.foldl_cons, List.foldl_nil, ← cut_key_whole _ _ x 24 (by omega), Map.put_self]
  congr 1
  have hlast := hx x (by simp)
  unfold Spec.cut
  simp only [show min (24 - 16) 8 = 8 from rfl]
  rw [Nat.mod_eq_of_lt (by omega), ← hv]
  apply List.ext_getElem
  · simp
  · intro j h3 h4
    simp only [List.getElem_map, List.getElem_range]
    conv => rhs; rw [← bytesIndex_indexBytes vs[j]]
    refine congrArg bytesIndex ?_
    apply List.ext_getElem
    · simp
    · intro b h5 h6
      simp only [List.length_map, List.length_range] at h5
      simp only [List.getElem_map, List.getElem_range]
      rw [if_neg (by omega), holding, show 0 + (xs.map (fun y => 1 + y.2.length)).sum + 1 + j -
        ((xs.map (fun y => 1 + y.2.length)).sum + 1) = j by omega, List.getD_eq_getElem?_getD (l := vs),
        List.getElem?_eq_getElem h4, Option.getD_some, getD_lt _ _ (by simpa using h5)]

/-- **C76 violated**: if the key of a record was written only in part, the list of another record may be erased:
any complete record with the same first bytes in its key. -/
theorem C76_erased (xs : List (CoreKey × List Index)) (x y : CoreKey × List Index)
    (hs : Spec.Sound (xs ++ [x])) (o : Nat) (h0 : 0 < o) (h16 : o < 16)
    (hy : y ∈ xs) (hk : y.1.toList.take o = x.1.toList.take o) :
    (∃ m, loadStash (some (Spec.file (xs ++ [x]))) = .ok m ∧ m y.1 = some y.2) ∧
    ∃ J m, load J (some ((Spec.file (xs ++ [x])).take ((Spec.file xs).length + o))) = .ok m ∧
      m y.1 = some [] := by
  have hx := hs.1
  refine ⟨⟨_, load_file _ hx, (foldl_put _ Map.empty hs.2 y.1).1 y (List.mem_append_left _ hy) rfl⟩, ?_⟩
  obtain ⟨h1, h2⟩ := stray_append (fun _ b => y.1.toList.getD b 0) xs x o 0 (by omega)
    (by unfold Spec.size; omega)
  refine ⟨(fun _ b => y.1.toList.getD b 0), _, C76_load _ (xs ++ [x]) hx _, ?_⟩
  rw [h1, h2, List.foldl_append, List.foldl_cons, List.foldl_nil]
  have e1 : (Spec.cut (fun _ b => y.1.toList.getD b 0) (0 + (xs.map (fun y => 1 + y.2.length)).sum) x o).1 = y.1 := by
    unfold Spec.cut
    apply Vector.ext
    intro i hi
    simp only [Vector.getElem_ofFn]
    by_cases h : i < o
    · rw [if_pos h]
      have h3 : (x.1.toList.take o)[i]? = (y.1.toList.take o)[i]? := by rw [hk]
      rw [List.getElem?_take_of_lt h, List.getElem?_take_of_lt h] at h3
      simp only [Vector.getElem?_toList, Vector.getElem?_eq_getElem hi] at h3
      exact Option.some.inj h3
    · rw [if_neg h, getD_lt _ _ (by simpa using hi)]
      simp
  have e2 : (Spec.cut (fun _ b => y.1.toList.getD b 0) (0 + (xs.map (fun y => 1 + y.2.length)).sum) x o).2 = [] := by
    unfold Spec.cut
    simp [show o - 16 = 0 by omega, Nat.mod_one]
  rw [e1, e2, Map.put_self]

/-- A search with a given stash -/
def searchWith (m : Map CoreKey (List Index)) (P : Params W) (d : Disk W) (w : W) : Except Fault (List Index) :=
  if d.table = [] then .error .runtimeError
  else match serverSearch P.H ⟨pagesOf P.page d.table, P.hash, Map.empty⟩
      ((Client.mk m d.counters P.prf P.enc : Client W).searchRequest w) with
    | .error f => .error f
    | .ok ps => (Client.mk m d.counters P.prf P.enc : Client W).decodeResults ps

omit [DecidableEq W] in
theorem search_with (J : Memory) (m : Map CoreKey (List Index)) (P : Params W) (d : Disk W) (w : W)
    (h : load J d.stash = .ok m) : search J P d w = outcome (searchWith m P d w) := by
  unfold search searchWith Stream.schemeSearch
  by_cases h0 : d.table = []
  · rw [if_pos h0, if_pos h0]; rfl
  · rw [if_neg h0, if_neg h0]
    simp only [h]
    cases serverSearch P.H ⟨pagesOf P.page d.table, P.hash, Map.empty⟩
        ((Client.mk m d.counters P.prf P.enc : Client W).searchRequest w) with
    | error f => rfl
    | ok ps =>
      simp only
      cases (Client.mk m d.counters P.prf P.enc : Client W).decodeResults ps <;> rfl

omit [DecidableEq W] in
theorem searchWith_stash (m : Map CoreKey (List Index)) (P : Params W) (d : Disk W) (st : Option (List UInt8)) (w : W) :
    searchWith m P { d with stash := st } w = searchWith m P d w := rfl

omit [DecidableEq W] in
/-- A keyword with one key that has nothing in the table -/
theorem searchWith_single (m : Map CoreKey (List Index)) (P : Params W) (d : Disk W) (w : W)
    (hc : d.counters w = some 1) (h : searchWith Map.empty P d w = .ok []) :
    searchWith m P d w = .ok ((m (deriveCoreKey P.H (P.prf w) 0)).getD []) := by
  unfold searchWith at h ⊢
  by_cases h0 : d.table = []
  · rw [if_pos h0] at h; cases h
  · rw [if_neg h0] at h ⊢
    unfold serverSearch Client.searchRequest at h ⊢
    simp only [hc, Option.getD_some, show (List.range (1 : UInt32).toNat) = [0] from rfl, serverLoop] at h ⊢
    cases hg : Store.getBuckets ⟨pagesOf P.page d.table, P.hash, Map.empty⟩ (deriveCoreKey P.H (P.prf w) 0) with
    | error f => rw [hg] at h; cases h
    | ok p =>
      rw [hg] at h
      simp only [Client.decodeResults] at h ⊢
      cases hd : P.enc.decode (deriveCoreKey P.H (P.prf w) 0) p.b0 p.i0 p.b1 p.i1 with
      | error f => rw [hd] at h; cases h
      | ok r =>
        rw [hd] at h
        simp only at h ⊢
        have hr := Except.ok.inj h
        simp only [Map.empty, Option.getD_none, List.append_nil] at hr
        rw [hr]
        simp

theorem of_toOption {α ε : Type} {x : Except ε α} {a : α} (h : x.toOption = some a) : x = .ok a := by
  cases x with
  | error e => cases h
  | ok b => exact congrArg Except.ok (Option.some.inj h)

/-- The database of the examples -/
def sampleDisk : Disk Nat := (Sample.empty.run Sample.params (buildEvents 2 Sample.index)).1.disk

/-- A search in the database of the examples, when the stash file was written to the given medium -/
def sampleAfter (J : Memory) (M : Medium) (w : Nat) : Except Failure (List Index) :=
  search J Sample.params (run M Sample.params Sample.empty (buildEvents 2 Sample.index)).1.disk w

theorem sampleAfter_eq (J : Memory) (M : Medium) (m : Map CoreKey (List Index))
    (h : load J ((some (Spec.file [(Sample.K 5, [11])])).bind (M.store none)) = .ok m) :
    sampleAfter J M 5 = .ok ((m (Sample.K 5)).getD []) := by
  have hs : sampleDisk.stash = some (Spec.file [(Sample.K 5, [11])]) := by decide +kernel
  have hd : (run M Sample.params Sample.empty (buildEvents 2 Sample.index)).1.disk =
      { sampleDisk with stash := sampleDisk.stash.bind (M.store none) } :=
    (run_medium M Sample.params 2 Sample.index ⟨[], none, Map.empty⟩ rfl).2
  unfold sampleAfter
  have h0 : searchWith Map.empty Sample.params sampleDisk 5 = .ok [] := of_toOption (by decide +kernel)
  rw [hd, search_with J m _ _ _ (by rw [hs]; exact h), searchWith_stash,
    searchWith_single m Sample.params sampleDisk 5 (by decide +kernel) h0]
  have : deriveCoreKey Sample.params.H (Sample.params.prf 5) 0 = Sample.K 5 := by decide +kernel
  rw [this]
  rfl

theorem sample_load (J : Memory) (n : Nat) :
    load J ((some (Spec.file [(Sample.K 5, [11])])).bind (Medium.store (.room n) none)) =
      .ok ((Spec.whole [(Sample.K 5, [11])] n ++ Spec.stray J 0 [(Sample.K 5, [11])] n).foldl
        (fun m x => m.put x.1 x.2) Map.empty) :=
  C76_load J [(Sample.K 5, [11])] (by simp) n

/-- **C76 violated**: with a full disk, or without permission to write the stash file, the construction reports no
error and keyword 5 has lost its document. -/
theorem C76_lost_violated (J : Memory) :
    (∀ M ∈ [Medium.closed, .room 0, .room 16], ∀ o ∈
      (run M Sample.params Sample.empty (buildEvents 2 Sample.index)).2, o.toOption = some ()) ∧
    sampleAfter J (.room 32) 5 = .ok [11] ∧ sampleAfter J .closed 5 = .ok [] ∧
    sampleAfter J (.room 0) 5 = .ok [] ∧ sampleAfter J (.room 16) 5 = .ok [] := by
  refine ⟨?_, ?_, ?_, ?_, ?_⟩
  · decide +kernel
  · rw [sampleAfter_eq J _ _ (sample_load J 32)]
    simp [Spec.whole, Spec.stray, Spec.size]
  · rw [sampleAfter_eq J .closed Map.empty rfl]
    rfl
  · rw [sampleAfter_eq J _ _ (sample_load J 0)]
    simp [Spec.whole, Spec.stray, Spec.size, Map.empty]
  · rw [sampleAfter_eq J _ _ (sample_load J 16)]
    have h2 : (Spec.cut J 0 (Sample.K 5, [11]) 16).2 = [] := by
      simp [Spec.cut]
    have h1 := cut_key_whole J 0 (Sample.K 5, [11]) 16 (by omega)
    have e1 : Spec.whole [(Sample.K 5, [(11 : Index)])] 16 = [] := rfl
    have e2 : Spec.stray J 0 [(Sample.K 5, [(11 : Index)])] 16 = [Spec.cut J 0 (Sample.K 5, [11]) 16] := by
      rw [Spec.stray, if_pos (by decide), if_neg (by decide)]
    rw [e1, e2, List.nil_append, List.foldl_cons, List.foldl_nil, h2, ← h1, Map.put_self]
    rfl

/-- **C76 violated**: with a disk that is full after 24 bytes, the construction reports no error, and a search of
keyword 5 may return any document: it is read from memory that was not initialised. -/
theorem C76_memory_violated (i : Index) :
    (∀ o ∈ (run (.room 24) Sample.params Sample.empty (buildEvents 2 Sample.index)).2, o.toOption = some ()) ∧
    ∃ J, sampleAfter J (.room 24) 5 = .ok [i] := by
  refine ⟨by decide +kernel, ?_⟩
  obtain ⟨J, m, h1, h2⟩ := C76_any_documents [] (Sample.K 5, [11]) (by simp) (by simp) [i] rfl
  refine ⟨J, ?_⟩
  rw [sampleAfter_eq J (.room 24) m h1]
  simp only at h2
  rw [h2]
  rfl

/-! ## Examples -/

/-- Three records, of which the first two are complete in the first 100 bytes -/
def sampleRecords : List (CoreKey × List Index) :=
  [(Sample.K 1, [1, 2]), (Sample.K 2, [3]), (Sample.K 3, [4, 5])]

/-- The hypotheses of `C76_load`, `C76_records` and `C76_kept` -/
example : Spec.Sound sampleRecords ∧ Spec.whole sampleRecords 100 = sampleRecords.take 2 ∧
    (Spec.stray (fun _ _ => 7) 0 sampleRecords 100) = [(Sample.K 3, [0x0707070700000004, 0x0707070707070707])] := by
  refine ⟨⟨by decide, by decide⟩, by decide +kernel, by decide +kernel⟩

example : Spec.Untouched (fun _ _ => 7) [(Sample.K 5, [11])] 24 (Spec.keys Sample.params sampleDisk.counters 1) ∧
    sampleDisk.stash = some (Spec.file [(Sample.K 5, [11])]) := by
  refine ⟨?_, by decide +kernel⟩
  unfold Spec.Untouched
  decide +kernel

/-- The hypotheses of `C76_any_documents` and `C76_erased` -/
example : (∀ y ∈ sampleRecords, y.2.length < 2 ^ 60) ∧
    ((Sample.K 1).toList.drop 8).take 1 = ((Sample.K 3).toList.drop 8).take 1 ∧
    (Vector.replicate 16 0 : CoreKey).toList.take 3 =
      ((Vector.replicate 16 0 : CoreKey).set 15 1).toList.take 3 := by decide

/-- The hypotheses of `C76_streams` hold for a complete file, and reading a file with a large number of values ends
with an exception. -/
example : (loadStash (some (Spec.file sampleRecords))).toOption.isSome = true := by decide +kernel

example (J : Memory) : load J (some (Spec.file sampleRecords ++ (List.replicate 24 255 ++ [1, 2]))) = .error .lengthError := by
  have h : (List.replicate 24 255 : List UInt8) = (Vector.replicate 16 255 : CoreKey).toList ++ leBytes 8 (2 ^ 64 - 1) := by
    decide +kernel
  rw [h]
  exact C76_large J _ (by decide) _ _ (by decide) (by decide) _

end Verif.Tethys.Stream
