import Verif.Oceanus.Files
import Verif.Oceanus.Build
import Verif.Vec.Props

/-!
# Lemmas on the files of an Oceanus database
-/

namespace Verif.Oceanus

open Spec

variable {n : Nat}

theorem run_append {sz : Nat} (a b : List (Vec.Op sz)) : ∀ v : Vec.Vec sz,
    v.run (a ++ b) = (v.run a).bind (fun w => w.run b) := by
  induction a with
  | nil => intro v; rfl
  | cons x a ih =>
    intro v
    show (v.step x).bind _ = ((v.step x).bind _).bind _
    cases v.step x with
    | none => rfl
    | some w => exact ih w

theorem pushBack_ok {sz : Nat} {v : Vec.Vec sz} (hc : v.committed = false) (x : Vec.Val sz) :
    v.pushBack x sz = ((v.pushBack x sz).1, .ok v.size) := by
  unfold Vec.Vec.pushBack
  simp [hc]

theorem pushBack_uncommitted {sz : Nat} {v : Vec.Vec sz} (hc : v.committed = false) (x : Vec.Val sz) :
    (v.pushBack x sz).1.committed = false := by
  unfold Vec.Vec.pushBack
  simp [hc]

theorem pushBack_error {sz : Nat} {v : Vec.Vec sz} (hc : v.committed = true) (x : Vec.Val sz) :
    v.pushBack x sz = (v, .error .runtimeError) := by
  unfold Vec.Vec.pushBack
  simp [hc]

theorem open_committed {sz : Nat} {file : List UInt8} (h : file ≠ []) (sched direct : Bool) :
    (Vec.Vec.open sz file sched direct).committed = true := by
  unfold Vec.Vec.open
  rw [if_pos (List.length_pos_iff.mpr h)]

theorem open_file {sz : Nat} (file : List UInt8) (sched direct : Bool) :
    (Vec.Vec.open sz file sched direct).file = file := by
  unfold Vec.Vec.open
  split <;> rfl

theorem open_pending {sz : Nat} (file : List UInt8) (sched direct : Bool) :
    (Vec.Vec.open sz file sched direct).pending = [] := by
  unfold Vec.Vec.open
  split <;> rfl

theorem reserve_committed {sz : Nat} {v : Vec.Vec sz} (hc : v.committed = true) (m : Nat) :
    v.reserve m = v := by
  unfold Vec.Vec.reserve
  simp [hc]

/-- The loop of `commit` on a new table -/
theorem pushCells_ok (data : Vec.Vec (16 + n)) (D : List (Payload n)) (cs : List Cell) :
    ∀ (ps : List (Payload n)) (t : Vec.Vec (16 + n)), t.committed = false →
      (∀ c ∈ cs, c.full = true → ∀ p, D[c.index.toNat]? = some p → data.get c.index.toNat = .ok p) →
      writeTable D cs = .ok ps →
      ∃ t', pushCells data cs t = (t', .ok ()) ∧ t.run (ps.map Vec.Op.push) = some t' := by
  induction cs with
  | nil =>
    intro ps t _ _ h
    cases h
    exact ⟨t, rfl, rfl⟩
  | cons c cs ih =>
    intro ps t ht hD h
    unfold writeTable at h
    split at h
    · cases h
    · rename_i p hp
      split at h
      · cases h
      · rename_i qs hqs
        cases h
        obtain ⟨t', h1, h2⟩ := ih qs (t.pushBack p (16 + n)).1 (pushBack_uncommitted ht p)
          (fun c hc => hD c (List.mem_cons_of_mem _ hc)) hqs
        have hq : (if c.full = false then Except.ok (Vector.replicate (16 + n) 255)
            else data.get c.index.toNat) = (Except.ok p : Except Vec.VError (Payload n)) := by
          cases hf : c.full
          · rw [hf] at hp
            simp only [if_true, Option.some.injEq] at hp
            simp [hp]
          · rw [hf] at hp
            simp only [Bool.true_eq_false, if_false] at hp
            simpa using hD c (by simp) hf p hp
        refine ⟨t', ?_, h2⟩
        unfold pushCells
        rw [hq]
        dsimp only
        rw [pushBack_ok ht p]
        exact h1

/-- The loop of `commit` on a table that exists already -/
theorem pushCells_committed (data : Vec.Vec (16 + n)) (cs : List Cell) (t : Vec.Vec (16 + n))
    (ht : t.committed = true) :
    (pushCells data cs t).1 = t ∧ (cs ≠ [] → ∃ f, (pushCells data cs t).2 = .error f) := by
  cases cs with
  | nil => exact ⟨rfl, fun h => absurd rfl h⟩
  | cons c cs =>
    unfold pushCells
    split
    · exact ⟨rfl, fun _ => ⟨_, rfl⟩⟩
    · rw [pushBack_error ht]
      exact ⟨rfl, fun _ => ⟨_, rfl⟩⟩

/-! ## Refinement of the builder -/

/-- The builder with files is in the same state as the builder with lists. -/
structure Rel (fb : FBuilder n) (b : Builder n) : Prop where
  hash : fb.hash = b.hash
  alloc : fb.alloc = b.alloc
  spilled : fb.spilled = b.spilled
  c1 : fb.committed = false
  c2 : b.committed = false
  c3 : fb.data.committed = false
  holds : Vec.Holds true fb.data b.data

theorem Rel.insert {fb : FBuilder n} {b b' : Builder n} (h : Rel fb b) (d : Disk) (k : Key)
    (v : Vector UInt8 n) (hb : b.insert k v = .ok b') :
    ∃ fb' d', fb.insert d k v = (fb', d', .ok ()) ∧ d'.table = d.table ∧ Rel fb' b' := by
  unfold Builder.insert at hb
  rw [if_neg (by simp [h.c2])] at hb
  dsimp only at hb
  split at hb
  · cases hb
  · rename_i a spill ha
    cases hb
    have hp := pushBack_ok h.c3 (k ++ v)
    refine ⟨{ fb with alloc := a, data := (fb.data.pushBack (k ++ v) (16 + n)).1,
                      spilled := if spill = emptyIndex then fb.spilled else fb.spilled ++ [spill] },
      { d with tmp := (fb.data.pushBack (k ++ v) (16 + n)).1.file }, ?_, rfl, ?_⟩
    · unfold FBuilder.insert
      rw [if_neg (by simp [h.c1]), hp]
      dsimp only
      rw [h.hash, h.alloc, h.holds.size, ha]
    · exact ⟨h.hash, rfl, by simp [h.spilled], h.c1, h.c2, pushBack_uncommitted h.c3 _,
        h.holds.push h.c3 _⟩

theorem rel_open (hash : Key → CKey) (size depth max : Nat) (d : Disk) (hd : d.tmp = []) :
    Rel (FBuilder.open n hash size depth max d).1 (Builder.new n size depth hash) := by
  have h0 : Vec.Holds true (Vec.Vec.open (16 + n) [] true false) [] := Vec.holds_open true true false
  refine ⟨rfl, rfl, rfl, rfl, rfl, ?_, ?_⟩
  · show ((Vec.Vec.open (16 + n) d.tmp true false).reserve max).committed = false
    rw [hd, (Vec.reserve_flags _ _).1]
    rfl
  · show Vec.Holds true ((Vec.Vec.open (16 + n) d.tmp true false).reserve max) []
    rw [hd]
    exact h0.reserve max

/-- Insertions as events -/
def insertEvents (xs : List (Key × Vector UInt8 n)) : List (Ev n) := xs.map (fun x => .insert x.1 x.2)

theorem sysRun_append (hash : Key → CKey) (a b : List (Ev n)) : ∀ s : Sys n,
    Sys.run hash s (a ++ b) =
      ((Sys.run hash (Sys.run hash s a).1 b).1, (Sys.run hash s a).2 ++ (Sys.run hash (Sys.run hash s a).1 b).2) := by
  induction a with
  | nil => intro s; rfl
  | cons e a ih =>
    intro s
    rw [List.cons_append, Sys.run, Sys.run, ih]
    rfl

theorem Rel.insertAll (hash : Key → CKey) (xs : List (Key × Vector UInt8 n)) :
    ∀ {fb : FBuilder n} {b b' : Builder n} (d : Disk), Rel fb b → b.insertAll xs = .ok b' →
      ∃ fb' d', (Sys.run hash ⟨d, some fb⟩ (insertEvents xs)).1 = ⟨d', some fb'⟩ ∧
        (∀ o ∈ (Sys.run hash ⟨d, some fb⟩ (insertEvents xs)).2, o = .ok ()) ∧
        d'.table = d.table ∧ Rel fb' b' := by
  induction xs with
  | nil =>
    intro fb b b' d h hb
    cases hb
    exact ⟨fb, d, rfl, (by intro o ho; cases ho), rfl, h⟩
  | cons x xs ih =>
    intro fb b b' d h hb
    unfold Builder.insertAll at hb
    split at hb
    · cases hb
    · rename_i b1 h1
      obtain ⟨fb1, d1, e1, e2, e3⟩ := h.insert d x.1 x.2 h1
      obtain ⟨fb2, d2, f1, f2, f3, f4⟩ := ih d1 e3 hb
      have hs : Sys.step hash (⟨d, some fb⟩ : Sys n) (.insert x.1 x.2) = (⟨d1, some fb1⟩, .ok ()) := by
        show (Sys.mk (fb.insert d x.1 x.2).2.1 (some (fb.insert d x.1 x.2).1),
          (fb.insert d x.1 x.2).2.2) = _
        rw [e1]
      refine ⟨fb2, d2, ?_, ?_, by rw [f3, e2], f4⟩
      · rw [insertEvents, List.map_cons, Sys.run, hs]
        exact f1
      · rw [insertEvents, List.map_cons, Sys.run, hs]
        intro o ho
        rcases List.mem_cons.mp ho with ho | ho
        · exact ho
        · exact f2 o ho

/-! ## Commit -/

/-- What `commit` leaves when the table is new, and how it is read afterwards -/
theorem commit_spec {fb : FBuilder n} {b : Builder n} {d : Disk} {file : List (Payload n)} {hash : Key → CKey}
    (ha : fb.alloc = b.alloc) (hc : fb.committed = false) (ht : d.table = [])
    (hw : writeTable b.data (b.alloc.t0 ++ b.alloc.t1) = .ok file)
    (hlen : file.length = 2 * b.alloc.size) (hs : 0 < b.alloc.size)
    (hD : ∀ c ∈ b.alloc.t0 ++ b.alloc.t1, c.full = true → ∀ p, b.data[c.index.toNat]? = some p →
      fb.data.commit.get c.index.toNat = .ok p) :
    ∃ fb' tab, fb.commit d = (fb', ⟨[], tab⟩, .ok ()) ∧
      ∃ t, FTable.open n hash tab = .ok t ∧ ∀ k, t.get k = (⟨hash, file, b.alloc.size⟩ : Table n).get k := by
  have hu : (fb.tableFile d).committed = false := by
    unfold FBuilder.tableFile
    rw [ht, (Vec.reserve_flags _ _).1]
    rfl
  obtain ⟨t', h1, h2⟩ := pushCells_ok fb.data.commit b.data (b.alloc.t0 ++ b.alloc.t1) file
    (fb.tableFile d) hu hD hw
  obtain ⟨v, hv, hsize, hget⟩ := Vec.C34_table (sz := 16 + n) file true false true false (by omega)
  have hv' : v = t'.commit := by
    have : (Vec.Vec.open (16 + n) [] true false).run
        (.reserve file.length :: file.map .push ++ [.commit]) = some t'.commit := by
      show ((Vec.Vec.open (16 + n) [] true false).reserve file.length).run (file.map .push ++ [.commit]) = _
      have e : (Vec.Vec.open (16 + n) [] true false).reserve file.length = fb.tableFile d := by
        unfold FBuilder.tableFile
        rw [ht, hlen, ha]
      rw [e, run_append, h2]
      rfl
    rw [this] at hv
    exact (Option.some.inj hv).symm
  rw [hv'] at hsize hget
  refine ⟨{ fb with committed := true, data := fb.data.commit }, t'.commit.destroy, ?_, ?_⟩
  · unfold FBuilder.commit
    rw [if_neg (by simp [hc])]
    dsimp only
    rw [ha, h1]
  · have hne : t'.commit.destroy ≠ [] := by
      intro h0
      rw [h0] at hsize
      have : (Vec.Vec.open (16 + n) [] true false).size = 0 := rfl
      omega
    refine ⟨⟨hash, Vec.Vec.open (16 + n) t'.commit.destroy true false, b.alloc.size⟩, ?_, ?_⟩
    · unfold FTable.open
      rw [if_neg (by simp [open_committed hne]), hsize, if_neg (by omega),
        show file.length / 2 = b.alloc.size by omega]
    · intro k
      unfold FTable.get Table.get
      dsimp only
      rw [if_neg (by omega), if_neg (by omega)]
      have l0 : (hash k).h0.toNat % b.alloc.size < b.alloc.size := Nat.mod_lt _ hs
      have l1 : (hash k).h1.toNat % b.alloc.size < b.alloc.size := Nat.mod_lt _ hs
      obtain ⟨p0, e0⟩ : ∃ p, file[(hash k).h0.toNat % b.alloc.size]? = some p :=
        ⟨_, List.getElem?_eq_getElem (by omega)⟩
      obtain ⟨p1, e1⟩ : ∃ p, file[(hash k).h1.toNat % b.alloc.size + b.alloc.size]? = some p :=
        ⟨_, List.getElem?_eq_getElem (by omega)⟩
      rw [hget _ _ e0, e0, hget _ _ e1, e1]

/-- The same when a table exists already -/
theorem commit_existing {fb : FBuilder n} {d : Disk} (ht : d.table ≠ []) :
    (fb.commit d).2.1.table = d.table ∧
      (fb.committed = false → fb.alloc.t0 ++ fb.alloc.t1 ≠ [] → ∃ f, (fb.commit d).2.2 = .error f) := by
  have htf : fb.tableFile d = Vec.Vec.open (16 + n) d.table true false := by
    unfold FBuilder.tableFile
    rw [reserve_committed (open_committed ht _ _)]
  have hcm : (fb.tableFile d).committed = true := by rw [htf]; exact open_committed ht _ _
  have hde : (fb.tableFile d).destroy = d.table := by
    unfold Vec.Vec.destroy
    rw [if_pos hcm, htf]
    split
    · unfold Vec.Vec.wait
      rw [open_pending, open_file]
      rfl
    · rw [open_file]
  have hdc : (fb.tableFile d).commit.destroy = d.table := by
    have : (fb.tableFile d).commit = fb.tableFile d := by
      unfold Vec.Vec.commit
      rw [if_pos hcm]
    rw [this, hde]
  unfold FBuilder.commit
  by_cases hc : fb.committed = true
  · rw [if_pos hc]
    exact ⟨rfl, fun h => by rw [h] at hc; cases hc⟩
  · rw [if_neg hc]
    dsimp only
    obtain ⟨g1, g2⟩ := pushCells_committed fb.data.commit (fb.alloc.t0 ++ fb.alloc.t1) (fb.tableFile d) hcm
    rcases hp : pushCells fb.data.commit (fb.alloc.t0 ++ fb.alloc.t1) (fb.tableFile d) with ⟨t, r⟩
    rw [hp] at g1 g2
    dsimp only at g1 g2
    subst g1
    cases r with
    | error f => exact ⟨hde, fun _ _ => ⟨f, rfl⟩⟩
    | ok u =>
      refine ⟨hdc, fun _ h => ?_⟩
      obtain ⟨f, hf⟩ := g2 h
      cases hf

theorem stop_existing {fb : FBuilder n} {d : Disk} (ht : d.table ≠ []) (k : Nat) :
    (fb.stop d k).table = d.table := by
  have htf : fb.tableFile d = Vec.Vec.open (16 + n) d.table true false := by
    unfold FBuilder.tableFile
    rw [reserve_committed (open_committed ht _ _)]
  have hcm : (fb.tableFile d).committed = true := by rw [htf]; exact open_committed ht _ _
  unfold FBuilder.stop
  split
  · rfl
  · dsimp only
    rw [(pushCells_committed _ _ _ hcm).1, htf, open_file]

theorem insert_table (fb : FBuilder n) (d : Disk) (k : Key) (v : Vector UInt8 n) :
    (fb.insert d k v).2.1.table = d.table := by
  unfold FBuilder.insert
  split
  · rfl
  · split
    · rfl
    · split <;> rfl

/-- Insertions with a data file that was not empty -/
theorem insert_stale {fb : FBuilder n} (h : fb.data.committed = true) (d : Disk) (k : Key)
    (v : Vector UInt8 n) :
    (fb.insert d k v).2.2 = .error .runtimeError ∧ (fb.insert d k v).1 = fb := by
  unfold FBuilder.insert
  split
  · exact ⟨rfl, rfl⟩
  · rw [pushBack_error h]
    exact ⟨rfl, rfl⟩

/-- Every event keeps an existing table. -/
theorem step_table (hash : Key → CKey) (s : Sys n) (e : Ev n) (ht : s.disk.table ≠ []) :
    (s.step hash e).1.disk.table = s.disk.table := by
  obtain ⟨d, ob⟩ := s
  cases e with
  | new size depth max => rfl
  | kill => rfl
  | insert k v =>
    cases ob with
    | none => rfl
    | some b => exact insert_table b d k v
  | commit =>
    cases ob with
    | none => rfl
    | some b => exact (commit_existing ht).1
  | destroy =>
    cases ob with
    | none => rfl
    | some b => exact (commit_existing ht).1
  | killCommit k =>
    cases ob with
    | none => rfl
    | some b => exact stop_existing ht k

end Verif.Oceanus
