import Verif.Oceanus.Moved
import Verif.Oceanus.FilesProps

/-!
# C69: a builder that is moved goes on as before

A builder of a cuckoo table (and of Pluto, which contains one) that is moved behaves as if it had not been
moved, and the destruction of the old object has no effect.

This is violated: the destruction of the old object ends the process (`C69_drop_violated`), values inserted
before the move make `commit` fail (`C69_commit_violated`), and values inserted after are exchanged
(`C69_insert_violated`). It holds for the new object if it is moved before the first insertion or after `commit`
(`C69_partial`).
-/

namespace Verif.Oceanus.Moved

open Verif.Oceanus

variable {n : Nat}

/-! ## What is asked for -/

/-- The events without the moves -/
def unmoved : List (MEv n) → List (Ev n)
  | [] => []
  | .use e :: es => e :: unmoved es
  | .move :: es => unmoved es
  | .drop :: es => unmoved es

/-- The outcomes of the events that are no moves -/
def outcomes : List (MEv n) → List (Except Fault Unit) → List (Except Fault Unit)
  | .use _ :: es, o :: os => o :: outcomes es os
  | .move :: es, _ :: os => outcomes es os
  | .drop :: es, _ :: os => outcomes es os
  | _, _ => []

/-- Insertions, commits and moves of one builder, where the moves come before the first insertion or after the
first `commit`: `inserted` and `committed` tell what has happened before. -/
def good : Bool → Bool → List (MEv n) → Bool
  | _, _, [] => true
  | i, c, .move :: es => (!i || c) && good i c es
  | i, c, .use e :: es => match e with
    | .insert _ _ => good true c es
    | .commit => good i true es
    | .destroy => es.isEmpty
    | _ => false
  | _, _, .drop :: _ => false

/-! ## Lemmas -/

theorem moveTo_unused {b : FBuilder n} (h1 : b.data.size = 0) (h2 : b.data.committed = false) :
    moveTo b = b := by
  obtain ⟨hash, alloc, ⟨file, off, size, com, dir, sch, pen⟩, sp, c⟩ := b
  simp only at h1 h2
  subst h1 h2
  rfl

theorem commit_flags (b : FBuilder n) (d : Disk) : (b.commit d).1.committed = true := by
  unfold FBuilder.commit
  split
  · assumption
  · dsimp only
    split <;> rfl

/-- The builder and the one that was not moved -/
def Rel (i c : Bool) (b b' : FBuilder n) : Prop :=
  if c then b.committed = true ∧ b'.committed = true
  else b = b' ∧ b.committed = false ∧ (i = false → b.data.size = 0 ∧ b.data.committed = false)

theorem insert_uncommitted (b : FBuilder n) (d : Disk) (k : Key) (v : Vector UInt8 n) :
    (b.insert d k v).1.committed = b.committed := by
  unfold FBuilder.insert
  split
  · rfl
  · split
    · rfl
    · split <;> rfl

theorem run_sim (hash : Key → CKey) (es : List (MEv n)) : ∀ (i c : Bool) (d : Disk) (b b' : FBuilder n)
    (hs : List Husk), good i c es = true → Rel i c b b' →
    (MSys.run hash ⟨d, some b, hs⟩ es).1.disk = (Sys.run hash ⟨d, some b'⟩ (unmoved es)).1.disk ∧
    outcomes es (MSys.run hash ⟨d, some b, hs⟩ es).2 = (Sys.run hash ⟨d, some b'⟩ (unmoved es)).2 := by
  induction es with
  | nil => intro i c d b b' hs _ _; exact ⟨rfl, rfl⟩
  | cons e es ih =>
    intro i c d b b' hs hg hr
    cases e with
    | drop => simp [good] at hg
    | move =>
      simp only [good, Bool.and_eq_true, Bool.or_eq_true, Bool.not_eq_true'] at hg
      have hr' : Rel i c (moveTo b) b' := by
        unfold Rel at hr ⊢
        cases c with
        | true => exact ⟨hr.1, hr.2⟩
        | false =>
          obtain ⟨h1, h2, h3⟩ := hr
          have hi : i = false := by simpa using hg.1
          obtain ⟨h4, h5⟩ := h3 hi
          rw [if_neg (by simp)]
          exact ⟨(moveTo_unused h4 h5).trans h1, h2, fun _ => ⟨rfl, rfl⟩⟩
      have := ih i c d (moveTo b) b' (hs ++ [moveFrom b]) hg.2 hr'
      simpa only [MSys.run, MSys.step, unmoved, outcomes] using this
    | use e =>
      cases e with
      | insert k v =>
        have hg : good true c es = true := hg
        cases c with
        | true =>
          have h1 : b.committed = true := hr.1
          have h2 : b'.committed = true := hr.2
          have e1 : b.insert d k v = (b, d, .error .runtimeError) := by rw [FBuilder.insert, if_pos h1]
          have e2 : b'.insert d k v = (b', d, .error .runtimeError) := by rw [FBuilder.insert, if_pos h2]
          have := ih true true d b b' hs hg ⟨h1, h2⟩
          simp only [MSys.run, MSys.step, Sys.step, unmoved, outcomes, Sys.run, e1, e2, ends]
          exact ⟨this.1, congrArg _ this.2⟩
        | false =>
          obtain ⟨rfl, h2, h3⟩ := hr
          have := ih true false (b.insert d k v).2.1 (b.insert d k v).1 (b.insert d k v).1 hs hg
            ⟨rfl, by rw [insert_uncommitted]; exact h2, fun h => by cases h⟩
          simp only [MSys.run, MSys.step, Sys.step, unmoved, outcomes, Sys.run, ends]
          exact ⟨this.1, congrArg _ this.2⟩
      | commit =>
        have hg : good i true es = true := hg
        cases c with
        | true =>
          have h1 : b.committed = true := hr.1
          have h2 : b'.committed = true := hr.2
          have e1 : b.commit d = (b, d, .ok ()) := by rw [FBuilder.commit, if_pos h1]
          have e2 : b'.commit d = (b', d, .ok ()) := by rw [FBuilder.commit, if_pos h2]
          have := ih i true d b b' hs hg ⟨h1, h2⟩
          simp only [MSys.run, MSys.step, Sys.step, unmoved, outcomes, Sys.run, e1, e2, ends]
          exact ⟨this.1, congrArg _ this.2⟩
        | false =>
          obtain ⟨rfl, h2, h3⟩ := hr
          have := ih i true (b.commit d).2.1 (b.commit d).1 (b.commit d).1 hs hg
            ⟨commit_flags b d, commit_flags b d⟩
          simp only [MSys.run, MSys.step, Sys.step, unmoved, outcomes, Sys.run, ends]
          exact ⟨this.1, congrArg _ this.2⟩
      | destroy =>
        have hg : es.isEmpty = true := hg
        obtain rfl : es = [] := by simpa using hg
        cases c with
        | true =>
          have h1 : b.committed = true := hr.1
          have h2 : b'.committed = true := hr.2
          have e1 : b.commit d = (b, d, .ok ()) := by rw [FBuilder.commit, if_pos h1]
          have e2 : b'.commit d = (b', d, .ok ()) := by rw [FBuilder.commit, if_pos h2]
          simp only [MSys.run, MSys.step, Sys.step, unmoved, outcomes, Sys.run, e1, e2,
            and_self]
        | false =>
          obtain ⟨rfl, h2, h3⟩ := hr
          exact ⟨rfl, rfl⟩
      | new _ _ _ => simp [good] at hg
      | kill => simp [good] at hg
      | killCommit _ => simp [good] at hg

/-! ## The property -/

/-- **C69**, part: a builder of a new database that is moved only before the first insertion or after `commit`
goes on as before. Each of its operations has the same outcome, and the files are the same in the end, as without
the moves. -/
theorem C69_partial (hash : Key → CKey) (size depth max : Nat) (d : Disk) (hd : d.tmp = [])
    (es : List (MEv n)) (hes : good false false es = true) :
    let es' := MEv.use (.new size depth max) :: es
    (MSys.run hash ⟨d, none, []⟩ es').1.disk = (Sys.run hash ⟨d, none⟩ (unmoved es')).1.disk ∧
      outcomes es' (MSys.run hash ⟨d, none, []⟩ es').2 = (Sys.run hash ⟨d, none⟩ (unmoved es')).2 := by
  have hfl := Vec.reserve_flags (Vec.Vec.open (16 + n) d.tmp true false) max
  have := run_sim hash es false false (FBuilder.open n hash size depth max d).2
    (FBuilder.open n hash size depth max d).1 (FBuilder.open n hash size depth max d).1 [] hes
    ⟨rfl, rfl, fun _ => by
      unfold FBuilder.open
      dsimp only
      rw [hd]
      unfold Vec.Vec.reserve Vec.Vec.open
      simp only [List.length_nil, Nat.lt_irrefl, if_false]
      split <;> exact ⟨rfl, rfl⟩⟩
  intro es'
  exact ⟨this.1, congrArg _ this.2⟩

/-- **C69** is violated by every builder that is not committed: the destruction of the object it was moved from
ends the process, and the table is not written. -/
theorem C69_drop_violated (hash : Key → CKey) (d : Disk) (b : FBuilder n) (hb : b.committed = false) :
    MSys.run hash ⟨d, some b, []⟩ [.move, .drop] = (⟨d, none, []⟩, [.ok (), .error .runtimeError]) := by
  simp [MSys.run, MSys.step, moveFrom, Husk.destroy, hb]

/-- **C69 (part that holds)**: the destruction of an object that was moved from after `commit` has no effect on the
files, on the builder, or on the other objects. -/
theorem C69_drop_partial (hash : Key → CKey) (d : Disk) (b : FBuilder n) (hb : b.committed = true) (hs : List Husk) :
    MSys.run hash ⟨d, some b, []⟩ [.move, .drop] = (⟨d, some (moveTo b), []⟩, [.ok (), .ok ()]) ∧
      ∀ o : Option (FBuilder n), MSys.run hash ⟨d, o, moveFrom b :: hs⟩ [.drop] = (⟨d, o, hs⟩, [.ok ()]) := by
  simp [MSys.run, MSys.step, moveFrom, Husk.destroy, hb]

/-- When a destructor throws, of the builder or of an object that was moved from, the process is over: no object is
left, and nothing is destroyed later. -/
theorem C69_ended (hash : Key → CKey) (s : MSys n) (e : MEv n) (he : e = .drop ∨ e = .use .destroy) (f : Fault)
    (h : (s.step hash e).2 = .error f) : (s.step hash e).1.builder = none ∧ (s.step hash e).1.husks = [] := by
  obtain ⟨d, o, hs⟩ := s
  rcases he with rfl | rfl
  · cases hs with
    | nil => cases h
    | cons x xs =>
      simp only [MSys.step] at h ⊢
      cases hx : x.destroy with
      | ok u => simp only [hx] at h; cases h
      | error g => exact ⟨rfl, rfl⟩
  · cases o with
    | none => cases h
    | some b =>
      simp only [MSys.step, Sys.step] at h ⊢
      refine ⟨trivial, if_pos ?_⟩
      rw [h]
      rfl

theorem pushCells_moved (data : Vec.Vec (16 + n)) (hs : data.size = 0) (cells : List Cell)
    (h : ∃ c ∈ cells, c.full = true ∧ c.index ≠ 0) : ∀ t : Vec.Vec (16 + n),
    ∃ f, (pushCells data cells t).2 = .error f := by
  induction cells with
  | nil => obtain ⟨c, hc, -⟩ := h; cases hc
  | cons x xs ih =>
    intro t
    unfold pushCells
    split
    · exact ⟨_, rfl⟩
    · rename_i p hp
      split
      · exact ⟨_, rfl⟩
      · obtain ⟨c, hc, h1, h2⟩ := h
        rcases List.mem_cons.mp hc with rfl | hc
        · exfalso
          rw [if_neg (by simp [h1])] at hp
          have h3 : c.index.toNat > data.size := by
            rw [hs]
            apply Nat.pos_of_ne_zero
            intro h0
            exact h2 (UInt64.toNat_inj.mp h0)
          rw [Vec.Vec.get, if_pos h3] at hp
          cases hp
        · exact ih ⟨c, hc, h1, h2⟩ _

/-- **C69** is violated: a builder that has placed another value than its first one cannot be committed once it is
moved. -/
theorem C69_commit_violated (d : Disk) (b : FBuilder n) (hb : b.committed = false)
    (h : ∃ c ∈ b.alloc.t0 ++ b.alloc.t1, c.full = true ∧ c.index ≠ 0) :
    ∃ f, ((moveTo b).commit d).2.2 = .error f := by
  have hc : ((moveTo b).data.commit).size = 0 := by
    have : ∀ v : Vec.Vec (16 + n), v.commit.size = v.size := by
      intro v
      unfold Vec.Vec.commit
      split
      · rfl
      · by_cases hsch : v.sched = true
        · rw [if_pos hsch]; rfl
        · rw [if_neg hsch]
    rw [this]
    rfl
  obtain ⟨f, hf⟩ := pushCells_moved (moveTo b).data.commit hc (b.alloc.t0 ++ b.alloc.t1) h
    ((moveTo b).tableFile d)
  refine ⟨f, ?_⟩
  unfold FBuilder.commit
  rw [if_neg (by simp [moveTo, hb])]
  dsimp only
  have hf : (pushCells (moveTo b).data.commit ((moveTo b).alloc.t0 ++ (moveTo b).alloc.t1)
    ((moveTo b).tableFile d)).2 = .error f := hf
  generalize hp : pushCells (moveTo b).data.commit ((moveTo b).alloc.t0 ++ (moveTo b).alloc.t1)
    ((moveTo b).tableFile d) = r at hf ⊢
  obtain ⟨t, r⟩ := r
  simp only at hf
  subst hf
  rfl

namespace Sample

open Verif.Oceanus.Sample

/-- An insertion of a block of one index -/
def ins (k : Key) (v : Index) : MEv 8 := .use (.insert k (ocSerialize #v[v]))

/-- What is found in the end, and the outcomes -/
def result (es : List (MEv 8)) (k : Key) : Option (Vector Index 1) × List (Option Unit) :=
  let r := MSys.run oceanusHash ⟨⟨[], []⟩, none, []⟩ es
  ((ocGet r.1.disk.table k : Except Fault (Vector Index 1)).toOption, r.2.map Except.toOption)

/-- A move between two insertions -/
def between : List (MEv 8) :=
  [.use (.new 3 5 4), ins (key 0 0) 7, .move, ins (key 1 2) 9, .use .commit]

end Sample

/-- **C69** is violated: a value inserted after the move is not in the table, and no operation reports an
error. Without the move it is found. -/
theorem C69_insert_violated :
    Sample.result Sample.between (Verif.Oceanus.Sample.key 1 2) =
      (none, [some (), some (), some (), some (), some ()]) ∧
    Sample.result (Sample.between.eraseIdx 2) (Verif.Oceanus.Sample.key 1 2) =
      (some #v[9], [some (), some (), some (), some ()]) := by
  decide +kernel

/-- Moves before the first insertion and after `commit`, as in `C69_partial`: everything is found. -/
example :
    good false false [.move, Sample.ins (Verif.Oceanus.Sample.key 0 0) 7,
      Sample.ins (Verif.Oceanus.Sample.key 1 2) 9, .use .commit, .move, .use .destroy] = true ∧
    Sample.result [.use (.new 3 5 4), .move, Sample.ins (Verif.Oceanus.Sample.key 0 0) 7,
      Sample.ins (Verif.Oceanus.Sample.key 1 2) 9, .use .commit, .move, .use .destroy]
      (Verif.Oceanus.Sample.key 1 2) = (some #v[9], List.replicate 7 (some ())) := by
  decide +kernel

/-- A builder that is committed, moved, and whose old object is destroyed; and one whose destructor throws, since it
was moved between two insertions. -/
example :
    (MSys.run oceanusHash (⟨⟨[], []⟩, none, []⟩ : MSys 8) [.use (.new 3 5 4),
      Sample.ins (Verif.Oceanus.Sample.key 0 0) 7, .use .commit, .move, .drop]).2.map (·.toOption) =
        List.replicate 5 (some ()) ∧
    (MSys.run oceanusHash (⟨⟨[], []⟩, none, []⟩ : MSys 8) [.use (.new 3 5 4),
      Sample.ins (Verif.Oceanus.Sample.key 0 0) 7, Sample.ins (Verif.Oceanus.Sample.key 1 2) 9, .move,
      .use .destroy]).2.map (·.toOption) = [some (), some (), some (), some (), none] := by
  decide +kernel

/-- A builder with two values, as in `C69_commit_violated` and `C69_drop_violated`. -/
example : (match (MSys.run oceanusHash (⟨⟨[], []⟩, none, []⟩ : MSys 8) [.use (.new 3 5 4),
      Sample.ins (Verif.Oceanus.Sample.key 0 0) 7, Sample.ins (Verif.Oceanus.Sample.key 1 2) 9]).1.builder with
    | none => false
    | some b => !b.committed && (b.alloc.t0 ++ b.alloc.t1).any (fun c => c.full && c.index != 0)) = true := by
  decide +kernel

end Verif.Oceanus.Moved
