import Verif.Oceanus.Spec

/-!
# Lemmas on the cuckoo table
-/

namespace Verif.Oceanus

open Spec

/-! ## The allocator -/

/-- The tables have the right size, and the entries are at their positions. -/
structure Alloc.WF (a : Alloc) : Prop where
  l0 : a.t0.length = a.size
  l1 : a.t1.length = a.size
  placed : Placed a

theorem Alloc.WF.length {a : Alloc} (h : a.WF) (t : Bool) : (a.table t).length = a.size := by
  cases t
  · exact h.l0
  · exact h.l1

/-- The value carried by the loop, if it is not a placeholder -/
def carried (v : Cell) : List Cell := [v].filter Cell.full

theorem count_filter_set {l : List Cell} {i : Nat} {old : Cell} (v : Cell) (hi : l[i]? = some old)
    (c : Cell) : ((l.set i v).filter Cell.full).count c + (carried old).count c =
      (l.filter Cell.full).count c + (carried v).count c := by
  induction l generalizing i with
  | nil => simp at hi
  | cons a l ih =>
    cases i with
    | zero =>
      simp at hi; subst hi
      simp only [List.set_cons_zero, carried, List.filter_cons, List.filter_nil]
      cases v.full <;> cases a.full <;> simp [List.count_cons] <;> omega
    | succ i =>
      simp at hi
      have := ih hi
      simp only [List.set_cons_succ, List.filter_cons]
      cases a.full <;> simp [List.count_cons] <;> omega

theorem count_entries_put {a : Alloc} {t : Bool} {loc : Nat} {old : Cell} (v : Cell)
    (hi : (a.table t)[loc]? = some old) (c : Cell) :
    (entries (a.put t loc v)).count c + (carried old).count c =
      (entries a).count c + (carried v).count c := by
  cases t
  · have := count_filter_set v (show a.t0[loc]? = some old from hi) c
    simp only [entries, Alloc.put, List.filter_append, List.count_append, Bool.false_eq_true, if_false]
    omega
  · have := count_filter_set v (show a.t1[loc]? = some old from hi) c
    simp only [entries, Alloc.put, List.filter_append, List.count_append, if_true]
    omega

theorem placed_set {l : List Cell} {size loc : Nat} {v : Cell} {f : Cell → Nat}
    (h : ∀ (i : Nat) c, l[i]? = some c → c.full = true → f c % size = i) (hv : f v % size = loc) :
    ∀ (i : Nat) c, (l.set loc v)[i]? = some c → c.full = true → f c % size = i := by
  intro i c hc hf
  rw [List.getElem?_set] at hc
  split at hc
  · rename_i he
    split at hc
    · cases hc; rw [hv, he]
    · cases hc
  · exact h i c hc hf

theorem Alloc.WF.put {a : Alloc} (h : a.WF) {t : Bool} {loc : Nat} {v : Cell}
    (hv : (v.key.h t).toNat % a.size = loc) : (a.put t loc v).WF := by
  cases t
  · refine ⟨?_, h.l1, ?_, h.placed.2⟩
    · simpa [Alloc.put] using h.l0
    · exact placed_set (f := fun c => c.key.h0.toNat) h.placed.1 hv
  · refine ⟨h.l0, ?_, h.placed.1, ?_⟩
    · simpa [Alloc.put] using h.l1
    · exact placed_set (f := fun c => c.key.h1.toNat) h.placed.2 hv

theorem put_size (a : Alloc) (t : Bool) (loc : Nat) (v : Cell) :
    (a.put t loc v).size = a.size ∧ (a.put t loc v).depth = a.depth := by
  cases t <;> exact ⟨rfl, rfl⟩

theorem insertLoop_spec (d : Nat) : ∀ (a : Alloc) (v : Cell) (t : Bool), a.WF → 0 < a.size →
    ∃ a' v', a.insertLoop v t d = .ok (a', v') ∧ a'.WF ∧ a'.size = a.size ∧ a'.depth = a.depth ∧
      ∀ c, (entries a').count c + (carried v').count c = (entries a).count c + (carried v).count c := by
  induction d with
  | zero => intro a v t h _; exact ⟨a, v, rfl, h, rfl, rfl, fun _ => rfl⟩
  | succ d ih =>
    intro a v t h hs
    unfold Alloc.insertLoop
    split
    · exact ⟨a, v, rfl, h, rfl, rfl, fun _ => rfl⟩
    · rw [if_neg (by omega)]
      have hlt : (v.key.h t).toNat % a.size < (a.table t).length := by
        rw [h.length]; exact Nat.mod_lt _ hs
      dsimp only
      rw [List.getElem?_eq_getElem hlt]
      dsimp only
      have hp := put_size a t ((v.key.h t).toNat % a.size) v
      obtain ⟨a', v', h1, h2, h3, h4, h5⟩ := ih (a.put t ((v.key.h t).toNat % a.size) v)
        (a.table t)[(v.key.h t).toNat % a.size] (!t) (h.put rfl) (by rw [hp.1]; exact hs)
      refine ⟨a', v', h1, h2, by rw [h3, hp.1], by rw [h4, hp.2], ?_⟩
      intro c
      have e1 := h5 c
      have e2 := count_entries_put v (List.getElem?_eq_getElem hlt) c
      omega

theorem wf_new (size depth : Nat) : (Alloc.new size depth).WF := by
  have hempty : ∀ (i : Nat) c, (List.replicate size Cell.empty)[i]? = some c → c.full = false := by
    intro i c hc
    have := List.mem_of_getElem? hc
    rw [List.mem_replicate] at this
    rw [this.2]; rfl
  refine ⟨by simp [Alloc.new], by simp [Alloc.new], ?_, ?_⟩
  · intro i c hc hf
    rw [hempty i c hc] at hf; cases hf
  · intro i c hc hf
    rw [hempty i c hc] at hf; cases hf

theorem entries_new (size depth : Nat) : entries (Alloc.new size depth) = [] := by
  unfold entries
  rw [List.filter_eq_nil_iff]
  intro c hc
  have : c = Cell.empty := by
    simp only [Alloc.new, List.mem_append, List.mem_replicate] at hc
    rcases hc with hc | hc <;> exact hc.2
  rw [this]
  decide

/-- One insertion: what is stored afterwards, with the spilled entry if any, is what was stored before
with the new entry. -/
theorem insert_spec {a : Alloc} (h : a.WF) (hs : 0 < a.size) (key : CKey) (index : UInt64)
    (hi : index ≠ emptyIndex) :
    ∃ a' r lost, a.insert key index = .ok (a', r) ∧ a'.WF ∧ a'.size = a.size ∧ a'.depth = a.depth ∧
      (entries a' ++ lost).Perm (entries a ++ [⟨key, index⟩]) ∧
      ((r = emptyIndex ∧ lost = []) ∨ ∃ c : Cell, lost = [c] ∧ c.index = r ∧ r ≠ emptyIndex) := by
  obtain ⟨a', v', h1, h2, h3, h4, h5⟩ := insertLoop_spec a.depth a ⟨key, index⟩ false h hs
  refine ⟨a', v'.index, carried v', ?_, h2, h3, h4, ?_, ?_⟩
  · unfold Alloc.insert
    rw [if_neg hi, h1]
  · have hc : carried ⟨key, index⟩ = [⟨key, index⟩] := by simp [carried, Cell.full, hi]
    rw [List.perm_iff_count]
    intro c
    have := h5 c
    rw [hc] at this
    simp only [List.count_append]
    omega
  · by_cases hv : v'.index = emptyIndex
    · left; exact ⟨hv, by simp [carried, Cell.full, hv]⟩
    · right; exact ⟨v', by simp [carried, Cell.full, hv], rfl, hv⟩

/-! The cell of the first table where an entry hashes is not emptied once the entry is inserted. -/

/-- The cell of the first table for `c` is full. -/
def Alloc.Occ (a : Alloc) (c : Cell) : Prop :=
  ∃ c', a.t0[c.key.h0.toNat % a.size]? = some c' ∧ c'.full = true

/-- All the entries have a full cell in the first table. -/
def Alloc.AllOcc (a : Alloc) : Prop := ∀ c ∈ entries a, a.Occ c

theorem insertLoop_occ (d : Nat) : ∀ (a : Alloc) (v : Cell) (t : Bool) a' v', a.WF → 0 < a.size →
    a.AllOcc → (v.full = true → t = true → a.Occ v) → a.insertLoop v t d = .ok (a', v') → a'.AllOcc := by
  induction d with
  | zero => intro a v t a' v' _ _ h _ he; cases he; exact h
  | succ d ih =>
    intro a v t a' v' hw hs h hv he
    unfold Alloc.insertLoop at he
    split at he
    · cases he; exact h
    · rename_i hf
      have hf : v.full = true := by simpa using hf
      rw [if_neg (by omega)] at he
      have hlt : (v.key.h t).toNat % a.size < (a.table t).length := by
        rw [hw.length]; exact Nat.mod_lt _ hs
      dsimp only at he
      rw [List.getElem?_eq_getElem hlt] at he
      dsimp only at he
      have hp := put_size a t ((v.key.h t).toNat % a.size) v
      refine ih _ _ _ a' v' (hw.put rfl) (by rw [hp.1]; exact hs) ?_ ?_ he
      · -- the entries after the write
        intro c hc
        have hc' : c = v ∨ c ∈ entries a := by
          have hc := List.mem_filter.mp hc
          cases t
          · rcases List.mem_append.mp hc.1 with h' | h'
            · rcases List.mem_or_eq_of_mem_set h' with h' | h'
              · exact .inr (List.mem_filter.mpr ⟨List.mem_append_left _ h', hc.2⟩)
              · exact .inl h'
            · exact .inr (List.mem_filter.mpr ⟨List.mem_append_right _ h', hc.2⟩)
          · rcases List.mem_append.mp hc.1 with h' | h'
            · exact .inr (List.mem_filter.mpr ⟨List.mem_append_left _ h', hc.2⟩)
            · rcases List.mem_or_eq_of_mem_set h' with h' | h'
              · exact .inr (List.mem_filter.mpr ⟨List.mem_append_right _ h', hc.2⟩)
              · exact .inl h'
        cases t
        · have hl : v.key.h0.toNat % a.size < a.t0.length := hlt
          show ∃ c', (a.t0.set (v.key.h0.toNat % a.size) v)[c.key.h0.toNat % a.size]? = some c' ∧ _
          rw [List.getElem?_set]
          split
          · exact ⟨v, rfl, hf⟩
          · rename_i hne
            rcases hc' with rfl | hc'
            · exact absurd rfl hne
            · exact h c hc'
        · rcases hc' with rfl | hc'
          · exact hv hf rfl
          · exact h c hc'
      · -- the evicted entry
        intro hfo ht
        cases t
        · have hl : v.key.h0.toNat % a.size < a.t0.length := hlt
          have hpos := hw.placed.1 _ _ (List.getElem?_eq_getElem hl) hfo
          refine ⟨v, ?_, hf⟩
          show (a.t0.set (v.key.h0.toNat % a.size) v)[a.t0[v.key.h0.toNat % a.size].key.h0.toNat % a.size]? = _
          rw [hpos, List.getElem?_set_self hl]
        · cases ht

theorem insert_occ {a a' : Alloc} {key : CKey} {index r : UInt64} (hw : a.WF) (hs : 0 < a.size)
    (h : a.AllOcc) (he : a.insert key index = .ok (a', r)) : a'.AllOcc := by
  unfold Alloc.insert at he
  split at he
  · cases he
  · split at he
    · cases he
    · rename_i hl
      cases he
      exact insertLoop_occ _ _ _ _ _ _ hw hs h (by intro _ h; cases h) hl

/-! ## The builder -/

variable {n : Nat}

/-- The cells of the inserted keys, from index `k` on -/
def cellsFrom (hash : Key → CKey) (k : Nat) : List (Key × Vector UInt8 n) → List Cell
  | [] => []
  | x :: xs => ⟨hash x.1, UInt64.ofNat k⟩ :: cellsFrom hash (k + 1) xs

theorem cellsFrom_append (hash : Key → CKey) (k : Nat) (xs : List (Key × Vector UInt8 n))
    (y : Key × Vector UInt8 n) :
    cellsFrom hash k (xs ++ [y]) = cellsFrom hash k xs ++ [⟨hash y.1, UInt64.ofNat (k + xs.length)⟩] := by
  induction xs generalizing k with
  | nil => rfl
  | cons x xs ih =>
    simp only [List.cons_append, cellsFrom, ih, List.length_cons]
    congr 3
    congr 2
    omega

theorem mem_cellsFrom {hash : Key → CKey} {k : Nat} {xs : List (Key × Vector UInt8 n)} {c : Cell} :
    c ∈ cellsFrom hash k xs ↔
      ∃ (i : Nat) (x : Key × Vector UInt8 n), xs[i]? = some x ∧ c = ⟨hash x.1, UInt64.ofNat (k + i)⟩ := by
  induction xs generalizing k with
  | nil => simp [cellsFrom]
  | cons x xs ih =>
    simp only [cellsFrom, List.mem_cons, ih]
    constructor
    · rintro (rfl | ⟨i, y, hy, rfl⟩)
      · exact ⟨0, x, rfl, rfl⟩
      · exact ⟨i + 1, y, by simpa using hy, by congr 2; omega⟩
    · rintro ⟨i, y, hy, rfl⟩
      cases i with
      | zero => left; simp at hy; subst hy; rfl
      | succ i => right; exact ⟨i, y, by simpa using hy, by congr 2; omega⟩

theorem index_cellsFrom (hash : Key → CKey) (k : Nat) (xs : List (Key × Vector UInt8 n)) :
    (cellsFrom hash k xs).map Cell.index = (List.range' k xs.length).map UInt64.ofNat := by
  induction xs generalizing k with
  | nil => rfl
  | cons x xs ih => simp [cellsFrom, ih, List.range'_succ]

/-- The state of the builder after some insertions -/
structure Built (size depth : Nat) (hash : Key → CKey) (b : Builder n) (ins : List (Key × Vector UInt8 n))
    (lost : List Cell) : Prop where
  hashEq : b.hash = hash
  open' : b.committed = false
  wf : b.alloc.WF
  occ : b.alloc.AllOcc
  size : b.alloc.size = size
  data : b.data = ins.map (fun x => x.1 ++ x.2)
  perm : (entries b.alloc ++ lost).Perm (cellsFrom hash 0 ins)
  spill : b.spilled = lost.map Cell.index

theorem built_new (size depth : Nat) (hash : Key → CKey) :
    Built size depth hash (Builder.new n size depth hash) [] [] where
  hashEq := rfl
  open' := rfl
  wf := wf_new size depth
  occ := by
    show (Alloc.new size depth).AllOcc
    intro c hc; rw [entries_new] at hc; cases hc
  size := rfl
  data := rfl
  perm := by
    show (entries (Alloc.new size depth) ++ []).Perm _
    rw [entries_new]
    exact List.Perm.refl _
  spill := rfl

theorem Built.insert {size depth : Nat} {hash : Key → CKey} {b : Builder n}
    {ins : List (Key × Vector UInt8 n)} {lost : List Cell} (h : Built size depth hash b ins lost)
    (hs : 0 < size) (x : Key × Vector UInt8 n) (hl : ins.length < 2 ^ 64 - 1) :
    ∃ b' lost', b.insert x.1 x.2 = .ok b' ∧ Built size depth hash b' (ins ++ [x]) lost' := by
  have hlen : b.data.length = ins.length := by rw [h.data]; simp
  have hidx : UInt64.ofNat b.data.length ≠ emptyIndex := by
    intro he
    have := congrArg UInt64.toNat he
    rw [UInt64.toNat_ofNat', hlen] at this
    simp [emptyIndex] at this
    omega
  obtain ⟨a', r, l, h1, h2, h3, h4, h5, h6⟩ :=
    insert_spec h.wf (by rw [h.size]; exact hs) (b.hash x.1) (UInt64.ofNat b.data.length) hidx
  refine ⟨⟨b.hash, a', b.data ++ [x.1 ++ x.2],
    if r = emptyIndex then b.spilled else b.spilled ++ [r], b.committed⟩, lost ++ l, ?_, ?_⟩
  · unfold Builder.insert
    rw [if_neg (by simp [h.open']), h1]
  · refine ⟨h.hashEq, h.open', h2, insert_occ h.wf (by rw [h.size]; exact hs) h.occ h1, by rw [h3, h.size], by simp [h.data], ?_, ?_⟩
    · rw [cellsFrom_append, List.perm_iff_count]
      intro c
      have e1 := h5.count_eq c
      have e2 := h.perm.count_eq c
      rw [h.hashEq, hlen] at e1
      simp only [List.count_append, Nat.zero_add] at e1 e2 ⊢
      omega
    · rcases h6 with ⟨rfl, rfl⟩ | ⟨c, rfl, rfl, hc⟩
      · simp [h.spill]
      · simp [h.spill, hc]

theorem Built.insertAll {size depth : Nat} {hash : Key → CKey} (hs : 0 < size)
    (xs : List (Key × Vector UInt8 n)) : ∀ {b : Builder n} {ins : List (Key × Vector UInt8 n)}
    {lost : List Cell}, Built size depth hash b ins lost → ins.length + xs.length < 2 ^ 64 →
    ∃ b' lost', b.insertAll xs = .ok b' ∧ Built size depth hash b' (ins ++ xs) lost' := by
  induction xs with
  | nil => intro b ins lost h _; exact ⟨b, lost, rfl, by simpa using h⟩
  | cons x xs ih =>
    intro b ins lost h hl
    simp only [List.length_cons] at hl
    obtain ⟨b1, l1, e1, h1⟩ := h.insert hs x (by omega)
    obtain ⟨b2, l2, e2, h2⟩ := ih h1 (by simp; omega)
    refine ⟨b2, l2, ?_, by simpa using h2⟩
    unfold Builder.insertAll
    rw [e1]
    exact e2

/-! ## The file -/

/-- The payload of a cell -/
def cellPayload (data : List (Payload n)) (c : Cell) : Option (Payload n) :=
  if c.full = false then some (Vector.replicate (16 + n) 255) else data[c.index.toNat]?

theorem writeTable_spec (data : List (Payload n)) (cs : List Cell)
    (h : ∀ c ∈ cs, c.full = true → c.index.toNat < data.length) :
    ∃ ps, writeTable data cs = .ok ps ∧ ps.length = cs.length ∧
      ∀ (i : Nat) c, cs[i]? = some c → ps[i]? = cellPayload data c := by
  induction cs with
  | nil => exact ⟨[], rfl, rfl, by simp⟩
  | cons c cs ih =>
    obtain ⟨ps, h1, h2, h3⟩ := ih (fun c hc => h c (by simp [hc]))
    have hsome : ∃ p, cellPayload data c = some p := by
      unfold cellPayload
      cases hf : c.full
      · exact ⟨_, rfl⟩
      · have := h c (by simp) hf
        exact ⟨_, by simp only [Bool.true_eq_false, if_false]; exact List.getElem?_eq_getElem this⟩
    obtain ⟨p, hp⟩ := hsome
    refine ⟨p :: ps, ?_, by simp [h2], ?_⟩
    · unfold writeTable
      unfold cellPayload at hp
      rw [hp, h1]
    · intro i c' hc'
      cases i with
      | zero => simp at hc'; subst hc'; simpa using hp.symm
      | succ i => simpa using h3 i c' (by simpa using hc')

theorem matchKey_payload (k k' : Key) (v : Vector UInt8 n) : matchKey (k' ++ v) k = true ↔ k' = k := by
  unfold matchKey
  rw [beq_iff_eq]
  have : (k' ++ v).toList.take 16 = k'.toList := by
    rw [Vector.toList_append, List.take_append_of_le_length (by simp), List.take_of_length_le (by simp)]
  rw [this, Vector.toList_inj]

theorem valueOf_payload (k : Key) (v : Vector UInt8 n) : valueOf (k ++ v) = v := by
  apply Vector.ext
  intro i hi
  simp [valueOf]

theorem matchKey_empty (k : Key) :
    matchKey (Vector.replicate (16 + n) 255 : Payload n) k = true ↔ k = allOnes := by
  unfold matchKey
  rw [beq_iff_eq]
  have : (Vector.replicate (16 + n) (255 : UInt8)).toList.take 16 = allOnes.toList := by
    simp [allOnes]
  rw [this, Vector.toList_inj]
  exact eq_comm

end Verif.Oceanus
