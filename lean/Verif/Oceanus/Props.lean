import Verif.Oceanus.Build

/-!
# Properties of the cuckoo table (C31, C32, C35)
-/

namespace Verif.Oceanus

open Spec

/-! ## C31 -/

/-- **C31.** One insertion in an allocator whose entries are at their positions: all the entries that
were stored and the new one are stored once, at one of their two positions, except the entry whose
index is returned, if any. -/
theorem C31_insert (a : Alloc) (h0 : a.t0.length = a.size) (h1 : a.t1.length = a.size) (hp : Placed a)
    (hs : 0 < a.size) (key : CKey) (index : UInt64) (hi : index ≠ emptyIndex) :
    ∃ a' r lost, a.insert key index = .ok (a', r) ∧ a'.size = a.size ∧ Placed a' ∧
      (entries a' ++ lost).Perm (entries a ++ [⟨key, index⟩]) ∧
      ((r = emptyIndex ∧ lost = []) ∨ ∃ c : Cell, lost = [c] ∧ c.index = r ∧ r ≠ emptyIndex) := by
  obtain ⟨a', r, lost, e1, e2, e3, -, e5, e6⟩ := insert_spec ⟨h0, h1, hp⟩ hs key index hi
  exact ⟨a', r, lost, e1, e3, e2.placed, e5, e6⟩

/-- **C31**, for all the sequences of insertions in a new allocator, all the table sizes, depths and hash
values: the entries that are stored and the ones reported as spilled are exactly those that were
inserted. -/
theorem C31_insertions (size depth : Nat) (hs : 0 < size) (ins : List (CKey × UInt64))
    (hi : ∀ x ∈ ins, x.2 ≠ emptyIndex) :
    ∃ a rs lost, insertAll (Alloc.new size depth) ins = .ok (a, rs) ∧ Placed a ∧
      (entries a ++ lost).Perm (ins.map (fun x => ⟨x.1, x.2⟩)) ∧
      lost.map Cell.index = rs.filter (fun r => r != emptyIndex) := by
  have key : ∀ (ins : List (CKey × UInt64)) (a : Alloc), a.WF → 0 < a.size →
      (∀ x ∈ ins, x.2 ≠ emptyIndex) →
      ∃ a' rs lost, insertAll a ins = .ok (a', rs) ∧ Placed a' ∧
        (entries a' ++ lost).Perm (entries a ++ ins.map (fun x => ⟨x.1, x.2⟩)) ∧
        lost.map Cell.index = rs.filter (fun r => r != emptyIndex) := by
    intro ins
    induction ins with
    | nil => intro a h _ _; exact ⟨a, [], [], rfl, h.placed, by simp, rfl⟩
    | cons x ins ih =>
      intro a h hs hi
      obtain ⟨a1, r, l1, e1, e2, e3, -, e5, e6⟩ := insert_spec h hs x.1 x.2 (hi x (by simp))
      obtain ⟨a2, rs, l2, f1, f2, f3, f4⟩ := ih a1 e2 (by omega) (fun y hy => hi y (by simp [hy]))
      refine ⟨a2, r :: rs, l1 ++ l2, ?_, f2, ?_, ?_⟩
      · unfold insertAll
        rw [e1]
        dsimp only
        rw [f1]
      · rw [List.perm_iff_count]
        intro c
        have g1 := e5.count_eq c
        have g2 := f3.count_eq c
        simp only [List.count_append, List.map_cons, List.count_cons, List.count_nil] at g1 g2 ⊢
        omega
      · rcases e6 with ⟨rfl, rfl⟩ | ⟨c, rfl, rfl, hc⟩
        · simp [f4]
        · simp [f4, hc]
  obtain ⟨a, rs, lost, h1, h2, h3, h4⟩ := key ins (Alloc.new size depth) (wf_new _ _) hs hi
  rw [entries_new, List.nil_append] at h3
  exact ⟨a, rs, lost, h1, h2, h3, h4⟩

namespace Sample

/-- Hash values for the examples -/
def ck (a b : Nat) : CKey := ⟨UInt64.ofNat a, UInt64.ofNat b⟩

/-- Five insertions in two tables of two cells, with evictions, a cycle and a spilled entry -/
def inserts : List (CKey × UInt64) :=
  [(ck 0 0, 10), (ck 2 1, 11), (ck 4 0, 12), (ck 1 1, 13), (ck 6 3, 14)]

/-- Keys for the examples -/
def key (a b : Nat) : Key := Vector.ofFn (fun i =>
  if i.val = 0 then UInt8.ofNat a else if i.val = 8 then UInt8.ofNat b else 0)

/-- Values for the examples -/
def val (a : Nat) : Vector UInt8 2 := #v[UInt8.ofNat a, 7]

/-- Three keys of which two have the same first position -/
def kvs : List (Key × Vector UInt8 2) := [(key 0 0, val 1), (key 3 1, val 2), (key 1 2, val 3)]

/-- What a lookup returns: `none` if the table is not built -/
def query (size depth : Nat) (ins : List (Key × Vector UInt8 2)) (k : Key) :
    Option (Fault ⊕ Vector UInt8 2) :=
  match build size depth oceanusHash ins with
  | .error .divByZero => some (.inl .divByZero)
  | .error _ => none
  | .ok t => match t.get k with
    | .error f => some (.inl f)
    | .ok v => some (.inr v)

end Sample

example : (insertAll (Alloc.new 2 6) Sample.inserts).toOption.map Prod.snd =
    some [emptyIndex, emptyIndex, emptyIndex, emptyIndex, 12] := by decide +kernel

/-- A state with entries that meets the hypotheses of `C31_insert`, and an insertion that evicts twice -/
example : ∃ a rs, insertAll (Alloc.new 2 6) (Sample.inserts.take 3) = .ok (a, rs) ∧
    a.t0 = [⟨Sample.ck 4 0, 12⟩, Cell.empty] ∧ a.t1 = [⟨Sample.ck 0 0, 10⟩, ⟨Sample.ck 2 1, 11⟩] ∧
    Placed a ∧ (a.insert (Sample.ck 6 3) 14).toOption.map Prod.snd = some 12 := by
  obtain ⟨a, rs, -, h1, h2, -⟩ := C31_insertions 2 6 (by omega) (Sample.inserts.take 3) (by decide)
  have h : ∃ a rs, insertAll (Alloc.new 2 6) (Sample.inserts.take 3) = .ok (a, rs) ∧
      a.t0 = [⟨Sample.ck 4 0, 12⟩, Cell.empty] ∧ a.t1 = [⟨Sample.ck 0 0, 10⟩, ⟨Sample.ck 2 1, 11⟩] ∧
      (a.insert (Sample.ck 6 3) 14).toOption.map Prod.snd = some 12 :=
    ⟨_, _, rfl, by decide, by decide, by decide⟩
  obtain ⟨a', rs', e1, e2, e3, e4⟩ := h
  rw [h1] at e1
  cases e1
  exact ⟨a, rs, h1, e2, e3, h2, e4⟩

/-! ## C32 -/

variable {n : Nat}

/-- **C32**, partial: for all the distinct keys, hash functions and depths, the table is built, a lookup
of an inserted key returns its value, unless it was spilled, and a lookup of another key or of a spilled
key reports that it is not found, unless it is made of bytes 255. Missing: the spilled values, and the
key made of bytes 255 when it is not in the table; for these the claim is false, see
`C32_spilled_value_lost`, `C32_all_ones_found` and `C32_all_ones_spilled`. -/
theorem C32_get_partial (size depth : Nat) (hash : Key → CKey) (ins : List (Key × Vector UInt8 n))
    (hs : 0 < size) (hl : ins.length < 2 ^ 64) (hd : (ins.map Prod.fst).Nodup) :
    ∃ t, build size depth hash ins = .ok t ∧
      (∀ (i : Nat) x, ins[i]? = some x → UInt64.ofNat i ∉ spilled size depth hash ins →
        t.get x.1 = .ok x.2) ∧
      (∀ (i : Nat) x, ins[i]? = some x → UInt64.ofNat i ∈ spilled size depth hash ins →
        x.1 ≠ allOnes → t.get x.1 = .error .outOfRange) ∧
      ∀ k, (∀ x ∈ ins, x.1 ≠ k) → k ≠ allOnes → t.get k = .error .outOfRange := by
  obtain ⟨t, h1, h2, h3, h4, -⟩ := build_spec size depth hash ins hs hl hd
  exact ⟨t, h1, h2, h3, h4⟩

/-- The hypotheses hold for a concrete table, without and with a spilled value. -/
example : (Sample.kvs.map Prod.fst).Nodup ∧ spilled 3 5 oceanusHash Sample.kvs = [] ∧
    Sample.query 3 5 Sample.kvs (Sample.key 0 0) = some (.inr (Sample.val 1)) ∧
    Sample.query 3 5 Sample.kvs (Sample.key 3 1) = some (.inr (Sample.val 2)) ∧
    Sample.query 3 5 Sample.kvs (Sample.key 9 9) = some (.inl .outOfRange) := by decide +kernel

/-- C32 is violated: the values that are spilled are not in the table, and no error is reported by the
construction. -/
theorem C32_spilled_value_lost : (Sample.kvs.map Prod.fst).Nodup ∧
    spilled 1 5 oceanusHash Sample.kvs = [0] ∧
      Sample.query 1 5 Sample.kvs (Sample.key 0 0) = some (.inl .outOfRange) := by decide +kernel

/-- C32 is violated: the key made of bytes 255 is found in a table that does not contain it, as its
cells are empty. -/
theorem C32_all_ones_found : allOnes ≠ Sample.key 2 2 ∧
    Sample.query 2 5 [(Sample.key 2 2, Sample.val 1)] allOnes = some (.inr #v[255, 255]) := by
  decide +kernel

/-- C32 is violated: the key made of bytes 255 is inserted, and a lookup returns another value. -/
theorem C32_all_ones_spilled :
    Sample.query 2 1 [(allOnes, Sample.val 1), (Sample.key 1 1, Sample.val 2)] allOnes =
      some (.inr #v[255, 255]) := by
  decide +kernel

/-- A table of size zero: the insertion divides by zero (cuckoo.cpp L31). -/
theorem C32_size_zero :
    Sample.query 0 5 [(Sample.key 1 1, Sample.val 1)] (Sample.key 1 1) = some (.inl .divByZero) := by
  decide +kernel

/-! ## C35 -/

/-- **C31**: the two hashes of a key in Oceanus are its two halves, so together they are the key: different keys never have both hashes in
common. -/
theorem C31_halves (k : Key) :
    leBytes 8 (oceanusHash k).h0.toNat ++ leBytes 8 (oceanusHash k).h1.toNat = k.toList := by
  have h (l : List UInt8) (hl : l.length = 8) : leBytes 8 (UInt64.ofNat (ofLeBytes l)).toNat = l := by
    have h1 := ofLeBytes_lt l
    rw [hl] at h1
    have h2 : (UInt64.ofNat (ofLeBytes l)).toNat = ofLeBytes l := by
      rw [UInt64.toNat_ofNat']
      exact Nat.mod_eq_of_lt (by simpa using h1)
    rw [h2]
    simpa [hl] using leBytes_ofLeBytes l
  unfold oceanusHash
  rw [h _ (by simp), h _ (by simp), List.take_append_drop]

/-- The halves of a key -/
example : oceanusHash (#v[1, 2, 0, 0, 0, 0, 0, 0, 3, 0, 0, 0, 0, 0, 0, 1] : Vector UInt8 16) = ⟨513, 3 + 2 ^ 56⟩ := by decide +kernel

/-- C35 is violated by the cuckoo table, for all the insertions and at all the crash points in `commit`
after the reservation: the file is presented as a committed table of the right size. -/
theorem C35_cuckoo_crash (size depth : Nat) (hash : Key → CKey) (ins : List (Key × Vector UInt8 n))
    (hs : 0 < size) (hl : ins.length < 2 ^ 64) (k : Nat) :
    ∃ b file t, (Builder.new n size depth hash).insertAll ins = .ok b ∧ b.crash k = .ok file ∧
      Table.open hash file = .ok t ∧ t.size = size := by
  obtain ⟨b, lost, hb, h⟩ := (built_new (n := n) size depth hash).insertAll hs ins (by simpa using hl)
  simp only [List.nil_append] at h
  have hidx : ∀ c ∈ (b.alloc.t0 ++ b.alloc.t1).take k, c.full = true → c.index.toNat < b.data.length := by
    intro c hc hf
    have : c ∈ cellsFrom hash 0 ins := h.perm.mem_iff.mp
      (List.mem_append_left _ (List.mem_filter.mpr ⟨List.mem_of_mem_take hc, hf⟩))
    obtain ⟨i, x, hx, rfl⟩ := mem_cellsFrom.mp this
    have := (List.getElem?_eq_some_iff.mp hx).1
    rw [h.data]
    simp only [UInt64.toNat_ofNat', List.length_map]
    omega
  obtain ⟨ps, hps, hlen, -⟩ := writeTable_spec b.data _ hidx
  have hl0 := h.wf.l0
  have hl1 := h.wf.l1
  rw [h.size] at hl0 hl1
  rw [List.length_take, List.length_append, hl0, hl1] at hlen
  refine ⟨b, _, ⟨hash, ps ++ List.replicate (2 * b.alloc.size - ps.length) (Vector.replicate (16 + n) 0),
    size⟩, hb, by unfold Builder.crash; rw [hps], ?_, rfl⟩
  have hfl : (ps ++ List.replicate (2 * b.alloc.size - ps.length)
      (Vector.replicate (16 + n) (0 : UInt8))).length = 2 * size := by
    rw [List.length_append, List.length_replicate, h.size]; omega
  unfold Table.open
  rw [if_neg (by intro hn; rw [hn] at hfl; simp at hfl; omega), if_neg (by omega)]
  simp only [hfl, Except.ok.injEq, Table.mk.injEq, true_and]
  omega

/-- After such a crash, an inserted key is not found in the table, and no error is reported; the key
made of zeros is found though it was not inserted. -/
example :
    (match (Builder.new 2 3 5 oceanusHash).insertAll [(Sample.key 1 1, Sample.val 1)] with
      | .error _ => none
      | .ok b => match b.crash 1 with
        | .error _ => none
        | .ok file => match Table.open oceanusHash file with
          | .error _ => none
          | .ok t => some ((t.get (Sample.key 1 1)).toOption, (t.get (Sample.key 0 5)).toOption,
              (t.get (Sample.key 0 0)).toOption)) = some (none, none, some #v[0, 0]) := by decide +kernel

end Verif.Oceanus
