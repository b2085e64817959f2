import Verif.Pluto.Model
import Verif.Tethys.SchemeLemmas
import Verif.Oceanus.Build

/-!
# Lemmas on Pluto
-/

namespace Verif.Pluto

open Tethys (CoreKey Token deriveCoreKey ValueEncoder cut)

variable {N : Nat}

/-! ## Serialization -/

theorem deserialize_serialize (v : Vector Index N) : deserializeValue (serializeValue v) = v := by
  apply Vector.ext
  intro i hi
  have key : ∀ (a b j : Nat) (ha : a < N) (hb : b < 8) (hj : j < 8), a = i → b = j →
      (indexBytes v[a])[b]'(by rw [indexBytes_length]; exact hb) =
        (indexBytes v[i])[j]'(by rw [indexBytes_length]; exact hj) := by
    rintro _ _ _ _ _ _ rfl rfl; rfl
  unfold deserializeValue
  rw [Vector.getElem_ofFn]
  refine (congrArg bytesIndex ?_).trans (bytesIndex_indexBytes v[i])
  apply List.ext_getElem
  · simp
  · intro j h1 h2
    have h1 : j < 8 := by simpa using h1
    rw [List.getElem_ofFn]
    unfold serializeValue
    dsimp only
    rw [Vector.getElem_ofFn]
    exact key _ _ _ _ (by omega) h1 (show (8 * i + j) / 8 = i by omega) (show (8 * i + j) % 8 = j by omega)

theorem padded_toList {block : List Index} (h : block.length ≤ N) :
    (padded N block).toList = block ++ List.replicate (N - block.length) 0 := by
  apply List.ext_getElem
  · simp; omega
  · intro i h1 h2
    simp only [padded, Vector.toList_ofFn, List.getElem_ofFn]
    rw [List.getElem_append]
    split
    · rename_i h; simp [List.getD_eq_getElem?_getD, List.getElem?_eq_getElem h]
    · rename_i h; simp [List.getD_eq_getElem?_getD, List.getElem?_eq_none (Nat.le_of_not_lt h)]

/-! ## Insertions in the hash table -/

/-- Insertions in order -/
def HashTable.insertAll (ht : HashTable N) (b : ht.B) : List (CoreKey × Vector Index N) →
    Except Oceanus.Fault ht.B
  | [] => .ok b
  | x :: xs => match ht.insert b x.1 x.2 with
    | .error f => .error f
    | .ok b' => ht.insertAll b' xs

theorem insertAll_cons (ht : HashTable N) (b : ht.B) (x : CoreKey × Vector Index N)
    (xs : List (CoreKey × Vector Index N)) : ht.insertAll b (x :: xs) =
      match ht.insert b x.1 x.2 with
      | .error f => .error f
      | .ok b' => ht.insertAll b' xs := rfl

theorem insertAll_append {ht : HashTable N} {b b' : ht.B} {xs ys : List (CoreKey × Vector Index N)}
    (h : ht.insertAll b (xs ++ ys) = .ok b') :
    ∃ b1, ht.insertAll b xs = .ok b1 ∧ ht.insertAll b1 ys = .ok b' := by
  induction xs generalizing b with
  | nil => exact ⟨b, rfl, h⟩
  | cons x xs ih =>
    rw [List.cons_append, insertAll_cons] at h
    rw [insertAll_cons]
    cases hi : ht.insert b x.1 x.2 with
    | error f => rw [hi] at h; cases h
    | ok b1 =>
      rw [hi] at h
      exact ih h

/-- What the scheme needs of a table with the given content, `P` holding for the absent keys considered -/
def Looks (ht : HashTable N) (t : ht.T) (kvs : List (CoreKey × Vector Index N)) (P : CoreKey → Prop) : Prop :=
  (∀ x ∈ kvs, ht.get t x.1 = .ok x.2) ∧
    ∀ k, (∀ x ∈ kvs, x.1 ≠ k) → P k → ht.get t k = .error .outOfRange

theorem rocksdb_looks (kvs : List (CoreKey × Vector Index N)) (hd : (kvs.map Prod.fst).Nodup) :
    ∃ b t, (rocksdb N).insertAll (rocksdb N).new kvs = .ok b ∧ (rocksdb N).commit b = .ok t ∧
      Looks (rocksdb N) t kvs (fun _ => True) := by
  have key : ∀ (kvs : List (CoreKey × Vector Index N)) (m : Map CoreKey (Vector Index N)),
      (kvs.map Prod.fst).Nodup →
      ∃ m' : Map CoreKey (Vector Index N), (rocksdb N).insertAll m kvs = .ok m' ∧
        (∀ x ∈ kvs, m' x.1 = some x.2) ∧ ∀ k, (∀ x ∈ kvs, x.1 ≠ k) → m' k = m k := by
    intro kvs
    induction kvs with
    | nil => intro m _; exact ⟨m, rfl, by simp, fun _ _ => rfl⟩
    | cons x kvs ih =>
      intro m hd
      simp only [List.map_cons, List.nodup_cons] at hd
      obtain ⟨m', h1, h2, h3⟩ := ih (m.put x.1 x.2) hd.2
      refine ⟨m', h1, ?_, ?_⟩
      · intro y hy
        rcases List.mem_cons.mp hy with rfl | hy
        · rw [h3 y.1 (fun z hz he => hd.1 (List.mem_map.mpr ⟨z, hz, he⟩)), Map.put_self]
        · exact h2 y hy
      · intro k hk
        rw [h3 k (fun z hz => hk z (List.mem_cons_of_mem _ hz)),
          Map.put_of_ne _ _ (fun e => hk x (List.mem_cons_self ..) e.symm)]
  obtain ⟨m', h1, h2, h3⟩ := key kvs Map.empty hd
  refine ⟨m', m', h1, rfl, ?_, ?_⟩
  · intro x hx
    show (match m' x.1 with | none => _ | some v => _) = _
    rw [h2 x hx]
  · intro k hk _
    show (match m' k with | none => _ | some v => _) = _
    rw [h3 k hk]
    rfl

theorem cuckoo_looks (size depth : Nat) (kvs : List (CoreKey × Vector Index N)) (hs : 0 < size)
    (hl : kvs.length < 2 ^ 64) (hd : (kvs.map Prod.fst).Nodup)
    (hsp : Oceanus.spilled size depth Oceanus.oceanusHash (kvs.map (fun x => (x.1, serializeValue x.2))) = []) :
    ∃ b t, (cuckoo N size depth).insertAll (cuckoo N size depth).new kvs = .ok b ∧
      (cuckoo N size depth).commit b = .ok t ∧
      Looks (cuckoo N size depth) t kvs (fun k => k ≠ Oceanus.Spec.allOnes) := by
  have key : ∀ (kvs : List (CoreKey × Vector Index N)) (b : Oceanus.Builder (8 * N)),
      (cuckoo N size depth).insertAll b kvs =
        b.insertAll (kvs.map (fun x => (x.1, serializeValue x.2))) := by
    intro kvs
    induction kvs with
    | nil => intro b; rfl
    | cons x kvs ih =>
      intro b
      simp only [List.map_cons, Oceanus.Builder.insertAll]
      rw [insertAll_cons]
      cases hi : b.insert x.1 (serializeValue x.2) with
      | error f =>
        have : (cuckoo N size depth).insert b x.1 x.2 = .error f := hi
        rw [this]
      | ok b' =>
        have : (cuckoo N size depth).insert b x.1 x.2 = .ok b' := hi
        rw [this]
        exact ih b'
  obtain ⟨t, h1, h2, -, h3, -⟩ := Oceanus.build_spec size depth Oceanus.oceanusHash
    (kvs.map (fun x => (x.1, serializeValue x.2))) hs (by simpa using hl)
    (by rw [List.map_map]; exact hd)
  unfold Oceanus.build at h1
  cases hb : (Oceanus.Builder.new (8 * N) size depth Oceanus.oceanusHash).insertAll
      (kvs.map (fun x => (x.1, serializeValue x.2))) with
  | error f => rw [hb] at h1; cases h1
  | ok b =>
    rw [hb] at h1
    dsimp only at h1
    have hcommit : (cuckoo N size depth).commit b = .ok t := by
      show (match b.commit with
        | .error f => Except.error f
        | .ok file => Oceanus.Table.open Oceanus.oceanusHash file) = _
      cases hc : b.commit with
      | error f => rw [hc] at h1; cases h1
      | ok file => rw [hc] at h1; exact h1
    refine ⟨b, t, ?_, hcommit, ?_, ?_⟩
    · exact (key _ _).trans hb
    · intro x hx
      obtain ⟨i, hi⟩ := List.getElem?_of_mem hx
      have := h2 i (x.1, serializeValue x.2) (by rw [List.getElem?_map, hi]; rfl) (by rw [hsp]; simp)
      show (match t.get x.1 with | .error f => _ | .ok p => _) = _
      rw [this]
      simp [deserialize_serialize]
    · intro k hk hone
      have := h3 k (by
        intro x hx
        obtain ⟨y, hy, rfl⟩ := List.mem_map.mp hx
        exact hk y hy) hone
      show (match t.get k with | .error f => _ | .ok p => _) = _
      rw [this]

/-! ## The builder -/

/-- The full blocks that `insert_list` cuts, with their keys, from the block number `c` on -/
def fullBlocks (N L : Nat) (key : Nat → CoreKey) : List Index → List Index → Nat →
    List (CoreKey × Vector Index N)
  | [], _, _ => []
  | id :: ids, block, c =>
    if (block ++ [id]).length = L then (key c, padded N (block ++ [id])) :: fullBlocks N L key ids [] (c + 1)
    else fullBlocks N L key ids (block ++ [id]) c

/-- The block that remains -/
def lastBlock (L : Nat) : List Index → List Index → List Index
  | [], block => block
  | id :: ids, block => if (block ++ [id]).length = L then lastBlock L ids [] else lastBlock L ids (block ++ [id])

theorem insertLoop_spec {ht : HashTable N} {L : Nat} {key : Nat → CoreKey} (ids : List Index) :
    ∀ (block : List Index) (c : Nat) (b : Builder ht) (t : ht.B),
      ht.insertAll b.table (fullBlocks N L key ids block c) = .ok t →
      insertLoop ht L key ids block c b =
        .ok (⟨b.store, t, b.complete + (fullBlocks N L key ids block c).length⟩, lastBlock L ids block) := by
  induction ids with
  | nil =>
    intro block c b t h
    cases h
    rfl
  | cons id ids ih =>
    intro block c b t h
    unfold insertLoop fullBlocks lastBlock
    unfold fullBlocks at h
    dsimp only
    split
    · rename_i hl
      rw [if_pos hl] at h
      unfold HashTable.insertAll at h
      cases hi : ht.insert b.table (key c) (padded N (block ++ [id])) with
      | error f => rw [hi] at h; cases h
      | ok t1 =>
        rw [hi] at h
        dsimp only at h ⊢
        rw [ih [] (c + 1) { b with table := t1, complete := b.complete + 1 } t h]
        simp only [List.length_cons, Except.ok.injEq, Prod.mk.injEq, Builder.mk.injEq, true_and, and_true]
        omega
    · rename_i hl
      rw [if_neg hl] at h
      exact ih _ _ _ _ h

/-! ### Content of the blocks -/

theorem length_fullBlocks {L : Nat} (hL : 0 < L) (key : Nat → CoreKey) (ids : List Index) :
    ∀ (block : List Index) (c : Nat), block.length < L →
      (fullBlocks N L key ids block c).length = (block.length + ids.length) / L := by
  induction ids with
  | nil => intro block c h; simp [fullBlocks, Nat.div_eq_of_lt h]
  | cons id ids ih =>
    intro block c h
    unfold fullBlocks
    split
    · rename_i hl
      rw [List.length_cons, ih [] (c + 1) hL]
      simp only [List.length_append, List.length_cons, List.length_nil, Nat.zero_add] at hl ⊢
      rw [show block.length + (ids.length + 1) = L + ids.length by omega, Nat.add_div_left _ hL]
    · rename_i hl
      rw [ih _ c (by simp at hl ⊢; omega)]
      simp only [List.length_append, List.length_cons, List.length_nil, Nat.zero_add]
      congr 1; omega

theorem fullBlocks_fst {L : Nat} (key : Nat → CoreKey) (ids : List Index) :
    ∀ (block : List Index) (c : Nat), (fullBlocks N L key ids block c).map Prod.fst =
      (List.range' c (fullBlocks N L key ids block c).length).map key := by
  induction ids with
  | nil => intro block c; rfl
  | cons id ids ih =>
    intro block c
    unfold fullBlocks
    split
    · simp only [List.map_cons, List.length_cons, List.range'_succ]
      rw [ih]
    · exact ih _ _

theorem length_lastBlock {L : Nat} (hL : 0 < L) (ids : List Index) :
    ∀ block : List Index, block.length < L → (lastBlock L ids block).length < L := by
  induction ids with
  | nil => intro block h; exact h
  | cons id ids ih =>
    intro block h
    unfold lastBlock
    split
    · exact ih [] hL
    · rename_i hl
      exact ih _ (by simp at hl ⊢; omega)

theorem length_lastBlock_le {L : Nat} (ids : List Index) :
    ∀ block : List Index, (lastBlock L ids block).length ≤ block.length + ids.length := by
  induction ids with
  | nil => intro block; simp [lastBlock]
  | cons id ids ih =>
    intro block
    unfold lastBlock
    split
    · have := ih []; simp at this ⊢; omega
    · have := ih (block ++ [id]); simp at this ⊢; omega

/-- The values of the full blocks and the last block are the list, with zeros at the end of the values. -/
theorem blocks_perm {L : Nat} (hLN : L ≤ N) (key : Nat → CoreKey) (ids : List Index) :
    ∀ (block : List Index) (c : Nat),
      ((fullBlocks N L key ids block c).flatMap (fun x => x.2.toList) ++ lastBlock L ids block).Perm
        (block ++ ids ++ List.replicate ((fullBlocks N L key ids block c).length * (N - L)) 0) := by
  induction ids with
  | nil => intro block c; simp [fullBlocks, lastBlock]
  | cons id ids ih =>
    intro block c
    unfold fullBlocks lastBlock
    split
    · rename_i hl
      simp only [List.flatMap_cons, List.length_cons]
      rw [padded_toList (by omega), hl]
      have := ih [] (c + 1)
      rw [List.perm_iff_count] at this ⊢
      intro a
      have := this a
      simp only [List.count_append, List.count_cons, List.count_nil, Nat.zero_add, Nat.add_mul,
        Nat.one_mul, List.replicate_add] at this ⊢
      omega
    · have := ih (block ++ [id]) c
      simpa using this

/-! ### The whole index -/

/-- The key of a block of a keyword -/
abbrev keyOf {W : Type} (prf : W → Token) (H : List UInt8 → CoreKey) (w : W) (i : Nat) : CoreKey :=
  deriveCoreKey H (prf w) i

/-- The entries of the hash table for an index -/
def tableEntries {W : Type} (N L : Nat) (prf : W → Token) (H : List UInt8 → CoreKey)
    (index : List (W × List Index)) : List (CoreKey × Vector Index N) :=
  index.flatMap (fun x => fullBlocks N L (keyOf prf H x.1) x.2 [] 1)

/-- The lists of the Tethys store for an index -/
def storeLists {W : Type} (L : Nat) (prf : W → Token) (H : List UInt8 → CoreKey)
    (index : List (W × List Index)) : List (CoreKey × List Index) :=
  index.flatMap (fun x => if (lastBlock L x.2 []).length > 0 then [(keyOf prf H x.1 0, lastBlock L x.2 [])]
    else [])

theorem insertIndex_spec {W : Type} {ht : HashTable N} {page size L : Nat}
    {hash : CoreKey → UInt64 × UInt64} (hn : 2 ≤ size) {s0 : Tethys.Builder}
    (hs0 : Tethys.Builder.new page size hash = .ok s0) (hL : 0 < L) (hLp : L + 6 ≤ page / 8)
    (prf : W → Token) (H : List UInt8 → CoreKey) (index : List (W × List Index)) :
    ∀ (done : List (CoreKey × List Index)) (t t' : ht.B) (c : Nat),
      Tethys.SmallEnough page (done ++ storeLists L prf H index) →
      ht.insertAll t (tableEntries N L prf H index) = .ok t' →
      (Builder.mk (s0.insertAll done) t c : Builder ht).insertIndex L prf H index =
        .ok ⟨s0.insertAll (done ++ storeLists L prf H index), t',
          c + (tableEntries N L prf H index).length⟩ := by
  induction index with
  | nil =>
    intro done t t' c _ ht
    cases ht
    simp [Builder.insertIndex, storeLists, tableEntries]
  | cons x xs ih =>
    intro done t t' c hs hins
    have e1 : tableEntries N L prf H (x :: xs) =
        fullBlocks N L (keyOf prf H x.1) x.2 [] 1 ++ tableEntries N L prf H xs := rfl
    have e2 : storeLists L prf H (x :: xs) = (if (lastBlock L x.2 []).length > 0 then
        [(keyOf prf H x.1 0, lastBlock L x.2 [])] else []) ++ storeLists L prf H xs := rfl
    rw [e1] at hins
    obtain ⟨t1, h1, h2⟩ := insertAll_append hins
    unfold Builder.insertIndex Builder.insertList
    dsimp only
    rw [insertLoop_spec x.2 [] 1 (Builder.mk (s0.insertAll done) t c : Builder ht) t1 h1]
    dsimp only
    rw [e2] at hs
    rw [e1, e2]
    by_cases hlast : (lastBlock L x.2 []).length > 0
    · rw [if_pos hlast] at hs ⊢
      rw [if_pos hlast]
      have hlen := length_lastBlock hL x.2 [] hL
      rw [Tethys.insertList_ok hn hs0 done (deriveCoreKey H (prf x.1) 0, lastBlock L x.2 [])
        (Tethys.smallEnough_append_left (ys := storeLists L prf H xs) (by simpa using hs))
        (by simp only; omega)]
      dsimp only
      rw [ih _ t1 t' _ (by simpa using hs) h2]
      simp [Nat.add_assoc]
    · rw [if_neg hlast] at hs ⊢
      rw [if_neg hlast]
      dsimp only
      rw [ih done t1 t' _ (by simpa using hs) h2]
      simp [Nat.add_assoc]

theorem addDummies_spec {ht : HashTable N} (ks : List CoreKey) : ∀ (t t' : ht.B),
    ht.insertAll t (ks.map (fun k => (k, padded N []))) = .ok t' → addDummies ht ks t = .ok t' := by
  induction ks with
  | nil => intro t t' h; cases h; rfl
  | cons k ks ih =>
    intro t t' h
    simp only [List.map_cons] at h
    unfold HashTable.insertAll at h
    unfold addDummies
    cases hi : ht.insert t k (padded N []) with
    | error f => rw [hi] at h; cases h
    | ok t1 => rw [hi] at h; exact ih t1 t' h

/-! ## The server -/

theorem serverLoop_spec {ht : HashTable N} {t : ht.T} {key : Nat → CoreKey} (vs : List (Vector Index N)) :
    ∀ (i fuel : Nat), vs.length < fuel → i + vs.length < 2 ^ 32 →
      (∀ (j : Nat) v, vs[j]? = some v → ht.get t (key (i + j)) = .ok v) →
      ht.get t (key (i + vs.length)) = .error .outOfRange →
      serverLoop ht t key fuel i = .ok (vs.flatMap Vector.toList) := by
  induction vs with
  | nil =>
    intro i fuel hf hi _ hend
    obtain ⟨fuel, rfl⟩ := Nat.exists_eq_add_of_lt hf
    unfold serverLoop
    simp only [List.length_nil, Nat.add_zero] at hi hend
    rw [Nat.mod_eq_of_lt hi, hend]
    rfl
  | cons v vs ih =>
    intro i fuel hf hi hget hend
    cases fuel with
    | zero => omega
    | succ fuel =>
      unfold serverLoop
      simp only [List.length_cons] at hf hi hend
      have h0 := hget 0 v rfl
      rw [Nat.add_zero] at h0
      rw [Nat.mod_eq_of_lt (by omega), h0]
      dsimp only
      rw [ih (i + 1) fuel (by omega) (by omega)]
      · rfl
      · intro j w hw
        have := hget (j + 1) w (by simpa using hw)
        rwa [show i + (j + 1) = i + 1 + j by omega] at this
      · rwa [show i + (vs.length + 1) = i + 1 + vs.length by omega] at hend

end Verif.Pluto
