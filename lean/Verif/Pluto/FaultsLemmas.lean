import Verif.Pluto.Faults
import Verif.Pluto.Props
import Verif.Tethys.FilesProps

/-!
# Lemmas on Pluto databases with failing writes and reads
-/

namespace Verif.Pluto

open Tethys (CoreKey Token deriveCoreKey ValueEncoder Params)

variable {N : Nat}

/-! ## Writes -/

/-- Writes in order -/
def putAll (m : Map CoreKey (Vector Index N)) : List (CoreKey × Vector Index N) →
    Map CoreKey (Vector Index N)
  | [] => m
  | y :: ys => putAll (m.put y.1 y.2) ys

theorem putAll_other (ys : List (CoreKey × Vector Index N)) : ∀ (m : Map CoreKey (Vector Index N)) (k : CoreKey),
    (∀ y ∈ ys, y.1 ≠ k) → putAll m ys k = m k := by
  induction ys with
  | nil => intro m k _; rfl
  | cons y ys ih =>
    intro m k h
    rw [putAll, ih _ _ (fun z hz => h z (List.mem_cons_of_mem _ hz)),
      Map.put_of_ne _ _ (fun e => h y (List.mem_cons_self ..) e.symm)]

theorem putAll_mem (ys : List (CoreKey × Vector Index N)) : ∀ (m : Map CoreKey (Vector Index N))
    (y : CoreKey × Vector Index N), (∀ z ∈ ys, z.1 = y.1 → z = y) → (m y.1 = some y.2 ∨ y ∈ ys) →
    putAll m ys y.1 = some y.2 := by
  induction ys with
  | nil => intro m y _ h; rcases h with h | h; exacts [h, by cases h]
  | cons z ys ih =>
    intro m y hf h
    rw [putAll]
    apply ih _ _ (fun z' hz' => hf z' (List.mem_cons_of_mem _ hz'))
    by_cases hz : z.1 = y.1
    · left
      rw [hf z (List.mem_cons_self ..) hz, Map.put_self]
    · rcases h with h | h
      · left
        rw [Map.put_of_ne _ _ (fun e => hz e.symm)]
        exact h
      · rcases List.mem_cons.mp h with rfl | h
        · exact absurd rfl hz
        · exact Or.inr h

/-- What the loop of `insert_list` does -/
theorem fillLoop_spec (L : Nat) (key : Nat → CoreKey) (ids : List Index) :
    ∀ (block : List Index) (c : Nat) (os : List Put) (m : Map CoreKey (Vector Index N)) (n : Nat),
      ∃ done k, (fillLoop L key ids block c os m n).1 = putAll m done ∧
        (∀ y ∈ done, y ∈ fullBlocks N L key ids block c) ∧
        (fillLoop L key ids block c os m n).2.1 = n + k ∧ k ≤ (fullBlocks N L key ids block c).length ∧
        ((fillLoop L key ids block c os m n).2.2 = none ∨
          ((fillLoop L key ids block c os m n).2.2 = some (lastBlock L ids block) ∧
            done = fullBlocks N L key ids block c ∧ k = (fullBlocks N L key ids block c).length)) := by
  induction ids with
  | nil =>
    intro block c os m n
    exact ⟨[], 0, rfl, by simp, rfl, Nat.zero_le _, Or.inr ⟨rfl, rfl, rfl⟩⟩
  | cons id ids ih =>
    intro block c os m n
    unfold fillLoop fullBlocks lastBlock
    dsimp only
    split
    · rename_i hl
      cases ho : os.headD Put.ok with
      | ok =>
        obtain ⟨done, k, h1, h2, h3, h4, h5⟩ := ih [] (c + 1) os.tail (m.put (key c) (padded N (block ++ [id])))
          (n + 1)
        refine ⟨(key c, padded N (block ++ [id])) :: done, k + 1, ?_, ?_, ?_, ?_, ?_⟩
        · exact h1
        · intro y hy
          rcases List.mem_cons.mp hy with rfl | hy
          · exact List.mem_cons_self ..
          · exact List.mem_cons_of_mem _ (h2 y hy)
        · simp only [Put.insert]
          rw [h3]
          omega
        · simpa using h4
        · rcases h5 with h5 | ⟨h5, h6, h7⟩
          · exact Or.inl h5
          · exact Or.inr ⟨h5, by rw [h6], by rw [h7]; rfl⟩
      | lost =>
        exact ⟨[], 1, rfl, by simp, rfl, by simp, Or.inl rfl⟩
      | kept =>
        exact ⟨[(key c, padded N (block ++ [id]))], 1, rfl, by simp, rfl, by simp, Or.inl rfl⟩
    · exact ih _ _ _ _ _

/-- What the loop of the dummy blocks does -/
theorem fillDummies_spec (ks : List CoreKey) : ∀ (os : List Put) (m : Map CoreKey (Vector Index N)),
    ∃ done, (fillDummies ks os m).1 = putAll m (done.map (fun k => (k, padded N []))) ∧
      (∀ k ∈ done, k ∈ ks) ∧ ((fillDummies ks os m).2 = true → done = ks) := by
  induction ks with
  | nil => intro os m; exact ⟨[], rfl, by simp, fun _ => rfl⟩
  | cons k ks ih =>
    intro os m
    unfold fillDummies
    cases ho : os.headD Put.ok with
    | ok =>
      obtain ⟨done, h1, h2, h3⟩ := ih os.tail (m.put k (padded N []))
      refine ⟨k :: done, h1, ?_, ?_⟩
      · intro y hy
        rcases List.mem_cons.mp hy with rfl | hy
        · exact List.mem_cons_self ..
        · exact List.mem_cons_of_mem _ (h2 y hy)
      · intro h
        rw [h3 h]
    | lost => exact ⟨[], rfl, by simp, fun h => by cases h⟩
    | kept => exact ⟨[k], rfl, by simp, fun h => by cases h⟩

/-! ## The blocks, when the values have exactly one block -/

theorem padded_self {block : List Index} (h : block.length = N) : (padded N block).toList = block := by
  rw [padded_toList (by omega), h]
  simp

theorem lastBlock_drop {L : Nat} (hL : 0 < L) (ids : List Index) : ∀ block : List Index, block.length < L →
    lastBlock L ids block = (block ++ ids).drop ((block.length + ids.length) / L * L) := by
  induction ids with
  | nil =>
    intro block h
    simp [lastBlock, Nat.div_eq_of_lt h]
  | cons id ids ih =>
    intro block h
    unfold lastBlock
    split
    · rename_i hl
      rw [ih [] hL, List.nil_append, List.length_nil, Nat.zero_add]
      have h1 : (block.length + (id :: ids).length) / L = ids.length / L + 1 := by
        rw [List.length_append] at hl
        simp only [List.length_cons, List.length_nil] at hl ⊢
        rw [show block.length + (ids.length + 1) = ids.length + L by omega, Nat.add_div_right _ hL]
      rw [h1, show block ++ id :: ids = (block ++ [id]) ++ ids by simp,
        show (ids.length / L + 1) * L = (block ++ [id]).length + ids.length / L * L by rw [hl]; ring]
      rw [List.drop_append, Nat.add_sub_cancel_left,
        List.drop_eq_nil_of_le (as := block ++ [id]) (by omega), List.nil_append]
    · rename_i hl
      rw [ih _ (by rw [List.length_append] at hl ⊢; simp only [List.length_cons, List.length_nil] at hl ⊢; omega)]
      simp [Nat.add_assoc, Nat.add_comm 1]

theorem fullBlocks_take {key : Nat → CoreKey} (hL : 0 < N) (ids : List Index) :
    ∀ (block : List Index) (c j : Nat), block.length < N → j ≤ (block.length + ids.length) / N →
      (((fullBlocks N N key ids block c).take j).map Prod.snd).flatMap Vector.toList =
        (block ++ ids).take (j * N) := by
  induction ids with
  | nil =>
    intro block c j h hj
    rw [List.length_nil, Nat.add_zero, Nat.div_eq_of_lt h] at hj
    obtain rfl : j = 0 := by omega
    simp
  | cons id ids ih =>
    intro block c j h hj
    unfold fullBlocks
    split
    · rename_i hl
      cases j with
      | zero => simp
      | succ j =>
        have h1 : (block.length + (id :: ids).length) / N = ids.length / N + 1 := by
          rw [List.length_append] at hl
          simp only [List.length_cons, List.length_nil] at hl ⊢
          rw [show block.length + (ids.length + 1) = ids.length + N by omega, Nat.add_div_right _ hL]
        rw [List.take_succ_cons, List.map_cons, List.flatMap_cons, ih [] (c + 1) j hL (by simpa using by omega)]
        simp only
        rw [padded_self hl, List.nil_append, show block ++ id :: ids = (block ++ [id]) ++ ids by simp,
          List.take_append, hl, show (j + 1) * N - N = j * N by rw [Nat.add_mul, Nat.one_mul]; omega]
        rw [List.take_of_length_le (l := block ++ [id]) (by rw [hl]; exact Nat.le_mul_of_pos_left _ (by omega))]
    · rename_i hl
      rw [ih _ _ _ (by rw [List.length_append] at hl ⊢; simp only [List.length_cons, List.length_nil] at hl ⊢; omega)
        (by simpa [Nat.add_assoc, Nat.add_comm 1] using hj)]
      simp

/-! ## The two parts of a search -/

/-- What the client adds to the full blocks -/
def storePart {W : Type} (hash : CoreKey → UInt64 × UInt64) (prf : W → Token) (H : List UInt8 → CoreKey)
    (enc : ValueEncoder) (fs : Tethys.Files) (w : W) : Except Fault (List Index) :=
  match Tethys.Store.open hash ⟨fs.table, none⟩, Tethys.loadStash fs.stash with
    | .ok s, .ok stash => match s.getBuckets (deriveCoreKey H (prf w) 0) with
      | .error f => .error (.tethys f)
      | .ok p =>
        let c : Tethys.Client W := ⟨stash, Map.empty, prf, enc⟩
        match c.decodeResults [(deriveCoreKey H (prf w) 0, p)] with
        | .error f => .error (.tethys f)
        | .ok r => .ok r
    | .error f, _ => .error (.tethys f)
    | _, .error f => .error (.tethys f)

theorem search_parts {W : Type} {ht : HashTable N} {hash : CoreKey → UInt64 × UInt64} {prf : W → Token}
    {H : List UInt8 → CoreKey} {enc : ValueEncoder} {t : ht.T} {fs : Tethys.Files} {fuel : Nat} {w : W}
    {R : List Index} (h : schemeSearch ht hash prf H enc t fs fuel w = .ok R) :
    ∃ complete r, serverLoop ht t (deriveCoreKey H (prf w)) fuel 1 = .ok complete ∧
      storePart hash prf H enc fs w = .ok r ∧ R = r ++ complete := by
  unfold schemeSearch at h
  dsimp only at h
  unfold storePart
  split at h
  · cases h
  · rename_i complete hc
    refine ⟨complete, ?_⟩
    split at h
    · rename_i s stash h1 h2
      split at h
      · cases h
      · rename_i p hp
        rw [h1, h2]
        dsimp only
        rw [hp]
        dsimp only at h ⊢
        split at h
        · cases h
        · rename_i r hr
          rw [hr]
          cases h
          exact ⟨r, hc, rfl, rfl⟩
    · cases h
    · cases h

theorem search_of_parts {W : Type} {ht : HashTable N} {hash : CoreKey → UInt64 × UInt64} {prf : W → Token}
    {H : List UInt8 → CoreKey} {enc : ValueEncoder} {t : ht.T} {fs : Tethys.Files} {fuel : Nat} {w : W}
    {complete r : List Index} (h1 : serverLoop ht t (deriveCoreKey H (prf w)) fuel 1 = .ok complete)
    (h2 : storePart hash prf H enc fs w = .ok r) :
    schemeSearch ht hash prf H enc t fs fuel w = .ok (r ++ complete) := by
  unfold schemeSearch
  dsimp only
  rw [h1]
  unfold storePart at h2
  split at h2
  · rename_i s stash h3 h4
    split at h2
    · cases h2
    · rename_i p hp
      rw [h3, h4]
      dsimp only
      rw [hp]
      dsimp only at h2 ⊢
      split at h2
      · cases h2
      · rename_i r' hr
        rw [hr]
        cases h2
        rfl
  · cases h2
  · cases h2

theorem rocksdb_get_some {m : Map CoreKey (Vector Index N)} {k : CoreKey} {v : Vector Index N}
    (h : m k = some v) : (rocksdb N).get m k = .ok v := by
  simp only
  rw [h]

theorem rocksdb_get_none {m : Map CoreKey (Vector Index N)} {k : CoreKey} (h : m k = none) :
    (rocksdb N).get m k = .error .outOfRange := by
  simp only
  rw [h]

/-- A table whose content is given, whatever is inserted -/
@[reducible] def constTable (m : Map CoreKey (Vector Index N)) : HashTable N where
  B := Unit
  T := Map CoreKey (Vector Index N)
  new := ()
  insert := fun _ _ _ => .ok ()
  commit := fun _ => .ok m
  get := (rocksdb N).get

theorem constTable_insertAll (m : Map CoreKey (Vector Index N)) (ys : List (CoreKey × Vector Index N)) :
    (constTable m).insertAll () ys = .ok () := by
  induction ys with
  | nil => rfl
  | cons y ys ih => exact ih

theorem constTable_loop (m t : Map CoreKey (Vector Index N)) (key : Nat → CoreKey) (fuel : Nat) :
    ∀ i, serverLoop (constTable m) t key fuel i = serverLoop (rocksdb N) t key fuel i := by
  induction fuel with
  | zero => intro i; rfl
  | succ fuel ih =>
    intro i
    unfold serverLoop
    rw [ih]

end Verif.Pluto
