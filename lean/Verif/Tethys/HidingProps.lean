import Verif.Tethys.HidingLemmas
import Verif.Tethys.SchemeProps

/-!
# C61: what the server stores reveals only sizes (Tethys)

The table of Tethys has a size that depends only on the parameters (`C61_tethys_size`), and with an ideal stream cipher it
says nothing else about the index: for two indexes there is a permutation of the keystreams, which only changes the bytes that
are used, such that the tables are the same (`C61_tethys_hiding`). Hence, if the bytes of the keystream are independent and
uniform, the tables of the two indexes have the same distribution. This is no longer so when a key is used for two
constructions, because the nonces are the positions of the pages (`C61_tethys_same_key_violated`). The pages read in a search
depend on the request and the size of the table (`C61_tethys_pages`). For Pluto see `Verif.Pluto.HidingProps`.
-/

namespace Verif.Tethys

/-! ## Page and size of the builder -/

theorem insertList_dims (b : Builder) (key : CoreKey) (vals : List Index) :
    (b.insertList key vals).1.page = b.page ∧ (b.insertList key vals).1.size = b.size := by
  unfold Builder.insertList
  by_cases hb : b.built = true
  · rw [if_pos hb]; exact ⟨rfl, rfl⟩
  · rw [if_neg hb]
    dsimp only
    by_cases hz : b.size / 2 = 0 ∨ b.size - b.size / 2 = 0
    · rw [if_pos hz]; exact ⟨rfl, rfl⟩
    · rw [if_neg hz]
      split <;> exact ⟨rfl, rfl⟩

theorem insertLoop_dims (max : Nat) (key : Nat → CoreKey) (ids : List Index) : ∀ (block : List Index) (c : Nat) (b : Builder),
    (insertLoop max key ids block c b).1.page = b.page ∧ (insertLoop max key ids block c b).1.size = b.size := by
  induction ids with
  | nil => intro block c b; exact ⟨rfl, rfl⟩
  | cons id ids ih =>
    intro block c b
    unfold insertLoop
    dsimp only
    by_cases hl : (block ++ [id]).length = max
    · rw [if_pos hl]
      have hd := insertList_dims b (key c) (block ++ [id])
      cases hr : b.insertList (key c) (block ++ [id]) with
      | mk b' r =>
        rw [hr] at hd
        cases r with
        | error f => exact hd
        | ok u =>
          obtain ⟨h1, h2⟩ := ih [] (c + 1) b'
          exact ⟨h1.trans hd.1, h2.trans hd.2⟩
    · rw [if_neg hl]
      exact ih _ c b

theorem schemeInsertList_dims {W : Type} [DecidableEq W] (prf : W → Token) (H : List UInt8 → CoreKey)
    (b : SchemeBuilder W) (w : W) (ids : List Index) :
    (b.insertList prf H w ids).1.store.page = b.store.page ∧ (b.insertList prf H w ids).1.store.size = b.store.size := by
  unfold SchemeBuilder.insertList
  dsimp only
  have hd := insertLoop_dims (b.store.page / 8 - 6) (deriveCoreKey H (prf w)) ids [] 0 b.store
  cases hr : insertLoop (b.store.page / 8 - 6) (deriveCoreKey H (prf w)) ids [] 0 b.store with
  | mk s r =>
    rw [hr] at hd
    cases r with
    | error f => exact hd
    | ok x =>
      obtain ⟨block, c⟩ := x
      dsimp only
      have he := insertList_dims s (deriveCoreKey H (prf w) c) block
      cases hs : s.insertList (deriveCoreKey H (prf w) c) block with
      | mk s' r' =>
        rw [hs] at he
        cases r' with
        | error f => exact ⟨he.1.trans hd.1, he.2.trans hd.2⟩
        | ok u => exact ⟨he.1.trans hd.1, he.2.trans hd.2⟩

theorem insertIndex_dims {W : Type} [DecidableEq W] (prf : W → Token) (H : List UInt8 → CoreKey)
    (index : List (W × List Index)) : ∀ b : SchemeBuilder W,
    (b.insertIndex prf H index).1.store.page = b.store.page ∧ (b.insertIndex prf H index).1.store.size = b.store.size := by
  induction index with
  | nil => intro b; exact ⟨rfl, rfl⟩
  | cons x xs ih =>
    intro b
    unfold SchemeBuilder.insertIndex
    have hd := schemeInsertList_dims prf H b x.1 x.2
    cases hr : b.insertList prf H x.1 x.2 with
    | mk b' r =>
      rw [hr] at hd
      cases r with
      | error f => exact hd
      | ok u => exact ⟨(ih b').1.trans hd.1, (ih b').2.trans hd.2⟩

theorem new_dims {page size : Nat} {hash : CoreKey → UInt64 × UInt64} {b : Builder}
    (h : Builder.new page size hash = .ok b) : b.page = page ∧ b.size = size := by
  unfold Builder.new at h
  cases ha : Allocator.new size (UInt64.ofNat (page / 8)) with
  | error f => rw [ha] at h; cases h
  | ok a => rw [ha] at h; cases h; exact ⟨rfl, rfl⟩

/-- The construction with encryption is the construction without, with the pages encrypted. -/
theorem schemeBuild_encrypt {W : Type} [DecidableEq W] (page n : Nat) (hash : CoreKey → UInt64 × UInt64) (prf : W → Token)
    (H : List UInt8 → CoreKey) (index : List (W × List Index)) (old : Option (List UInt8)) (c : Cipher)
    (k : Vector UInt8 32) :
    schemeBuild page n hash prf H (.encrypt c k) index old = (schemeBuild page n hash prf H .separate index old).map
      (fun x => (⟨List.zipWith (xorStream c k) (List.range n) x.1.table, x.1.stash⟩, x.2)) := by
  unfold schemeBuild
  cases hb : Builder.new page n hash with
  | error f => rfl
  | ok b =>
    have hd := (insertIndex_dims prf H index ⟨b, Map.empty⟩).2.trans (new_dims hb).2
    simp only
    cases hi : (SchemeBuilder.mk b Map.empty).insertIndex prf H index with
    | mk b' r =>
      rw [hi] at hd
      cases r with
      | error f => rfl
      | ok u =>
        simp only
        rw [build_encrypt, show b'.store.size = n from hd]
        cases b'.store.build .separate old with
        | error f => rfl
        | ok fs => rfl

theorem schemeBuild_length {W : Type} [DecidableEq W] {page n : Nat} {hash : CoreKey → UInt64 × UInt64} {prf : W → Token}
    {H : List UInt8 → CoreKey} {index : List (W × List Index)} {old : Option (List UInt8)} {r : Files × Map W UInt32}
    (h : schemeBuild page n hash prf H .separate index old = .ok r) :
    r.1.table.length = n ∧ ∀ p ∈ r.1.table, p.length = page := by
  unfold schemeBuild at h
  cases hb : Builder.new page n hash with
  | error f => rw [hb] at h; cases h
  | ok b =>
    rw [hb] at h
    simp only at h
    have hd := insertIndex_dims prf H index ⟨b, Map.empty⟩
    have hn := new_dims hb
    cases hi : (SchemeBuilder.mk b Map.empty).insertIndex prf H index with
    | mk b' r' =>
      rw [hi] at h hd
      cases r' with
      | error f => cases h
      | ok u =>
        simp only at h hd
        cases ht : b'.store.build .separate old with
        | error f => rw [ht] at h; cases h
        | ok fs =>
          rw [ht] at h
          cases h
          obtain ⟨h1, h2⟩ := build_length ht
          exact ⟨h1.trans (hd.2.trans hn.2), fun p hp => (h2 p hp).trans (hd.1.trans hn.1)⟩

/-! ## The theorems -/

/-- **C61**: whatever the index, the table has `n` pages of `page` bytes. -/
theorem C61_tethys_size {W : Type} [DecidableEq W] (page n : Nat) (hash : CoreKey → UInt64 × UInt64) (prf : W → Token)
    (H : List UInt8 → CoreKey) (enc : ValueEncoder) (index : List (W × List Index)) (old : Option (List UInt8))
    (fs : Files) (counters : Map W UInt32)
    (h : schemeBuild page n hash prf H enc index old = .ok (fs, counters)) :
    fs.table.length = n ∧ ∀ p ∈ fs.table, p.length = page := by
  cases enc with
  | separate => exact schemeBuild_length h
  | encrypt c k =>
    rw [schemeBuild_encrypt] at h
    cases hp : schemeBuild page n hash prf H .separate index old with
    | error f => rw [hp] at h; cases h
    | ok r =>
      rw [hp] at h
      cases h
      obtain ⟨h1, h2⟩ := schemeBuild_length hp
      refine ⟨by simp [h1], ?_⟩
      intro p hp
      obtain ⟨v, hv⟩ := List.mem_iff_getElem?.mp hp
      simp only at hv
      rw [zipWith_range h1] at hv
      cases hq : r.1.table[v]? with
      | none => rw [hq] at hv; cases hv
      | some q =>
        rw [hq] at hv
        cases hv
        rw [xorStream_length]
        exact h2 q (List.mem_of_getElem? hq)

/-- **C61**: two indexes, over any keywords, with any functions in place of the pseudo-random function and the hash function,
for which the construction succeeds: there is a permutation of the keystreams, which changes only the bytes used for the table,
such that the table of the first index with the changed keystream is the table of the second. -/
theorem C61_tethys_hiding {W W' : Type} [DecidableEq W] [DecidableEq W'] (page n : Nat) (k : Vector UInt8 32)
    (hash hash' : CoreKey → UInt64 × UInt64) (prf : W → Token) (prf' : W' → Token) (H H' : List UInt8 → CoreKey)
    (index : List (W × List Index)) (index' : List (W' × List Index)) (old old' : Option (List UInt8)) (c0 c0' : Cipher)
    (h : ∃ r, schemeBuild page n hash prf H (.encrypt c0 k) index old = .ok r)
    (h' : ∃ r, schemeBuild page n hash' prf' H' (.encrypt c0' k) index' old' = .ok r) :
    ∃ φ : Cipher → Cipher, Function.Bijective φ ∧
      (∀ c k' v i, k' ≠ k ∨ n ≤ v ∨ page ≤ i → φ c k' v i = c k' v i) ∧
      ∀ c, ∃ fs counters fs' counters',
        schemeBuild page n hash prf H (.encrypt (φ c) k) index old = .ok (fs, counters) ∧
        schemeBuild page n hash' prf' H' (.encrypt c k) index' old' = .ok (fs', counters') ∧
        fs.table = fs'.table := by
  obtain ⟨r, h⟩ := h
  obtain ⟨r', h'⟩ := h'
  rw [schemeBuild_encrypt] at h h'
  cases hp : schemeBuild page n hash prf H .separate index old with
  | error f => rw [hp] at h; cases h
  | ok p =>
    cases hp' : schemeBuild page n hash' prf' H' .separate index' old' with
    | error f => rw [hp'] at h'; cases h'
    | ok p' =>
      obtain ⟨l1, l2⟩ := schemeBuild_length hp
      obtain ⟨l1', l2'⟩ := schemeBuild_length hp'
      refine ⟨shift k p.1.table p'.1.table, shift_bijective _ _ _, ?_, ?_⟩
      · intro c k' v i ho
        unfold shift
        by_cases hk : k' = k
        · rw [if_pos hk]
          have ho := ho.resolve_left (fun e => e hk)
          rw [byteAt_out l1 l2 ho, byteAt_out l1' l2' ho]
          simp
        · rw [if_neg hk]
      · intro c
        refine ⟨⟨List.zipWith (xorStream (shift k p.1.table p'.1.table c) k) (List.range n) p.1.table, p.1.stash⟩, p.2,
          ⟨List.zipWith (xorStream c k) (List.range n) p'.1.table, p'.1.stash⟩, p'.2, ?_, ?_, ?_⟩
        · rw [schemeBuild_encrypt, hp]; rfl
        · rw [schemeBuild_encrypt, hp']; rfl
        · exact xor_shift c l1 l2 l1' l2'

/-- **C61** (violated when a key is used twice): for every cipher, the byte-wise difference of two tables made with the same key is the
difference of the tables without encryption. -/
theorem C61_tethys_same_key_violated {W W' : Type} [DecidableEq W] [DecidableEq W'] (page n : Nat) (c : Cipher)
    (k : Vector UInt8 32) (hash hash' : CoreKey → UInt64 × UInt64) (prf : W → Token) (prf' : W' → Token)
    (H H' : List UInt8 → CoreKey) (index : List (W × List Index)) (index' : List (W' × List Index))
    (old old' : Option (List UInt8)) (r : Files × Map W UInt32) (r' : Files × Map W' UInt32)
    (h : schemeBuild page n hash prf H (.encrypt c k) index old = .ok r)
    (h' : schemeBuild page n hash' prf' H' (.encrypt c k) index' old' = .ok r') :
    ∃ p p', schemeBuild page n hash prf H .separate index old = .ok p ∧
      schemeBuild page n hash' prf' H' .separate index' old' = .ok p' ∧
      ∀ v < n, ∀ i < page, ∃ a a' b b' : UInt8,
        (r.1.table[v]?).bind (fun q => q[i]?) = some a ∧ (r'.1.table[v]?).bind (fun q => q[i]?) = some a' ∧
        (p.1.table[v]?).bind (fun q => q[i]?) = some b ∧ (p'.1.table[v]?).bind (fun q => q[i]?) = some b' ∧
        a ^^^ a' = b ^^^ b' := by
  rw [schemeBuild_encrypt] at h h'
  cases hp : schemeBuild page n hash prf H .separate index old with
  | error f => rw [hp] at h; cases h
  | ok p =>
    cases hp' : schemeBuild page n hash' prf' H' .separate index' old' with
    | error f => rw [hp'] at h'; cases h'
    | ok p' =>
      rw [hp] at h
      rw [hp'] at h'
      cases h
      cases h'
      obtain ⟨l1, l2⟩ := schemeBuild_length hp
      obtain ⟨l1', l2'⟩ := schemeBuild_length hp'
      refine ⟨p, p', rfl, rfl, ?_⟩
      intro v hv i hi
      have e1 : p.1.table[v]? = some p.1.table[v] := List.getElem?_eq_getElem (by omega)
      have e2 : p'.1.table[v]? = some p'.1.table[v] := List.getElem?_eq_getElem (by omega)
      have m1 := l2 _ (List.mem_of_getElem? e1)
      have m2 := l2' _ (List.mem_of_getElem? e2)
      have f1 : p.1.table[v][i]? = some p.1.table[v][i] := List.getElem?_eq_getElem (by omega)
      have f2 : p'.1.table[v][i]? = some p'.1.table[v][i] := List.getElem?_eq_getElem (by omega)
      refine ⟨p.1.table[v][i] ^^^ c k v i, p'.1.table[v][i] ^^^ c k v i, p.1.table[v][i], p'.1.table[v][i],
        ?_, ?_, ?_, ?_, ?_⟩
      · simp only
        rw [zipWith_range l1, e1, Option.map_some, Option.bind_some]
        unfold xorStream
        rw [List.getElem?_mapIdx, f1]
        rfl
      · simp only
        rw [zipWith_range l1', e2, Option.map_some, Option.bind_some]
        unfold xorStream
        rw [List.getElem?_mapIdx, f2]
        rfl
      · rw [e1, Option.bind_some, f1]
      · rw [e2, Option.bind_some, f2]
      · generalize p.1.table[v][i] = a
        generalize p'.1.table[v][i] = b
        generalize c k v i = x
        rw [UInt8.xor_comm b, UInt8.xor_assoc, ← UInt8.xor_assoc x x, UInt8.xor_self, UInt8.zero_xor]

/-- **C61**: which pages the server reads for a request, and how many, depends on the request and the number of pages, not on
their content: two pages for each block. -/
theorem C61_tethys_pages (hash : CoreKey → UInt64 × UInt64) (H : List UInt8 → CoreKey) (s s' : Store)
    (hs : s.hash = hash) (hs' : s'.hash = hash) (hl : s.table.length = s'.table.length) (r : SearchRequest)
    (ps : List (CoreKey × BucketPair)) (h : serverSearch H s r = .ok ps) :
    ps.length = r.blocks.toNat ∧ ∃ ps', serverSearch H s' r = .ok ps' ∧
      ps'.map (fun x => (x.1, x.2.i0, x.2.i1)) = ps.map (fun x => (x.1, x.2.i0, x.2.i1)) := by
  unfold serverSearch at h ⊢
  have key : ∀ (is : List Nat) (ps : List (CoreKey × BucketPair)), serverLoop H s r.token is = .ok ps →
      ps.length = is.length ∧ ∃ ps', serverLoop H s' r.token is = .ok ps' ∧
        ps'.map (fun x => (x.1, x.2.i0, x.2.i1)) = ps.map (fun x => (x.1, x.2.i0, x.2.i1)) := by
    intro is
    induction is with
    | nil => intro ps h; cases h; exact ⟨rfl, [], rfl, rfl⟩
    | cons i is ih =>
      intro ps h
      unfold serverLoop at h ⊢
      simp only at h ⊢
      cases hb : s.getBuckets (deriveCoreKey H r.token i) with
      | error f => rw [hb] at h; cases h
      | ok p =>
        rw [hb] at h
        simp only at h
        cases hr : serverLoop H s r.token is with
        | error f => rw [hr] at h; cases h
        | ok qs =>
          rw [hr] at h
          cases h
          obtain ⟨h1, qs', h2, h3⟩ := ih qs hr
          refine ⟨by rw [List.length_cons, List.length_cons, h1], ?_⟩
          have hb' : ∃ p', s'.getBuckets (deriveCoreKey H r.token i) = .ok p' ∧ p'.i0 = p.i0 ∧ p'.i1 = p.i1 := by
            unfold Store.getBuckets at hb ⊢
            simp only at hb ⊢
            rw [hs']
            rw [hs, hl] at hb
            by_cases hz : s'.table.length / 2 = 0 ∨ s'.table.length - s'.table.length / 2 = 0
            · rw [if_pos hz] at hb; cases hb
            · rw [if_neg hz] at hb ⊢
              have hz1 : 0 < s'.table.length / 2 := by omega
              have hz2 : 0 < s'.table.length - s'.table.length / 2 := by omega
              generalize hi0 : (hash (deriveCoreKey H r.token i)).1.toNat % (s'.table.length / 2) = i0 at hb ⊢
              generalize hi1 : (hash (deriveCoreKey H r.token i)).2.toNat %
                (s'.table.length - s'.table.length / 2) = i1 at hb ⊢
              have b0 : i0 < s'.table.length / 2 := by rw [← hi0]; exact Nat.mod_lt _ hz1
              have b1 : i1 < s'.table.length - s'.table.length / 2 := by rw [← hi1]; exact Nat.mod_lt _ hz2
              have e0 : s.table[i0]? = some (s.table[i0]'(by omega)) := List.getElem?_eq_getElem (by omega)
              have e1 : s.table[s'.table.length / 2 + i1]? = some (s.table[s'.table.length / 2 + i1]'(by omega)) :=
                List.getElem?_eq_getElem (by omega)
              have e0' : s'.table[i0]? = some (s'.table[i0]'(by omega)) := List.getElem?_eq_getElem (by omega)
              have e1' : s'.table[s'.table.length / 2 + i1]? = some (s'.table[s'.table.length / 2 + i1]'(by omega)) :=
                List.getElem?_eq_getElem (by omega)
              rw [e0, e1] at hb
              rw [e0', e1']
              cases hb
              exact ⟨_, rfl, rfl, rfl⟩
          obtain ⟨p', hp', h4, h5⟩ := hb'
          rw [hp', h2]
          refine ⟨_, rfl, ?_⟩
          rw [List.map_cons, List.map_cons, h3, h4, h5]
  have := key _ ps h
  rwa [List.length_range] at this

/-! ## Examples -/

/-- Another index, with lists of other lengths -/
def Sample.other : List (Nat × List Index) := [(3, [21, 22, 23])]

example : ∃ φ : Cipher → Cipher, Function.Bijective φ ∧
    (∀ c k' v i, k' ≠ Sample.key ∨ 2 ≤ v ∨ 104 ≤ i → φ c k' v i = c k' v i) ∧
    ∀ c, ∃ fs counters fs' counters',
      schemeBuild 104 2 Sample.hash Sample.prf Sample.H (.encrypt (φ c) Sample.key) Sample.index none = .ok (fs, counters) ∧
      schemeBuild 104 2 Sample.hash Sample.prf Sample.H (.encrypt c Sample.key) Sample.other none = .ok (fs', counters') ∧
      fs.table = fs'.table := by
  obtain ⟨fs, ct, h, -⟩ := search_spec 104 2 Sample.hash Sample.prf Sample.H (.encrypt Sample.cipher Sample.key)
    Sample.index sample_index_ok
  obtain ⟨fs', ct', h', -⟩ := search_spec 104 2 Sample.hash Sample.prf Sample.H (.encrypt Sample.cipher Sample.key)
    Sample.other ⟨by decide, by decide, by decide, by decide, by decide, by decide, by decide, by decide⟩
  exact C61_tethys_hiding 104 2 Sample.key _ _ _ _ _ _ _ _ none none _ _ ⟨_, h⟩ ⟨_, h'⟩

/-- The first bytes of the tables of two indexes: their difference does not depend on the cipher. -/
def Sample.byte (enc : ValueEncoder) (ix : List (Nat × List Index)) (v i : Nat) : Option UInt8 :=
  match schemeBuild 104 2 Sample.hash Sample.prf Sample.H enc ix none with
  | .error _ => none
  | .ok r => (r.1.table[v]?).bind (fun q => q[i]?)

example : Sample.byte (.encrypt Sample.cipher Sample.key) [(1, [1])] 0 24 = some (1 ^^^ 73) ∧
    Sample.byte (.encrypt Sample.cipher Sample.key) [(1, [2])] 0 24 = some (2 ^^^ 73) := by decide +kernel

end Verif.Tethys
