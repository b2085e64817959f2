import Verif.Tethys.Scheme
import Verif.Tethys.StoreProps

/-! # Helper lemmas: the blocks of the lists, and searches block by block -/

namespace Verif.Tethys

open Spec

/-- The blocks that `insert_list` cuts -/
def cut (max : Nat) : List Index → List Index → List (List Index)
  | block, [] => [block]
  | block, id :: ids =>
    if (block ++ [id]).length = max then (block ++ [id]) :: cut max [] ids
    else cut max (block ++ [id]) ids

theorem cut_flatten (max : Nat) (block ids : List Index) : (cut max block ids).flatten = block ++ ids := by
  induction ids generalizing block with
  | nil => simp [cut]
  | cons id ids ih =>
    unfold cut
    split
    · rw [List.flatten_cons, ih]; simp
    · rw [ih]; simp

theorem cut_length_le {max : Nat} (hm : 0 < max) {block ids : List Index} (hb : block.length < max) :
    ∀ x ∈ cut max block ids, x.length ≤ max := by
  induction ids generalizing block with
  | nil => intro x hx; simp [cut] at hx; subst hx; omega
  | cons id ids ih =>
    intro x hx
    unfold cut at hx
    split at hx
    · rename_i h
      rcases List.mem_cons.mp hx with rfl | hx
      · omega
      · exact ih (by simpa using hm) x hx
    · rename_i h
      exact ih (by simp at h ⊢; omega) x hx

theorem cut_ne_nil {max : Nat} (hm : 0 < max) {block ids : List Index} (hb : block.length < max)
    (h : (block.length + ids.length) % max ≠ 0) : ∀ x ∈ cut max block ids, x ≠ [] := by
  induction ids generalizing block with
  | nil =>
    intro x hx
    simp only [cut, List.mem_singleton] at hx
    subst hx
    intro hx
    simp [hx] at h
  | cons id ids ih =>
    intro x hx
    unfold cut at hx
    split at hx
    · rename_i hl
      rcases List.mem_cons.mp hx with rfl | hx
      · simp
      · refine ih (by simpa using hm) ?_ x hx
        simp only [List.length_append, List.length_cons, List.length_nil, Nat.zero_add] at hl h
        simp only [List.length_nil, Nat.zero_add]
        rw [show block.length + (ids.length + 1) = max + ids.length by omega, Nat.add_mod_left] at h
        exact h
    · rename_i hl
      refine ih (by simp at hl ⊢; omega) ?_ x hx
      simp only [List.length_append, List.length_cons, List.length_nil, Nat.zero_add] at h ⊢
      rw [show block.length + 1 + ids.length = block.length + (ids.length + 1) by omega]
      exact h

theorem cut_length {max : Nat} (hm : 0 < max) {block ids : List Index} (hb : block.length < max) :
    (cut max block ids).length = (block.length + ids.length) / max + 1 := by
  induction ids generalizing block with
  | nil => simp [cut, Nat.div_eq_of_lt hb]
  | cons id ids ih =>
    unfold cut
    split
    · rename_i hl
      rw [List.length_cons, ih (by simpa using hm)]
      simp only [List.length_append, List.length_cons, List.length_nil, Nat.zero_add] at hl ⊢
      rw [show block.length + (ids.length + 1) = max + ids.length by omega, Nat.add_div_left _ hm]
    · rename_i hl
      rw [ih (by simp at hl ⊢; omega)]
      simp only [List.length_append, List.length_cons, List.length_nil, Nat.zero_add]
      rw [show block.length + 1 + ids.length = block.length + (ids.length + 1) by omega]

/-- The blocks with their keys, from the block number `c` on -/
def keyed (key : Nat → CoreKey) : Nat → List (List Index) → List (CoreKey × List Index)
  | _, [] => []
  | c, x :: xs => (key c, x) :: keyed key (c + 1) xs

theorem keyed_length (key : Nat → CoreKey) (c : Nat) (xs : List (List Index)) :
    (keyed key c xs).length = xs.length := by
  induction xs generalizing c with
  | nil => rfl
  | cons x xs ih => simp [keyed, ih]

theorem keyed_snd (key : Nat → CoreKey) (c : Nat) (xs : List (List Index)) :
    (keyed key c xs).map Prod.snd = xs := by
  induction xs generalizing c with
  | nil => rfl
  | cons x xs ih => simp [keyed, ih]

theorem keyed_fst (key : Nat → CoreKey) (c : Nat) (xs : List (List Index)) :
    (keyed key c xs).map Prod.fst = (List.range' c xs.length).map key := by
  induction xs generalizing c with
  | nil => rfl
  | cons x xs ih => simp [keyed, ih, List.range'_succ]

theorem smallEnough_append_left {page : Nat} {xs ys : List (CoreKey × List Index)}
    (h : SmallEnough page (xs ++ ys)) : SmallEnough page xs := by
  unfold SmallEnough at h ⊢
  rw [List.map_append, List.sum_append] at h
  omega

/-- An accepted insertion, after others -/
theorem insertList_ok {page n : Nat} {hash : CoreKey → UInt64 × UInt64} (hn : 2 ≤ n) {b0 : Builder}
    (hb0 : Builder.new page n hash = .ok b0) (done : List (CoreKey × List Index))
    (x : CoreKey × List Index) (hs : SmallEnough page (done ++ [x])) (hx : x.2.length + 6 ≤ page / 8) :
    (b0.insertAll done).insertList x.1 x.2 = (b0.insertAll (done ++ [x]), .ok ()) := by
  obtain ⟨b, hb, h⟩ := C24_insert_rejects page n hash done x hn hs
  rw [hb0] at hb
  cases hb
  rw [if_pos hx] at h
  rw [builder_insertAll_append]
  simp only [Builder.insertAll]
  exact Prod.ext rfl h

theorem insertLoop_spec {page n : Nat} {hash : CoreKey → UInt64 × UInt64} (hn : 2 ≤ n) {b0 : Builder}
    (hb0 : Builder.new page n hash = .ok b0) (hm : 0 < page / 8 - 6) (key : Nat → CoreKey)
    (ids block : List Index) (hb : block.length < page / 8 - 6) (c : Nat)
    (done : List (CoreKey × List Index))
    (hs : SmallEnough page (done ++ keyed key c (cut (page / 8 - 6) block ids))) :
    ∃ last c' pre, keyed key c (cut (page / 8 - 6) block ids) = pre ++ [(key c', last)] ∧
      c' = c + pre.length ∧ last.length < page / 8 - 6 ∧
      insertLoop (page / 8 - 6) key ids block c (b0.insertAll done) =
        (b0.insertAll (done ++ pre), .ok (last, c')) := by
  induction ids generalizing block c done with
  | nil => exact ⟨block, c, [], rfl, rfl, hb, by simp [insertLoop]⟩
  | cons id ids ih =>
    unfold insertLoop
    simp only
    unfold cut at hs ⊢
    by_cases hl : (block ++ [id]).length = page / 8 - 6
    · rw [if_pos hl] at hs ⊢
      rw [if_pos hl]
      simp only [keyed] at hs ⊢
      have hs1 : SmallEnough page (done ++ [(key c, block ++ [id])]) := by
        apply smallEnough_append_left (ys := keyed key (c + 1) (cut (page / 8 - 6) [] ids))
        simpa using hs
      rw [insertList_ok hn hb0 done (key c, block ++ [id]) hs1 (by simp only; omega)]
      simp only
      obtain ⟨last, c', pre, h1, h2, h3, h4⟩ := ih [] (by simpa using hm) (c + 1)
        (done ++ [(key c, block ++ [id])]) (by simpa using hs)
      refine ⟨last, c', (key c, block ++ [id]) :: pre, by rw [h1]; rfl, by simp; omega, h3, ?_⟩
      rw [h4]
      simp
    · rw [if_neg hl] at hs ⊢
      rw [if_neg hl]
      exact ih (block ++ [id]) (by simp at hl ⊢; omega) c done hs

/-- The lists that the scheme inserts in the store for an index -/
def blocksOf {W : Type} (page : Nat) (prf : W → Token) (H : List UInt8 → CoreKey)
    (index : List (W × List Index)) : List (CoreKey × List Index) :=
  index.flatMap (fun x => keyed (deriveCoreKey H (prf x.1)) 0 (cut (page / 8 - 6) [] x.2))

/-- The counters after the insertion of an index -/
def countersOf {W : Type} [DecidableEq W] (page : Nat) (index : List (W × List Index))
    (m : Map W UInt32) : Map W UInt32 :=
  index.foldl (fun m x => m.put x.1 (UInt32.ofNat (x.2.length / (page / 8 - 6) + 1))) m

theorem insertIndex_spec {W : Type} [DecidableEq W] {page n : Nat} {hash : CoreKey → UInt64 × UInt64}
    (hn : 2 ≤ n) {b0 : Builder} (hb0 : Builder.new page n hash = .ok b0) (hm : 0 < page / 8 - 6)
    (prf : W → Token) (H : List UInt8 → CoreKey) (index : List (W × List Index))
    (done : List (CoreKey × List Index)) (m : Map W UInt32)
    (hs : SmallEnough page (done ++ blocksOf page prf H index)) :
    (SchemeBuilder.mk (b0.insertAll done) m).insertIndex prf H index =
      (⟨b0.insertAll (done ++ blocksOf page prf H index), countersOf page index m⟩, .ok ()) := by
  induction index generalizing done m with
  | nil => simp [SchemeBuilder.insertIndex, blocksOf, countersOf]
  | cons x xs ih =>
    unfold SchemeBuilder.insertIndex
    have hblocks : blocksOf page prf H (x :: xs) =
        keyed (deriveCoreKey H (prf x.1)) 0 (cut (page / 8 - 6) [] x.2) ++ blocksOf page prf H xs := rfl
    rw [hblocks] at hs ⊢
    have hs1 : SmallEnough page (done ++ keyed (deriveCoreKey H (prf x.1)) 0 (cut (page / 8 - 6) [] x.2)) := by
      apply smallEnough_append_left (ys := blocksOf page prf H xs)
      simpa using hs
    obtain ⟨last, c', pre, h1, h2, h3, h4⟩ := insertLoop_spec hn hb0 hm (deriveCoreKey H (prf x.1)) x.2 []
      (by simpa using hm) 0 done hs1
    have hlen : c' + 1 = x.2.length / (page / 8 - 6) + 1 := by
      have h5 := cut_length hm (block := []) (ids := x.2) (by simpa using hm)
      rw [← keyed_length (deriveCoreKey H (prf x.1)) 0, h1] at h5
      simp only [List.length_append, List.length_singleton, List.length_nil, Nat.zero_add] at h5
      omega
    have hpage : ∀ ys, SmallEnough page ys → (b0.insertAll ys).page = page := by
      intro ys hys
      obtain ⟨b, a0, a, hb, -, -, hi⟩ := insertAll_builder hash hn ys hys
      rw [hb0] at hb
      cases hb
      rw [hi]
    have hins : (SchemeBuilder.mk (b0.insertAll done) m).insertList prf H x.1 x.2 =
        (⟨b0.insertAll (done ++ keyed (deriveCoreKey H (prf x.1)) 0 (cut (page / 8 - 6) [] x.2)),
          m.put x.1 (UInt32.ofNat (x.2.length / (page / 8 - 6) + 1))⟩, .ok ()) := by
      unfold SchemeBuilder.insertList
      simp only
      rw [hpage done (smallEnough_append_left hs1), h4]
      simp only
      rw [h1] at hs1
      rw [insertList_ok hn hb0 (done ++ pre) (deriveCoreKey H (prf x.1) c', last) (by simpa using hs1)
        (by simp only; omega)]
      simp only
      rw [hlen, h1, List.append_assoc]
    rw [hins]
    simp only
    rw [ih _ _ (by simpa using hs)]
    rw [List.append_assoc]
    rfl

theorem countersOf_spec {W : Type} [DecidableEq W] (page : Nat) (index : List (W × List Index))
    (m : Map W UInt32) (hd : (index.map Prod.fst).Nodup) (w : W) :
    (∀ x ∈ index, x.1 = w →
      countersOf page index m w = some (UInt32.ofNat (x.2.length / (page / 8 - 6) + 1))) ∧
    ((∀ x ∈ index, x.1 ≠ w) → countersOf page index m w = m w) := by
  unfold countersOf
  induction index generalizing m with
  | nil => simp
  | cons y es ih =>
    simp only [List.map_cons, List.nodup_cons] at hd
    obtain ⟨h1, h2⟩ := ih (m.put y.1 (UInt32.ofNat (y.2.length / (page / 8 - 6) + 1))) hd.2
    constructor
    · intro x hx hk
      rcases List.mem_cons.mp hx with rfl | hx
      · simp only [List.foldl_cons]
        rw [h2 (by
          intro z hz hzk
          exact hd.1 (List.mem_map.mpr ⟨z, hz, by rw [hzk, hk]⟩)), ← hk, Map.put_self]
      · exact h1 x hx hk
    · intro h
      simp only [List.foldl_cons]
      rw [h2 (fun x hx => h x (List.mem_cons_of_mem _ hx)),
        Map.put_of_ne _ _ (fun e => h y (List.mem_cons_self ..) e.symm)]

/-- The server and the client together do a lookup in the store per block -/
theorem search_blocks {W : Type} (H : List UInt8 → CoreKey) (s : Store) (stash : Map CoreKey (List Index))
    (c : Client W) (hc : c.stash = stash) (token : Token) (is : List Nat) (f : Nat → List Index)
    (h : ∀ i ∈ is, (Store.mk s.table s.hash stash).getList c.enc (deriveCoreKey H token i) = .ok (f i)) :
    ∃ ps, serverLoop H s token is = .ok ps ∧ c.decodeResults ps = .ok (is.flatMap f) := by
  induction is with
  | nil => exact ⟨[], rfl, rfl⟩
  | cons i is ih =>
    obtain ⟨ps, h1, h2⟩ := ih (fun j hj => h j (List.mem_cons_of_mem _ hj))
    have hi := h i (List.mem_cons_self ..)
    unfold Store.getList at hi
    simp only at hi
    have hg : (Store.mk s.table s.hash stash).getBuckets (deriveCoreKey H token i) =
        s.getBuckets (deriveCoreKey H token i) := rfl
    rw [hg] at hi
    unfold serverLoop
    simp only
    cases hb : s.getBuckets (deriveCoreKey H token i) with
    | error e => rw [hb] at hi; simp at hi
    | ok p =>
      rw [hb] at hi
      simp only at hi
      rw [h1]
      simp only
      refine ⟨_, rfl, ?_⟩
      unfold Client.decodeResults
      cases hdec : c.enc.decode (deriveCoreKey H token i) p.b0 p.i0 p.b1 p.i1 with
      | error e => rw [hdec] at hi; simp at hi
      | ok r =>
        rw [hdec] at hi
        simp only at hi
        simp only
        rw [h2]
        simp only
        rw [List.flatMap_cons, hc, Except.ok.inj hi]

theorem subperm_flatMap_range' (xs : List (List Index)) (c : Nat)
    (f : Nat → List Index)
    (h : ∀ (i : Nat) x, xs[i]? = some x → (f (c + i)).Subperm x) :
    ((List.range' c xs.length).flatMap f).Subperm xs.flatten := by
  induction xs generalizing c with
  | nil => simp
  | cons x xs ih =>
    simp only [List.length_cons, List.range'_succ, List.flatMap_cons, List.flatten_cons]
    apply List.Subperm.append
    · exact h 0 x rfl
    · apply ih
      intro i y hy
      have := h (i + 1) y (by simpa using hy)
      rwa [show c + (i + 1) = c + 1 + i by omega] at this

theorem perm_flatMap_range' (xs : List (List Index)) (c : Nat) (f : Nat → List Index)
    (h : ∀ (i : Nat) x, xs[i]? = some x → (f (c + i)).Perm x) :
    ((List.range' c xs.length).flatMap f).Perm xs.flatten := by
  induction xs generalizing c with
  | nil => simp
  | cons x xs ih =>
    simp only [List.length_cons, List.range'_succ, List.flatMap_cons, List.flatten_cons]
    apply List.Perm.append
    · exact h 0 x rfl
    · apply ih
      intro i y hy
      have := h (i + 1) y (by simpa using hy)
      rwa [show c + (i + 1) = c + 1 + i by omega] at this

theorem keyed_get (key : Nat → CoreKey) (c : Nat) (xs : List (List Index)) (i : Nat) (x : List Index)
    (h : xs[i]? = some x) : (key (c + i), x) ∈ keyed key c xs := by
  induction xs generalizing c i with
  | nil => simp at h
  | cons y ys ih =>
    cases i with
    | zero => simp at h; subst h; exact List.mem_cons_self ..
    | succ i =>
      have := ih (c + 1) i (by simpa using h)
      rw [show c + (i + 1) = c + 1 + i by omega]
      exact List.mem_cons_of_mem _ this

theorem sum_keyed (key : Nat → CoreKey) (c : Nat) (xs : List (List Index)) :
    ((keyed key c xs).map (fun x => x.2.length + 6)).sum = xs.flatten.length + 6 * xs.length := by
  induction xs generalizing c with
  | nil => rfl
  | cons x xs ih =>
    simp only [keyed, List.map_cons, List.sum_cons, ih, List.flatten_cons, List.length_append,
      List.length_cons]
    omega

theorem sum_blocksOf {W : Type} {page : Nat} (hm : 0 < page / 8 - 6) (prf : W → Token)
    (H : List UInt8 → CoreKey) (index : List (W × List Index)) :
    ((blocksOf page prf H index).map (fun x => x.2.length + 6)).sum =
      (index.map (fun x => x.2.length + 6 * (x.2.length / (page / 8 - 6) + 1))).sum := by
  induction index with
  | nil => rfl
  | cons x xs ih =>
    have hblocks : blocksOf page prf H (x :: xs) =
        keyed (deriveCoreKey H (prf x.1)) 0 (cut (page / 8 - 6) [] x.2) ++ blocksOf page prf H xs := rfl
    rw [hblocks, List.map_append, List.sum_append, ih, sum_keyed, cut_flatten,
      cut_length hm (by simpa using hm)]
    simp

theorem blocksOf_fst {W : Type} {page : Nat} (hm : 0 < page / 8 - 6) (prf : W → Token)
    (H : List UInt8 → CoreKey) (index : List (W × List Index)) :
    (blocksOf page prf H index).map Prod.fst = index.flatMap (fun x =>
      (List.range (x.2.length / (page / 8 - 6) + 1)).map (deriveCoreKey H (prf x.1))) := by
  unfold blocksOf
  rw [List.map_flatMap]
  congr 1
  funext x
  rw [keyed_fst, cut_length hm (by simpa using hm), List.range_eq_range']
  simp

theorem mem_keyed {key : Nat → CoreKey} {c : Nat} {xs : List (List Index)} {y} (h : y ∈ keyed key c xs) :
    y.2 ∈ xs := by
  have : y.2 ∈ (keyed key c xs).map Prod.snd := List.mem_map.mpr ⟨y, h, rfl⟩
  rwa [keyed_snd] at this

end Verif.Tethys
