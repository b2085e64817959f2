import Verif.Tethys.SchemeProps
import Mathlib.Data.List.Perm.Basic
import Mathlib.Data.List.Perm.Subperm

/-! # Helper lemmas: keywords whose documents are given in several lists -/

namespace Verif.Tethys

open Spec

/-! ## The store, without a hypothesis on the keys -/

/-- The values given for a key -/
def valuesOf (page : Nat) (ins : List (CoreKey × List Index)) (key : CoreKey) : List Index :=
  ((ins.filter (fits page)).filter (fun x => decide (x.1 = key))).flatMap Prod.snd

theorem lookupChunk_mem (key : CoreKey) (cs : List (CoreKey × List Index)) :
    lookupChunk key cs = [] ∨ (key, lookupChunk key cs) ∈ cs := by
  unfold lookupChunk
  cases hf : (cs.takeWhile (fun c => !c.2.isEmpty)).find? (fun c => decide (c.1 = key)) with
  | none => exact .inl rfl
  | some c =>
    right
    have h1 := List.mem_of_find?_eq_some hf
    have h2 := List.find?_some hf
    simp only [decide_eq_true_eq] at h2
    subst h2
    exact (List.takeWhile_prefix _).subset h1

theorem foldl_put_mem (es : List (CoreKey × List Index)) (m : Map CoreKey (List Index)) (key : CoreKey)
    (v : List Index) (h : es.foldl (fun m x => m.put x.1 x.2) m key = some v) :
    (key, v) ∈ es ∨ m key = some v := by
  induction es generalizing m with
  | nil => exact .inr h
  | cons y es ih =>
    rcases ih (m.put y.1 y.2) h with h1 | h1
    · exact .inl (List.mem_cons_of_mem _ h1)
    · by_cases hk : key = y.1
      · subst hk
        rw [Map.put_self] at h1
        cases h1
        exact .inl (List.mem_cons_self ..)
      · rw [Map.put_of_ne _ _ hk] at h1
        exact .inr h1

theorem foldl_put_unique (es : List (CoreKey × List Index)) (m : Map CoreKey (List Index)) (key : CoreKey)
    (v : List Index) (h1 : (key, v) ∈ es) (h2 : ∀ x ∈ es, x.1 = key → x.2 = v) :
    es.foldl (fun m x => m.put x.1 x.2) m key = some v := by
  -- the last value put is one of the list
  have hlast : ∀ (es : List (CoreKey × List Index)) (m : Map CoreKey (List Index)),
      (∀ x ∈ es, x.1 = key → x.2 = v) → (∃ x ∈ es, x.1 = key) ∨ m key = some v →
      es.foldl (fun m x => m.put x.1 x.2) m key = some v := by
    intro es
    induction es with
    | nil =>
      intro m _ h
      rcases h with ⟨x, hx, _⟩ | h
      · cases hx
      · exact h
    | cons y es ih =>
      intro m hv h
      refine ih (m.put y.1 y.2) (fun x hx => hv x (List.mem_cons_of_mem _ hx)) ?_
      by_cases hk : y.1 = key
      · right
        rw [← hk, Map.put_self, hv y (List.mem_cons_self ..) hk]
      · rcases h with ⟨x, hx, hxk⟩ | h
        · rcases List.mem_cons.mp hx with rfl | hx
          · exact absurd hxk hk
          · exact .inl ⟨x, hx, hxk⟩
        · right
          rw [Map.put_of_ne _ _ (fun e => hk e.symm)]
          exact h
  exact hlast es m h2 (.inl ⟨_, h1, rfl⟩)

theorem parts_perm (r : Placed) (h : r.a0 + r.a1 ≤ r.vals.length + 6) :
    (r.vals.drop (r.vals.length - r.k0) ++ r.vals.take r.k1 ++ r.mid).Perm r.vals := by
  have hpa := r.parts_append h
  conv_rhs => rw [← hpa]
  rw [List.perm_iff_count]
  intro a
  simp only [List.count_append]
  omega

theorem count_le_flatMap {α : Type} (l : List α) (f : α → List Index) {r : α} (hr : r ∈ l) (a : Index) :
    (f r).count a ≤ (l.flatMap f).count a := by
  induction l with
  | nil => cases hr
  | cons y l ih =>
    rw [List.flatMap_cons, List.count_append]
    rcases List.mem_cons.mp hr with rfl | hr
    · omega
    · have := ih hr; omega

/-- What `get_list` returns for any key, whether or not keys are repeated -/
theorem getList_any (page n : Nat) (hash : CoreKey → UInt64 × UInt64) (enc : ValueEncoder)
    (ins : List (CoreKey × List Index)) (hn : 2 ≤ n) (hp : 8 ∣ page) (hp63 : page < 2 ^ 63)
    (hs : SmallEnough page ins) :
    ∃ st, openStore page n hash enc ins none = .ok st ∧
      ∀ key, ∃ r, st.getList enc key = .ok r ∧ r.Subperm (valuesOf page ins key) ∧
        (((ins.filter (fits page)).filter (fun x => decide (x.1 = key))).length = 1 →
          (∀ y ∈ ins, fits page y = true → y.2 ≠ []) → r.Perm (valuesOf page ins key)) := by
  obtain ⟨recs, cs, b0, hb0, hrecs, hsp, hsize, hcs, hbuild⟩ := build_spec hash hn ins hs
  have hmem : ∀ r ∈ recs, (r.key, r.vals) ∈ ins ∧ fits page (r.key, r.vals) = true := by
    intro r hr
    have : (r.key, r.vals) ∈ ins.filter (fits page) := by
      rw [← hrecs]; exact List.mem_map.mpr ⟨r, hr, rfl⟩
    exact List.mem_filter.mp this
  have hlen : ∀ r ∈ recs, r.vals.length < 2 ^ 64 := by
    intro r hr
    have := of_decide_eq_true (hmem r hr).2
    simp only at this
    omega
  -- the map of the stash
  have hmap : loadStash (if recs.filter Placed.stashed = [] then none
      else some ((recs.filter Placed.stashed).flatMap Placed.stashBytes)) =
      .ok ((stashPairs recs).foldl (fun m x => m.put x.1 x.2) Map.empty) := by
    by_cases hz : recs.filter Placed.stashed = []
    · rw [if_pos hz]
      have : stashPairs recs = [] := by
        rw [List.eq_nil_iff_forall_not_mem]
        intro x hx
        obtain ⟨r, h1, h2, rfl⟩ := mem_stashPairs.mp hx
        have hs : r.stashed = false := by
          have := List.filter_eq_nil_iff.mp hz r h1
          simpa using this
        exact h2 (r.mid_nil (hsp r h1) hs)
      rw [this]; rfl
    · rw [if_neg hz, stashBytes_pairs recs hsp]
      unfold loadStash
      refine deserializeMap_spec _ ?_ _ (Nat.lt_succ_self _) _
      intro x hx
      obtain ⟨r, h1, h2, rfl⟩ := mem_stashPairs.mp hx
      have := hlen r h1
      have hm := r.mid_length (hsp r h1)
      show r.mid.length < _
      omega
  generalize hm : (stashPairs recs).foldl (fun m x => m.put x.1 x.2) Map.empty = m at hmap
  have hF : ∀ key, valuesOf page ins key = (recs.filter (fun r => decide (r.key = key))).flatMap Placed.vals := by
    intro key
    unfold valuesOf
    rw [← hrecs, List.filter_map, List.flatMap_map]
    rfl
  have hb : ∀ k k', bucket0 n hash k ≠ bucket1 n hash k' := by
    intro k k' h
    have := bucket0_lt hn hash k
    have := bucket1_lt hn hash k'
    omega
  refine ⟨⟨(List.range n).map (fun v => enc.seal v (pageOf page (cs v))), hash, m⟩, ?_, ?_⟩
  · unfold openStore buildStore
    rw [hb0]
    simp only
    rw [hbuild enc none]
    simp only [Store.open]
    rw [hmap]
  · intro key
    refine ⟨lookupChunk key (cs (bucket0 n hash key)) ++ lookupChunk key (cs (bucket1 n hash key)) ++
      (m key).getD [], ?_, ?_, ?_⟩
    · unfold Store.getList
      simp only
      rw [getBuckets_spec hash hn]
      simp only
      rw [decode_pages hash hn hp hp63 enc cs hsize]
    · -- where each part comes from
      have p0 : lookupChunk key (cs (bucket0 n hash key)) = [] ∨ ∃ r ∈ recs, r.key = key ∧
          lookupChunk key (cs (bucket0 n hash key)) = r.vals.drop (r.vals.length - r.k0) := by
        rcases lookupChunk_mem key (cs (bucket0 n hash key)) with h | h
        · exact .inl h
        · obtain ⟨r, hr, h | h⟩ := (hcs _ _).mp h
          · exact absurd h.1.symm (hb _ _)
          · obtain ⟨h1, h2⟩ := Prod.mk.inj (Placed.chunk0_mem h.2).1
            exact .inr ⟨r, hr, h1.symm, h2⟩
      have p1 : lookupChunk key (cs (bucket1 n hash key)) = [] ∨ ∃ r ∈ recs, r.key = key ∧
          lookupChunk key (cs (bucket1 n hash key)) = r.vals.take r.k1 := by
        rcases lookupChunk_mem key (cs (bucket1 n hash key)) with h | h
        · exact .inl h
        · obtain ⟨r, hr, h | h⟩ := (hcs _ _).mp h
          · obtain ⟨h1, h2⟩ := Prod.mk.inj (Placed.chunk1_mem h.2).1
            exact .inr ⟨r, hr, h1.symm, h2⟩
          · exact absurd h.1 (hb _ _)
      have p2 : (m key).getD [] = [] ∨ ∃ r ∈ recs, r.key = key ∧ (m key).getD [] = r.mid := by
        cases hk : m key with
        | none => exact .inl rfl
        | some v =>
          rw [← hm] at hk
          rcases foldl_put_mem _ _ _ _ hk with h | h
          · obtain ⟨r, h1, h2, h3⟩ := mem_stashPairs.mp h
            obtain ⟨h4, h5⟩ := Prod.mk.inj h3
            exact .inr ⟨r, h1, h4.symm, h5⟩
          · cases h
      rw [hF]
      generalize hFe : recs.filter (fun r => decide (r.key = key)) = F
      have hFm : ∀ r, r ∈ F ↔ r ∈ recs ∧ r.key = key := by
        intro r; rw [← hFe, List.mem_filter, decide_eq_true_eq]
      rw [List.subperm_ext_iff]
      intro a _
      have hsum : (F.flatMap Placed.vals).count a =
          (F.flatMap (fun r => r.vals.drop (r.vals.length - r.k0))).count a +
          (F.flatMap (fun r => r.vals.take r.k1)).count a + (F.flatMap Placed.mid).count a := by
        have hFsp : ∀ r ∈ F, r.a0 + r.a1 ≤ r.vals.length + 6 := fun r hr => hsp r ((hFm r).mp hr).1
        clear hFm hFe
        induction F with
        | nil => rfl
        | cons r F ih =>
          have h1 := (parts_perm r (hFsp r (List.mem_cons_self ..))).count_eq a
          have h2 := ih (fun r hr => hFsp r (List.mem_cons_of_mem _ hr))
          simp only [List.flatMap_cons, List.count_append] at h1 h2 ⊢
          omega
      rw [hsum, List.count_append, List.count_append]
      refine Nat.add_le_add (Nat.add_le_add ?_ ?_) ?_
      · rcases p0 with h | ⟨r, hr, hk, h⟩
        · rw [h]; exact Nat.zero_le _
        · rw [h]; exact count_le_flatMap F (fun r => r.vals.drop (r.vals.length - r.k0)) ((hFm r).mpr ⟨hr, hk⟩) a
      · rcases p1 with h | ⟨r, hr, hk, h⟩
        · rw [h]; exact Nat.zero_le _
        · rw [h]; exact count_le_flatMap F (fun r => r.vals.take r.k1) ((hFm r).mpr ⟨hr, hk⟩) a
      · rcases p2 with h | ⟨r, hr, hk, h⟩
        · rw [h]; exact Nat.zero_le _
        · rw [h]; exact count_le_flatMap F Placed.mid ((hFm r).mpr ⟨hr, hk⟩) a
    · intro hone hne
      rw [← hrecs, List.filter_map, List.length_map] at hone
      rw [hF]
      change (recs.filter (fun r => decide (r.key = key))).length = 1 at hone
      obtain ⟨r, hr1⟩ := List.length_eq_one_iff.mp hone
      rw [hr1]
      have hFm : ∀ r', r' ∈ recs → r'.key = key → r' = r := by
        intro r' h1 h2
        have : r' ∈ recs.filter (fun r => decide (r.key = key)) := by
          rw [List.mem_filter, decide_eq_true_eq]; exact ⟨h1, h2⟩
        rw [hr1] at this
        exact List.mem_singleton.mp this
      obtain ⟨hr, hk⟩ : r ∈ recs ∧ r.key = key := by
        have : r ∈ recs.filter (fun r => decide (r.key = key)) := by rw [hr1]; exact List.mem_singleton.mpr rfl
        rwa [List.mem_filter, decide_eq_true_eq] at this
      subst hk
      have hne' : ∀ v, ∀ c ∈ cs v, c.2 ≠ [] := by
        intro v c hc
        obtain ⟨r', hr', h | h⟩ := (hcs _ _).mp hc
        · exact Placed.chunk_ne (hne _ (hmem r' hr').1 (hmem r' hr').2) (Or.inr h.2)
        · exact Placed.chunk_ne (hne _ (hmem r' hr').1 (hmem r' hr').2) (Or.inl h.2)
      have u0 : ∀ c ∈ cs (bucket0 n hash r.key), c.1 = r.key → c.2 = r.vals.drop (r.vals.length - r.k0) := by
        intro c hc hk
        obtain ⟨r', hr', h | h⟩ := (hcs _ _).mp hc
        · exact absurd h.1.symm (hb _ _)
        · have := (Placed.chunk0_mem h.2).1
          subst this
          have := hFm r' hr' hk
          subst this
          rfl
      have u1 : ∀ c ∈ cs (bucket1 n hash r.key), c.1 = r.key → c.2 = r.vals.take r.k1 := by
        intro c hc hk
        obtain ⟨r', hr', h | h⟩ := (hcs _ _).mp hc
        · have := (Placed.chunk1_mem h.2).1
          subst this
          have := hFm r' hr' hk
          subst this
          rfl
        · exact absurd h.1 (hb _ _)
      have e0 : lookupChunk r.key (cs (bucket0 n hash r.key)) = r.vals.drop (r.vals.length - r.k0) := by
        by_cases h3 : r.a0 ≤ 3
        · have : r.vals.drop (r.vals.length - r.k0) = [] := by
            apply List.drop_eq_nil_of_le
            unfold Placed.k0 fit; omega
          rcases lookupChunk_sound u0 with h | h <;> rw [h]
          rw [this]
        · refine lookupChunk_found (hne' _) ⟨(r.key, r.vals.drop (r.vals.length - r.k0)), ?_, rfl⟩ u0
          refine (hcs _ _).mpr ⟨r, hr, Or.inr ⟨rfl, ?_⟩⟩
          unfold Placed.chunk0
          rw [if_neg h3]; exact List.mem_singleton.mpr rfl
      have e1 : lookupChunk r.key (cs (bucket1 n hash r.key)) = r.vals.take r.k1 := by
        by_cases h3 : r.a1 ≤ 3
        · have : r.vals.take r.k1 = [] := by
            have : r.k1 = 0 := by unfold Placed.k1 fit; omega
            rw [this]; rfl
          rcases lookupChunk_sound u1 with h | h <;> rw [h]
          rw [this]
        · refine lookupChunk_found (hne' _) ⟨(r.key, r.vals.take r.k1), ?_, rfl⟩ u1
          refine (hcs _ _).mpr ⟨r, hr, Or.inl ⟨rfl, ?_⟩⟩
          unfold Placed.chunk1
          rw [if_neg h3]; exact List.mem_singleton.mpr rfl
      have e2 : (m r.key).getD [] = r.mid := by
        by_cases hmid : r.mid = []
        · rw [hmid]
          cases hk : m r.key with
          | none => rfl
          | some v =>
            rw [← hm] at hk
            rcases foldl_put_mem _ _ _ _ hk with h | h
            · obtain ⟨r', h1, h2, h3⟩ := mem_stashPairs.mp h
              obtain ⟨h4, h5⟩ := Prod.mk.inj h3
              have := hFm r' h1 h4.symm
              subst this
              exact absurd hmid h2
            · cases h
        · rw [← hm, foldl_put_unique _ _ _ r.mid (mem_stashPairs.mpr ⟨r, hr, hmid, rfl⟩)]
          · rfl
          · intro x hx hk
            obtain ⟨r', h1, h2, rfl⟩ := mem_stashPairs.mp hx
            have := hFm r' h1 hk
            subst this
            rfl
      rw [e0, e1, e2]
      simpa using parts_perm r (hsp r hr)

/-! ## The blocks of a keyword given several times -/

theorem keyed_filter {key : Nat → CoreKey} {k : CoreKey} {i : Nat} (xs : List (List Index)) (c : Nat)
    (h : ∀ j, c ≤ j → j < c + xs.length → (key j = k ↔ j = i)) :
    (keyed key c xs).filter (fun x => decide (x.1 = k)) =
      if c ≤ i then (xs[i - c]?).toList.map (fun x => (k, x)) else [] := by
  induction xs generalizing c with
  | nil => simp [keyed]
  | cons x xs ih =>
    have h0 := h c (Nat.le_refl _) (by simp)
    have hr := ih (c + 1) (fun j h1 h2 => h j (by omega) (by simp only [List.length_cons]; omega))
    unfold keyed
    rw [List.filter_cons, hr]
    by_cases hc : c = i
    · subst hc
      have := h0.mpr rfl
      simp [this]
    · have hk : key c ≠ k := fun e => hc (h0.mp e)
      simp only [hk, decide_false, Bool.false_eq_true, if_false]
      by_cases hle : c + 1 ≤ i
      · rw [if_pos hle, if_pos (by omega), show i - c = (i - (c + 1)) + 1 by omega, List.getElem?_cons_succ]
      · rw [if_neg hle, if_neg (by omega)]

theorem keyed_filter_none {key : Nat → CoreKey} {k : CoreKey} (xs : List (List Index)) (c : Nat)
    (h : ∀ j, c ≤ j → j < c + xs.length → key j ≠ k) :
    (keyed key c xs).filter (fun x => decide (x.1 = k)) = [] := by
  induction xs generalizing c with
  | nil => rfl
  | cons x xs ih =>
    have h0 := h c (Nat.le_refl _) (by simp)
    have hr := ih (c + 1) (fun j h1 h2 => h j (by omega) (by simp only [List.length_cons]; omega))
    unfold keyed
    rw [List.filter_cons, hr]
    simp [h0]

theorem flatMap_swap {α β : Type} (l : List α) (F : List β) (g : α → β → List Index) :
    (l.flatMap (fun i => F.flatMap (g i))).Perm (F.flatMap (fun z => l.flatMap (fun i => g i z))) := by
  induction F with
  | nil => simp
  | cons z F ih =>
    simp only [List.flatMap_cons]
    exact (List.flatMap_append_perm l (fun i => g i z) (fun i => F.flatMap (g i))).symm.trans (ih.append_left _)

theorem subperm_flatMap {α : Type} (l : List α) (f g : α → List Index) (h : ∀ i ∈ l, (f i).Subperm (g i)) :
    (l.flatMap f).Subperm (l.flatMap g) := by
  induction l with
  | nil => simp
  | cons x l ih =>
    rw [List.flatMap_cons, List.flatMap_cons]
    exact (h x (List.mem_cons_self ..)).append (ih (fun i hi => h i (List.mem_cons_of_mem _ hi)))

theorem perm_flatMap {α : Type} (l : List α) (f g : α → List Index) (h : ∀ i ∈ l, (f i).Perm (g i)) :
    (l.flatMap f).Perm (l.flatMap g) := by
  induction l with
  | nil => simp
  | cons x l ih =>
    rw [List.flatMap_cons, List.flatMap_cons]
    exact (h x (List.mem_cons_self ..)).append (ih (fun i hi => h i (List.mem_cons_of_mem _ hi)))

theorem range_flatMap_take (xs : List (List Index)) (b : Nat) :
    (List.range b).flatMap (fun i => (xs[i]?).getD []) = (xs.take b).flatten := by
  induction b with
  | zero => simp
  | succ b ih =>
    rw [List.range_succ, List.flatMap_append, ih]
    simp only [List.flatMap_cons, List.flatMap_nil, List.append_nil]
    rcases Nat.lt_or_ge b xs.length with h | h
    · rw [List.take_add_one, List.flatten_append, List.getElem?_eq_getElem h]; simp
    · rw [List.take_of_length_le h, List.take_of_length_le (by omega), List.getElem?_eq_none h]; simp

section
variable {W : Type} [DecidableEq W]

/-- The lists given for a keyword -/
def listsOf (index : List (W × List Index)) (w : W) : List (W × List Index) :=
  index.filter (fun x => decide (x.1 = w))

theorem countersOf_last (page : Nat) (index : List (W × List Index)) (m : Map W UInt32) (w : W) :
    countersOf page index m w = match (listsOf index w).getLast? with
      | some x => some (UInt32.ofNat (x.2.length / (page / 8 - 6) + 1))
      | none => m w := by
  unfold countersOf
  induction index generalizing m with
  | nil => rfl
  | cons y es ih =>
    rw [List.foldl_cons, ih]
    unfold listsOf
    rw [List.filter_cons]
    by_cases hk : y.1 = w
    · subst hk
      simp only [decide_true, if_true, List.getLast?_cons]
      cases h : (es.filter (fun x => decide (x.1 = y.1))).getLast? with
      | none => simp [Map.put_self]
      | some x => simp
    · simp only [hk, decide_false, Bool.false_eq_true, if_false]
      cases h : (es.filter (fun x => decide (x.1 = w))).getLast? with
      | none => exact Map.put_of_ne _ _ (fun e => hk e.symm)
      | some x => rfl

end

end Verif.Tethys
