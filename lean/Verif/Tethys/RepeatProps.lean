import Verif.Tethys.RepeatLemmas

/-!
# C59: keywords given several times to the Tethys builder

`insert_list` may be called several times with the same keyword, and a file may have several lists for a keyword
(`/repo/lib/include/sse/schemes/tethys/tethys_builder.hpp` L79-125, L210-256). Each call numbers its blocks from 0 and sets
the counter of the keyword to its own number of blocks (L123), so the keys of the blocks are repeated and the counter forgets the
longer lists.
-/

namespace Verif.Tethys

variable {W : Type} [DecidableEq W]

/-- The documents of a keyword: those of all its lists -/
def Spec.docs (index : List (W × List Index)) (w : W) : List Index :=
  (index.filter (fun x => decide (x.1 = w))).flatMap Prod.snd

/-- As `Spec.IndexOk`, except that a keyword may be given several times -/
structure Spec.RepeatOk (page n : Nat) (prf : W → Token) (H : List UInt8 → CoreKey)
    (index : List (W × List Index)) : Prop where
  buckets : 2 ≤ n
  aligned : 8 ∣ page
  small : page < 2 ^ 63
  room : 6 < page / 8
  total : (index.map (fun x => x.2.length + 6 * Spec.blockCount page x.2.length)).sum + page / 8 < 2 ^ 64
  counters : ∀ x ∈ index, Spec.blockCount page x.2.length < 2 ^ 32
  tokens : ∀ x ∈ index, ∀ y ∈ index, prf x.1 = prf y.1 → x.1 = y.1
  hashes : ∀ a ∈ Spec.inputs prf (fun x => Spec.blockCount page x.2.length) index,
    ∀ b ∈ Spec.inputs prf (fun x => Spec.blockCount page x.2.length) index, H a = H b → a = b

omit [DecidableEq W] in
theorem Spec.RepeatOk.key_inj {page n : Nat} {prf : W → Token} {H : List UInt8 → CoreKey}
    {index : List (W × List Index)} (h : Spec.RepeatOk page n prf H index) {x y : W × List Index}
    (hx : x ∈ index) (hy : y ∈ index) {i j : Nat} (hi : i < Spec.blockCount page x.2.length)
    (hj : j < Spec.blockCount page y.2.length)
    (he : deriveCoreKey H (prf x.1) i = deriveCoreKey H (prf y.1) j) : x.1 = y.1 ∧ i = j := by
  rw [deriveCoreKey_input, deriveCoreKey_input] at he
  have hin : ∀ (z : W × List Index) k, z ∈ index → k < Spec.blockCount page z.2.length →
      Spec.blockInput (prf z.1) k ∈ Spec.inputs prf (fun x => Spec.blockCount page x.2.length) index := by
    intro z k hz hk
    exact List.mem_flatMap.mpr ⟨z, hz, List.mem_map.mpr ⟨k, List.mem_range.mpr hk, rfl⟩⟩
  have hc := h.counters x hx
  have hc' := h.counters y hy
  obtain ⟨h1, h2⟩ := blockInput_inj (by omega) (by omega) (h.hashes _ (hin x i hx hi) _ (hin y j hy hj) he)
  exact ⟨h.tokens x hx y hy h1, h2⟩

/-- The blocks stored with the key of block `i` of the keyword of `x` -/
theorem blocksOf_filter {page n : Nat} {prf : W → Token} {H : List UInt8 → CoreKey}
    {index : List (W × List Index)} (h : Spec.RepeatOk page n prf H index) {x : W × List Index} (hx : x ∈ index)
    {i : Nat} (hi : i < Spec.blockCount page x.2.length) :
    (blocksOf page prf H index).filter (fun b => decide (b.1 = deriveCoreKey H (prf x.1) i)) =
      (listsOf index x.1).flatMap (fun z => ((cut (page / 8 - 6) [] z.2)[i]?).toList.map
        (fun b => (deriveCoreKey H (prf x.1) i, b))) := by
  have hm : 0 < page / 8 - 6 := by have := h.room; omega
  have hlen : ∀ z : W × List Index, (cut (page / 8 - 6) [] z.2).length = Spec.blockCount page z.2.length := by
    intro z
    rw [cut_length hm (by simpa using hm)]
    simp [Spec.blockCount]
  have key : ∀ l : List (W × List Index), (∀ z ∈ l, z ∈ index) →
      (blocksOf page prf H l).filter (fun b => decide (b.1 = deriveCoreKey H (prf x.1) i)) =
      (listsOf l x.1).flatMap (fun z => ((cut (page / 8 - 6) [] z.2)[i]?).toList.map
        (fun b => (deriveCoreKey H (prf x.1) i, b))) := by
    intro l hl
    induction l with
    | nil => rfl
    | cons z l ih =>
      have hz := hl z (List.mem_cons_self ..)
      have ih := ih (fun y hy => hl y (List.mem_cons_of_mem _ hy))
      have hblocks : blocksOf page prf H (z :: l) =
          keyed (deriveCoreKey H (prf z.1)) 0 (cut (page / 8 - 6) [] z.2) ++ blocksOf page prf H l := rfl
      rw [hblocks, List.filter_append, ih]
      unfold listsOf
      rw [List.filter_cons]
      by_cases hk : z.1 = x.1
      · rw [keyed_filter (i := i)]
        · simp [hk]
        · intro j _ hj
          rw [Nat.zero_add, hlen] at hj
          constructor
          · intro he; exact (h.key_inj hz hx hj hi he).2
          · intro he; rw [he, hk]
      · rw [keyed_filter_none]
        · simp [hk]
        · intro j _ hj he
          rw [Nat.zero_add, hlen] at hj
          exact hk (h.key_inj hz hx hj hi he).1
  exact key index (fun z hz => hz)

theorem repeat_spec (page n : Nat) (hash : CoreKey → UInt64 × UInt64)
    (prf : W → Token) (H : List UInt8 → CoreKey) (enc : ValueEncoder) (index : List (W × List Index))
    (hok : Spec.RepeatOk page n prf H index) :
    ∃ fs counters, schemeBuild page n hash prf H enc index none = .ok (fs, counters) ∧
      (∀ w, (∀ x ∈ index, x.1 ≠ w) → schemeSearch hash prf H enc fs counters w = .ok []) ∧
      ∀ w x, (listsOf index w).getLast? = some x →
        ∃ r, schemeSearch hash prf H enc fs counters w = .ok r ∧
        r.Subperm ((listsOf index w).flatMap
          (fun z => ((cut (page / 8 - 6) [] z.2).take (Spec.blockCount page x.2.length)).flatten)) ∧
        ((listsOf index w).length = 1 → (∀ y ∈ index, y.2.length % (page / 8 - 6) ≠ 0) → r.Perm x.2) := by
  have hroom := hok.room
  have hm : 0 < page / 8 - 6 := by omega
  have hs : SmallEnough page (blocksOf page prf H index) := by
    unfold SmallEnough
    rw [sum_blocksOf hm]
    exact hok.total
  have hfits : ∀ y ∈ blocksOf page prf H index, y.2.length + 6 ≤ page / 8 := by
    intro y hy
    obtain ⟨x, hx, hy⟩ := List.mem_flatMap.mp hy
    have := cut_length_le hm (block := []) (ids := x.2) (by simpa using hm) _ (mem_keyed hy)
    omega
  have hfilter : (blocksOf page prf H index).filter (fits page) = blocksOf page prf H index := by
    rw [List.filter_eq_self]
    intro y hy
    exact decide_eq_true (hfits y hy)
  obtain ⟨st, h1, h2⟩ := getList_any page n hash enc (blocksOf page prf H index) hok.buckets
    hok.aligned hok.small hs
  unfold openStore buildStore at h1
  obtain ⟨b0, -, -, hb0, -⟩ := insertAll_builder hash hok.buckets (blocksOf page prf H index) hs
  rw [hb0] at h1
  simp only at h1
  cases hbuild : (b0.insertAll (blocksOf page prf H index)).build enc none with
  | error f => rw [hbuild] at h1; simp at h1
  | ok fs =>
    rw [hbuild] at h1
    simp only at h1
    have hindex := insertIndex_spec hok.buckets hb0 hm prf H index [] Map.empty (by simpa using hs)
    rw [List.nil_append] at hindex
    have hb0' : b0.insertAll [] = b0 := rfl
    rw [hb0'] at hindex
    have hload : loadStash fs.stash = .ok st.stash ∧ st.table = fs.table ∧ st.hash = hash := by
      unfold Store.open at h1
      cases hl : loadStash fs.stash with
      | error f => rw [hl] at h1; simp at h1
      | ok m => rw [hl] at h1; cases h1; exact ⟨rfl, rfl, rfl⟩
    have hst : (Store.mk fs.table hash st.stash) = st := by
      rw [← hload.2.1, ← hload.2.2]
    refine ⟨fs, countersOf page index Map.empty, ?_, ?_, ?_⟩
    · unfold schemeBuild
      rw [hb0]
      simp only
      rw [hindex]
      simp only
      rw [hbuild]
    · intro w hw
      have hcnt : countersOf page index Map.empty w = none := by
        have hl : listsOf index w = [] := by
          unfold listsOf
          rw [List.filter_eq_nil_iff]
          intro x hx
          simpa using hw x hx
        rw [countersOf_last, hl]
        rfl
      unfold schemeSearch Client.open
      rw [hload.1]
      simp only [Store.open, loadStash]
      unfold serverSearch Client.searchRequest
      simp only [hcnt, Option.getD_none]
      rfl
    · intro w x hlast
      have hxl : x ∈ listsOf index w := List.mem_of_getLast? hlast
      obtain ⟨hx, hxw⟩ : x ∈ index ∧ x.1 = w := by
        unfold listsOf at hxl
        rwa [List.mem_filter, decide_eq_true_eq] at hxl
      subst hxw
      have hcnt : countersOf page index Map.empty x.1 =
          some (UInt32.ofNat (x.2.length / (page / 8 - 6) + 1)) := by
        rw [countersOf_last, hlast]
      have hblocks : (UInt32.ofNat (x.2.length / (page / 8 - 6) + 1)).toNat = Spec.blockCount page x.2.length := by
        rw [UInt32.toNat_ofNat']
        exact Nat.mod_eq_of_lt (hok.counters x hx)
      let f : Nat → List Index := fun i => match st.getList enc (deriveCoreKey H (prf x.1) i) with
        | .ok r => r
        | .error _ => []
      have hf : ∀ i, st.getList enc (deriveCoreKey H (prf x.1) i) = .ok (f i) := by
        intro i
        obtain ⟨r, hr, -⟩ := h2 (deriveCoreKey H (prf x.1) i)
        simp only [f]
        rw [hr]
      -- what each block returns
      have hblk : ∀ i ∈ List.range (Spec.blockCount page x.2.length),
          (f i).Subperm ((listsOf index x.1).flatMap (fun z => ((cut (page / 8 - 6) [] z.2)[i]?).getD [])) ∧
          ((listsOf index x.1).length = 1 → (∀ y ∈ index, y.2.length % (page / 8 - 6) ≠ 0) →
            (f i).Perm (((cut (page / 8 - 6) [] x.2)[i]?).getD [])) := by
        intro i hi
        have hi := List.mem_range.mp hi
        obtain ⟨r, h3, h4, h5⟩ := h2 (deriveCoreKey H (prf x.1) i)
        have hfi : f i = r := by simp only [f]; rw [h3]
        have hv : valuesOf page (blocksOf page prf H index) (deriveCoreKey H (prf x.1) i) =
            (listsOf index x.1).flatMap (fun z => ((cut (page / 8 - 6) [] z.2)[i]?).getD []) := by
          unfold valuesOf
          rw [hfilter, blocksOf_filter hok hx hi, List.flatMap_assoc]
          congr 1
          funext z
          cases (cut (page / 8 - 6) [] z.2)[i]? <;> simp
        rw [hfi]
        refine ⟨hv ▸ h4, fun hone hne => ?_⟩
        obtain ⟨y, hy⟩ := List.length_eq_one_iff.mp hone
        have hyx : y = x := by
          rw [hy] at hxl
          exact (List.mem_singleton.mp hxl).symm
        subst hyx
        have hcl : (cut (page / 8 - 6) [] y.2).length = Spec.blockCount page y.2.length := by
          rw [cut_length hm (by simpa using hm)]; simp [Spec.blockCount]
        rw [hy, List.flatMap_cons, List.flatMap_nil, List.append_nil] at hv
        rw [← hv]
        apply h5
        · rw [hfilter, blocksOf_filter hok hx hi, hy]
          have hget := List.getElem?_eq_getElem (l := cut (page / 8 - 6) [] y.2) (i := i) (by omega)
          rw [List.flatMap_cons, hget]
          simp
        · intro z hz _
          obtain ⟨t, ht, hz⟩ := List.mem_flatMap.mp hz
          exact cut_ne_nil hm (block := []) (ids := t.2) (by simpa using hm)
            (by simpa using hne t ht) _ (mem_keyed hz)
      obtain ⟨ps, h7, h8⟩ := search_blocks H ⟨fs.table, hash, Map.empty⟩ st.stash
        (⟨st.stash, countersOf page index Map.empty, prf, enc⟩ : Client W) rfl (prf x.1)
        (List.range (Spec.blockCount page x.2.length)) f (by
          intro i _
          simp only
          rw [hst]
          exact hf i)
      have hsearch : schemeSearch hash prf H enc fs (countersOf page index Map.empty) x.1 =
          .ok ((List.range (Spec.blockCount page x.2.length)).flatMap f) := by
        unfold schemeSearch Client.open
        rw [hload.1]
        simp only [Store.open, loadStash]
        unfold serverSearch Client.searchRequest
        simp only [hcnt, Option.getD_some]
        rw [hblocks, h7]
        simp only
        exact h8
      refine ⟨_, hsearch, ?_, ?_⟩
      · refine (subperm_flatMap _ f _ (fun i hi => (hblk i hi).1)).trans (List.Perm.subperm ?_)
        refine (flatMap_swap _ _ _).trans ?_
        simp only [range_flatMap_take]
        exact List.Perm.refl _
      · intro hone hne
        refine (perm_flatMap _ f _ (fun i hi => (hblk i hi).2 hone hne)).trans ?_
        rw [range_flatMap_take, List.take_of_length_le, cut_flatten]
        · simp
        · rw [cut_length hm (by simpa using hm)]; simp [Spec.blockCount]

/-- **C59 (part that holds)**: whatever lists are given, in any number for each keyword, building and searching never fault;
a search returns documents of the keyword only, each at most as often as in its lists. Missing: all documents, see
`C59_shorter_list_violated` and `C59_two_lists_violated`. -/
theorem C59_sound_partial (page n : Nat) (hash : CoreKey → UInt64 × UInt64)
    (prf : W → Token) (H : List UInt8 → CoreKey) (enc : ValueEncoder) (index : List (W × List Index))
    (hok : Spec.RepeatOk page n prf H index) :
    ∃ fs counters, schemeBuild page n hash prf H enc index none = .ok (fs, counters) ∧
      ∀ w, ∃ r, schemeSearch hash prf H enc fs counters w = .ok r ∧ r.Subperm (Spec.docs index w) := by
  obtain ⟨fs, c, h1, h2, h3⟩ := repeat_spec page n hash prf H enc index hok
  refine ⟨fs, c, h1, fun w => ?_⟩
  cases hl : (listsOf index w).getLast? with
  | none =>
    refine ⟨[], h2 w ?_, List.nil_subperm⟩
    intro x hx hxw
    have : x ∈ listsOf index w := by
      unfold listsOf; rw [List.mem_filter, decide_eq_true_eq]; exact ⟨hx, hxw⟩
    rw [List.getLast?_eq_none_iff.mp hl] at this
    cases this
  | some x =>
    obtain ⟨r, h4, h5, -⟩ := h3 w x hl
    refine ⟨r, h4, h5.trans (subperm_flatMap _ _ _ fun z _ => ?_)⟩
    have : z.2 = (cut (page / 8 - 6) [] z.2).flatten := by rw [cut_flatten]; simp
    conv_rhs => rw [this]
    exact ((List.take_sublist _ _).flatten).subperm

/-- **C59 (part that holds)**: a keyword with one list is answered exactly, even if other keywords have several lists,
provided no list has a length that is a multiple of the block size (see `C26_multiple_of_block_size_loses_data`). -/
theorem C59_others_partial (page n : Nat) (hash : CoreKey → UInt64 × UInt64)
    (prf : W → Token) (H : List UInt8 → CoreKey) (enc : ValueEncoder) (index : List (W × List Index))
    (hok : Spec.RepeatOk page n prf H index) (hmul : ∀ x ∈ index, x.2.length % (page / 8 - 6) ≠ 0) :
    ∃ fs counters, schemeBuild page n hash prf H enc index none = .ok (fs, counters) ∧
      ∀ w, (index.filter (fun x => decide (x.1 = w))).length ≤ 1 →
        ∃ r, schemeSearch hash prf H enc fs counters w = .ok r ∧ r.Perm (Spec.docs index w) := by
  obtain ⟨fs, c, h1, h2, h3⟩ := repeat_spec page n hash prf H enc index hok
  refine ⟨fs, c, h1, fun w hw => ?_⟩
  change (listsOf index w).length ≤ 1 at hw
  unfold Spec.docs
  change ∃ r : List Index, _ ∧ r.Perm ((listsOf index w).flatMap Prod.snd)
  cases hl : listsOf index w with
  | nil =>
    refine ⟨[], h2 w ?_, List.Perm.refl _⟩
    intro x hx hxw
    have : x ∈ listsOf index w := by
      unfold listsOf; rw [List.mem_filter, decide_eq_true_eq]; exact ⟨hx, hxw⟩
    rw [hl] at this
    cases this
  | cons x l =>
    rw [hl] at hw
    have hnil : l = [] := by
      cases l with
      | nil => rfl
      | cons y l => simp at hw
    subst hnil
    obtain ⟨r, h4, -, h5⟩ := h3 w x (by rw [hl]; rfl)
    refine ⟨r, h4, ?_⟩
    simpa using h5 (by rw [hl]; rfl) hmul

/-- **C59 is violated whenever the last list of a keyword has fewer blocks than another**: the documents of the blocks beyond
are not found, whatever the parameters. -/
theorem C59_shorter_list_violated (page n : Nat) (hash : CoreKey → UInt64 × UInt64)
    (prf : W → Token) (H : List UInt8 → CoreKey) (enc : ValueEncoder) (index : List (W × List Index))
    (hok : Spec.RepeatOk page n prf H index) (w : W) (x y : W × List Index)
    (hx : (index.filter (fun x => decide (x.1 = w))).getLast? = some x) (hy : y ∈ index) (hyw : y.1 = w)
    (hlt : Spec.blockCount page x.2.length * (page / 8 - 6) < y.2.length) :
    ∃ fs counters, schemeBuild page n hash prf H enc index none = .ok (fs, counters) ∧
      ∀ r, schemeSearch hash prf H enc fs counters w = .ok r → r.length < (Spec.docs index w).length := by
  obtain ⟨fs, c, h1, -, h3⟩ := repeat_spec page n hash prf H enc index hok
  refine ⟨fs, c, h1, fun r hr => ?_⟩
  obtain ⟨r', h4, h5, -⟩ := h3 w x hx
  rw [hr] at h4
  cases h4
  refine Nat.lt_of_le_of_lt h5.length_le ?_
  have hm : 0 < page / 8 - 6 := by have := hok.room; omega
  have hyl : y ∈ listsOf index w := by
    unfold listsOf; rw [List.mem_filter, decide_eq_true_eq]; exact ⟨hy, hyw⟩
  have htake : ∀ (xs : List (List Index)) (b max : Nat), (∀ l ∈ xs, l.length ≤ max) →
      (xs.take b).flatten.length ≤ b * max := by
    intro xs
    induction xs with
    | nil => intro b max _; simp
    | cons l xs ih =>
      intro b max h
      cases b with
      | zero => simp
      | succ b =>
        have h1 := h l (List.mem_cons_self ..)
        have h2 := ih b max (fun l hl => h l (List.mem_cons_of_mem _ hl))
        rw [List.take_succ_cons, List.flatten_cons, List.length_append, Nat.succ_mul]
        omega
  unfold Spec.docs
  change _ < ((listsOf index w).flatMap Prod.snd).length
  have hle : ∀ z : W × List Index,
      ((cut (page / 8 - 6) [] z.2).take (Spec.blockCount page x.2.length)).flatten.length ≤ z.2.length := by
    intro z
    have : z.2 = (cut (page / 8 - 6) [] z.2).flatten := by rw [cut_flatten]; simp
    conv_rhs => rw [this]
    exact ((List.take_sublist _ _).flatten).length_le
  have hyy : ((cut (page / 8 - 6) [] y.2).take (Spec.blockCount page x.2.length)).flatten.length < y.2.length :=
    Nat.lt_of_le_of_lt (htake _ _ _ (cut_length_le hm (by simpa using hm))) hlt
  generalize listsOf index w = F at hyl
  clear h5 h3 hx
  have hlen : ∀ F : List (W × List Index),
      (F.flatMap (fun z => ((cut (page / 8 - 6) [] z.2).take (Spec.blockCount page x.2.length)).flatten)).length ≤
        (F.flatMap Prod.snd).length := by
    intro F
    induction F with
    | nil => simp
    | cons z F ih =>
      rw [List.flatMap_cons, List.flatMap_cons, List.length_append, List.length_append]
      exact Nat.add_le_add (hle z) ih
  induction F with
  | nil => cases hyl
  | cons z F ih =>
    rw [List.flatMap_cons, List.flatMap_cons, List.length_append, List.length_append]
    rcases List.mem_cons.mp hyl with rfl | h
    · exact Nat.add_lt_add_of_lt_of_le hyy (hlen F)
    · exact Nat.add_lt_add_of_le_of_lt (hle z) (ih h)

/-! ## Concrete cases -/

/-- Keyword 1 with a list of two blocks, then one of one block; keyword 2 once -/
def Sample.repeated : List (Nat × List Index) := [(1, [1, 2, 3, 4, 5, 6, 7, 8]), (2, [9, 10]), (1, [11])]

theorem sample_repeated_ok : Spec.RepeatOk 104 4 Sample.prf Sample.H Sample.repeated where
  buckets := by decide
  aligned := by decide
  small := by decide
  room := by decide
  total := by decide
  counters := by decide
  tokens := by decide
  hashes := by decide

/-- The hypotheses of the theorems above -/
example : (∀ x ∈ Sample.repeated, x.2.length % (104 / 8 - 6) ≠ 0) ∧
    (Sample.repeated.filter (fun x => decide (x.1 = 2))).length ≤ 1 ∧ Spec.docs Sample.repeated 1 ≠ [] := by decide

/-- The hypotheses of `C59_shorter_list_violated` -/
example : (Sample.repeated.filter (fun x => decide (x.1 = 1))).getLast? = some (1, [11]) ∧
    Spec.blockCount 104 1 * (104 / 8 - 6) < [1, 2, 3, 4, 5, 6, 7, 8].length := by decide

/-- **C59 is violated by two lists of one block**: one of them is lost. -/
theorem C59_two_lists_violated : Sample.search 104 2 [(1, [1, 2]), (1, [3])] 1 = .ok [1, 2] := by
  decide +kernel

end Verif.Tethys
