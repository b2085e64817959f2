import Verif.Generator.RandLemmas

/-!
# C45 and C47: documents and groups of the random database generator
-/

namespace Verif.Generator

open Spec

/-! ## C45 -/

/-- **C45 (part that holds)**: whatever the number of threads (at least one), the random draws and the schedule,
`gen_db(N)` generates `N` documents: it counts `N` documents, and the calls of the callback are, in some order, for
each document `p < N` its 15 keywords (each once) and at most five keywords of random groups, all with the identifier
drawn for the document; the reported number of entries is the number of calls. Missing: `N` so close to 2^64 that the
counter of the loop overflows, see `C45_overflow_violated`. -/
theorem C45_documents_partial (P : Params) (threads : UInt32) (hn : threads ≠ 0)
    (hfit : P.entries.toNat + threads.toNat ≤ 2 ^ 64) (rnd : Nat → Nat → UInt64) (tr : List Action)
    (h : GenDb P threads rnd tr) :
    docs tr = P.entries ∧ entries tr = UInt64.ofNat (callbacks tr).length ∧
    ∃ extra : Nat → List String,
      (∀ p, (extra p).length ≤ 5 ∧ ∀ kw ∈ extra p, ∃ rest, kw = "Group-rand-10^" ++ rest) ∧
      (callbacks tr).Perm ((List.range P.entries.toNat).flatMap fun p =>
        (keywords (p % threads.toNat) (p / threads.toNat)
            (rnd (p % threads.toNat) (p / threads.toNat)).toNat ++ extra p).map
          (fun kw => (kw, rnd (p % threads.toNat) (p / threads.toNat)))) := by
  have hpos : 0 < threads.toNat := Nat.pos_of_ne_zero (fun e => hn (UInt32.toNat_inj.mp e))
  obtain ⟨D, hD, hp⟩ := genDb_blocks P threads rnd tr hpos hfit h
  have hc : (callbacks tr).Perm (callbacks ((List.range P.entries.toNat).flatMap D)) := hp.filterMap _
  refine ⟨?_, ?_, ?_⟩
  · rw [docs_perm hp, docs_flatMap _ _ (fun p hp => (hD p (List.mem_range.mp hp)).1), List.length_range]
    simp
  · rw [entries_perm hp, entries_flatMap _ _ (fun p hp => (hD p (List.mem_range.mp hp)).2.1), hc.length_eq]
  · have : ∀ p, ∃ ins : List String, p < P.entries.toNat →
        ins.length ≤ 5 ∧ (∀ kw ∈ ins, ∃ rest, kw = "Group-rand-10^" ++ rest) ∧
        callbacks (D p) = (keywords (p % threads.toNat) (p / threads.toNat)
            (rnd (p % threads.toNat) (p / threads.toNat)).toNat ++ ins).map
          (fun kw => (kw, rnd (p % threads.toNat) (p / threads.toNat))) := by
      intro p
      by_cases hlt : p < P.entries.toNat
      · obtain ⟨ins, h1, h2, -, h3⟩ := (hD p hlt).2.2
        exact ⟨ins, fun _ => ⟨h1, h2, h3⟩⟩
      · exact ⟨[], fun h => absurd h hlt⟩
    choose ins hins using this
    refine ⟨fun p => if p < P.entries.toNat then ins p else [], ?_, ?_⟩
    · intro p
      dsimp only
      split
      · rename_i hlt; exact ⟨(hins p hlt).1, (hins p hlt).2.1⟩
      · simp
    · rw [callbacks_flatMap] at hc
      refine hc.trans (List.Perm.of_eq ?_)
      apply List.flatMap_congr
      intro p hlt
      rw [List.mem_range] at hlt
      rw [(hins p hlt).2.2]
      simp only [if_pos hlt]

/-- **C45 (part that holds)**: under the same hypotheses `gen_db` terminates, and no thread divides by zero or accesses
a table of random groups out of bounds. -/
theorem C45_terminates_partial (P : Params) (threads : UInt32) (hn : threads ≠ 0)
    (hfit : P.entries.toNat + threads.toNat ≤ 2 ^ 64) (rnd : Nat → Nat → UInt64) :
    (∃ tr, GenDb P threads rnd tr) ∧
    ∀ t : UInt32, ¬ Faults P t threads.toUInt64 (rnd t.toNat) (St.init P t) := by
  have hpos : 0 < threads.toNat := Nat.pos_of_ne_zero (fun e => hn (UInt32.toNat_inj.mp e))
  constructor
  · choose L hL using fun t : Nat =>
      loop_exists P (UInt32.ofNat t) threads (rnd t) hpos hfit _ 0 (inv_init P _ threads)
    obtain ⟨tr, htr⟩ := interleaves_exists ((List.range threads.toNat).map L)
    refine ⟨tr, _, by simp, ?_, htr⟩
    intro t M hM
    rw [List.getElem?_map] at hM
    by_cases ht : t < threads.toNat
    · rw [List.getElem?_range ht] at hM
      obtain rfl := Option.some.inj hM
      exact hL t
    · rw [List.getElem?_eq_none (by simpa using ht)] at hM; cases hM
  · intro t hf
    exact not_faults P t threads (rnd t.toNat) hpos hfit _ hf 0 (inv_init P t threads)

/-- **C45 is violated**: for `N = 2^64 - 1` and two threads, the counter of the first thread overflows and the
generation never ends. -/
theorem C45_overflow_violated (P : Params) (h : P.entries = 0xffffffffffffffff) (rnd : Nat → Nat → UInt64) :
    ¬ ∃ tr, GenDb P 2 rnd tr := by
  rintro ⟨tr, Ls, hlen, hL, -⟩
  have h2 : (2 : UInt32).toNat = 2 := rfl
  rw [h2] at hlen
  have h0 : Ls[0]? = some Ls[0] := List.getElem?_eq_getElem (by omega)
  have hloop := hL 0 _ h0
  have key : ∀ s L, Loop P (UInt32.ofNat 0) (2 : UInt32).toUInt64 (rnd 0) s L → s.counter.toNat % 2 = 0 → False := by
    intro s L hl
    induction hl with
    | done s hd =>
      intro he
      rw [UInt64.lt_iff_toNat_lt, h] at hd
      have h1 := s.counter.toNat_lt
      have h2 : (0xffffffffffffffff : UInt64).toNat = 2 ^ 64 - 1 := rfl
      rw [h2] at hd
      omega
    | iter s s' acts rest _ hi _ ih =>
      intro he
      apply ih
      unfold Generator.iter at hi
      split at hi
      · cases hi
      · have := (Prod.mk.inj (Except.ok.inj hi)).1
        rw [← this]
        dsimp only
        rw [UInt64.toNat_add]
        have h2 : (2 : UInt32).toUInt64.toNat = 2 := rfl
        rw [h2]
        omega
  exact key _ _ hloop rfl

/-- Remark (outside the quantifier of C45): when `hardware_concurrency()` is 0 (number unknown), nothing is
generated. -/
theorem C45_no_threads (P : Params) (rnd : Nat → Nat → UInt64) (tr : List Action) (h : GenDb P 0 rnd tr) : tr = [] := by
  obtain ⟨Ls, hlen, -, hI⟩ := h
  have : Ls = [] := List.length_eq_zero_iff.mp hlen
  subst this
  have := interleaves_perm hI
  simpa using this

/-- Parameters for 3000 documents and one thread: 22 groups of the first kind and 2 of the second; the thresholds are
passed by draws below 2^63. -/
def toyParams : Params where
  entries := 3000
  nGroups r := match r with
    | .r2 => 22
    | .r3 => 2
    | _ => 0
  below r ind := match r with
    | .r2 => decide (ind < 0x8000000000000000)
    | .r3 => decide (ind < 0x8000000000000000)
    | _ => false
  below_groups := by intro r ind h; cases r <;> simp_all

example : ∃ tr, GenDb toyParams 7 (fun t i => UInt64.ofNat (t * 1000 + i)) tr ∧ docs tr = 3000 ∧
    45000 ≤ (callbacks tr).length := by
  obtain ⟨tr, h⟩ := (C45_terminates_partial toyParams 7 (by decide) (by decide)
    (fun t i => UInt64.ofNat (t * 1000 + i))).1
  obtain ⟨h1, -, extra, -, h2⟩ := C45_documents_partial toyParams 7 (by decide) (by decide) _ tr h
  refine ⟨tr, h, h1, ?_⟩
  rw [h2.length_eq, List.length_flatMap]
  have hN : toyParams.entries.toNat = 3000 := rfl
  rw [hN]
  have : ∀ l : List Nat, ∀ f : Nat → Nat, (∀ p, 15 ≤ f p) → 15 * l.length ≤ (l.map f).sum := by
    intro l f hf
    induction l with
    | nil => simp
    | cons a l ih => have := hf a; simp only [List.map_cons, List.sum_cons, List.length_cons]; omega
  refine Nat.le_trans (by simp) (this (List.range 3000) _ ?_)
  intro p
  simp [keywords, percents, families]

/-! ## C47 -/

/-- **C47 (part that holds)**: a group of a family of fixed size `s` which has been completed (thread `t` has generated
its last document) is reported for exactly `s` documents, whatever else is generated. Missing: `N` close to 2^64 (C45),
and groups from number 2^32 - 2 on, after which the code stops counting. -/
theorem C47_group_size_partial (P : Params) (threads : UInt32) (hn : threads ≠ 0)
    (hfit : P.entries.toNat + threads.toNat ≤ 2 ^ 64) (rnd : Nat → Nat → UInt64) (tr : List Action)
    (h : GenDb P threads rnd tr) (base : String) (s : Nat) (hf : (base, s) ∈ families) (t c : Nat)
    (ht : t < threads.toNat) (hc : c < 2 ^ 32 - 2)
    (hdone : t + ((c + 1) * s - 1) * threads.toNat < P.entries.toNat) :
    ((callbacks tr).map (·.1)).count s!"{base}{t}_{c}" = s := by
  have hpos : 0 < threads.toNat := Nat.pos_of_ne_zero (fun e => hn (UInt32.toNat_inj.mp e))
  obtain ⟨-, -, extra, hex, hp⟩ := C45_documents_partial P threads hn hfit rnd tr h
  rw [(hp.map (·.1)).count_eq, List.map_flatMap]
  simp only [List.map_map, Function.comp_def, List.map_id']
  rw [count_flatMap_ite (List.range P.entries.toNat) _ _
    (fun p => decide (p % threads.toNat = t ∧ p / threads.toNat / s = c))]
  · exact numbers_count _ _ _ _ _ hpos (families_pos _ hf) ht hdone
  · intro p
    rw [List.count_append, count_extra (base, s) hf t c _ (hex p).2, Nat.add_zero,
      count_keywords (base, s) hf]
    have : group s (p / threads.toNat) = c ↔ p / threads.toNat / s = c := by
      unfold group; omega
    simp only [this, decide_eq_true_eq]

/-- **C47 (part that holds)**, random groups: such a group is never reported for more documents than announced, for the
groups announced with 10^3 documents up to the 100 documents of the groups which wrongly have the same name, see
`C47_random_groups_violated`. -/
theorem C47_random_bound_partial (P : Params) (threads : UInt32) (hn : threads ≠ 0)
    (hfit : P.entries.toNat + threads.toNat ≤ 2 ^ 64) (rnd : Nat → Nat → UInt64) (tr : List Action)
    (h : GenDb P threads rnd tr) (base : String) (s : Nat) (hf : (base, s) ∈ randomFamilies) (t g : Nat) :
    ((callbacks tr).map (·.1)).count s!"{base}{t}_{g}" ≤ s := by
  have hpos : 0 < threads.toNat := Nat.pos_of_ne_zero (fun e => hn (UInt32.toNat_inj.mp e))
  obtain ⟨r0, hr0, hs⟩ : ∃ r0 : RandId, r0.base = base ∧
      ∀ tables, budget r0.base g randOrder tables ≤ s := by
    simp only [randomFamilies, List.mem_cons, List.not_mem_nil, or_false, Prod.mk.injEq] at hf
    rcases hf with ⟨rfl, rfl⟩ | ⟨rfl, rfl⟩ | ⟨rfl, rfl⟩ | ⟨rfl, rfl⟩
    · exact ⟨.r3, rfl, fun tables => Nat.le_trans (budget_le ..) (by decide +kernel)⟩
    · exact ⟨.r4, rfl, fun tables => Nat.le_trans (budget_le ..) (by decide +kernel)⟩
    · exact ⟨.r5, rfl, fun tables => Nat.le_trans (budget_le ..) (by decide +kernel)⟩
    · exact ⟨.r6, rfl, fun tables => Nat.le_trans (budget_le ..) (by decide +kernel)⟩
  subst hr0
  obtain ⟨Ls, hlen, hL, hI⟩ := h
  have hp := interleaves_perm hI
  have hc : (callbacks tr).Perm (callbacks Ls.flatten) := hp.filterMap _
  rw [(hc.map _).count_eq]
  have hflat : ∀ Ms : List (List Action), ((callbacks Ms.flatten).map (·.1)).count s!"{r0.base}{t}_{g}" =
      (Ms.map (fun L => ((callbacks L).map (·.1)).count s!"{r0.base}{t}_{g}")).sum := by
    intro Ms
    induction Ms with
    | nil => rfl
    | cons M Ms ih =>
      rw [List.flatten_cons, callbacks_append, List.map_append, List.count_append, ih]
      rfl
  rw [hflat]
  apply sum_single _ t
  · intro i x hx hne
    rw [List.getElem?_map, Option.map_eq_some_iff] at hx
    obtain ⟨L, hLi, rfl⟩ := hx
    refine (loop_rand P _ threads (rnd i) hpos hfit r0 t g _ L (hL i L hLi) 0 (inv_init P _ threads)).1 ?_
    have hi := (List.getElem?_eq_some_iff.mp hLi).1
    have := threads.toNat_lt
    rw [UInt32.toNat_ofNat', Nat.mod_eq_of_lt (by omega)]
    exact hne
  · intro x hx
    rw [List.getElem?_map, Option.map_eq_some_iff] at hx
    obtain ⟨L, hLi, rfl⟩ := hx
    exact Nat.le_trans
      (loop_rand P _ threads (rnd t) hpos hfit r0 t g _ L (hL t L hLi) 0 (inv_init P _ threads)).2 (hs _)

/-- **C47 (part that holds)**: the keywords reported for one document are distinct when the draw does not pass both the
threshold of the groups of 100 documents and that of the groups of 1000 documents; in general at most the keywords that
these two kinds of groups wrongly share are reported twice, and never three times. (Two documents for which the same
identifier is drawn are two documents.) -/
theorem C47_no_duplicates_partial (P : Params) (threads : UInt32) (hn : threads ≠ 0)
    (hfit : P.entries.toNat + threads.toNat ≤ 2 ^ 64) (rnd : Nat → Nat → UInt64) (tr : List Action)
    (h : GenDb P threads rnd tr) :
    ∃ kws : Nat → List String,
      (callbacks tr).Perm ((List.range P.entries.toNat).flatMap fun p =>
        (kws p).map (fun kw => (kw, rnd (p % threads.toNat) (p / threads.toNat)))) ∧
      (∀ p, P.below .r2 (rnd (p % threads.toNat) (p / threads.toNat)) = false ∨
        P.below .r3 (rnd (p % threads.toNat) (p / threads.toNat)) = false → (kws p).Nodup) ∧
      ∀ p kw, (kws p).count kw ≤ 2 ∧
        ((∀ g : Nat, kw ≠ s!"Group-rand-10^3_{p % threads.toNat}_{g}") → (kws p).count kw ≤ 1) := by
  have hpos : 0 < threads.toNat := Nat.pos_of_ne_zero (fun e => hn (UInt32.toNat_inj.mp e))
  obtain ⟨D, hD, hp⟩ := genDb_blocks P threads rnd tr hpos hfit h
  have hc : (callbacks tr).Perm (callbacks ((List.range P.entries.toNat).flatMap D)) := hp.filterMap _
  have : ∀ p, ∃ ins : List String, p < P.entries.toNat →
      RandIns P (p % threads.toNat) (rnd (p % threads.toNat) (p / threads.toNat)) randOrder ins ∧
      callbacks (D p) = (keywords (p % threads.toNat) (p / threads.toNat)
          (rnd (p % threads.toNat) (p / threads.toNat)).toNat ++ ins).map
        (fun kw => (kw, rnd (p % threads.toNat) (p / threads.toNat))) := by
    intro p
    by_cases hlt : p < P.entries.toNat
    · obtain ⟨ins, -, -, h1⟩ := (hD p hlt).2.2
      exact ⟨ins, fun _ => h1⟩
    · exact ⟨[], fun h => absurd h hlt⟩
  choose ins hins using this
  refine ⟨fun p => if p < P.entries.toNat then keywords (p % threads.toNat) (p / threads.toNat)
          (rnd (p % threads.toNat) (p / threads.toNat)).toNat ++ ins p else [], ?_, ?_, ?_⟩
  · rw [callbacks_flatMap] at hc
    refine hc.trans (List.Perm.of_eq ?_)
    apply List.flatMap_congr
    intro p hlt
    rw [List.mem_range] at hlt
    rw [(hins p hlt).2]
    simp only [if_pos hlt]
  · intro p hb
    dsimp only
    split
    · rename_i hlt
      exact keywords_nodup _ _ _ _ _ _ (hins p hlt).1 hb
    · simp
  · intro p kw
    dsimp only
    split
    · rename_i hlt
      exact keywords_count_le _ _ _ _ _ _ (hins p hlt).1 kw
    · simp

/-- **C47 is violated** for the random groups: the groups of nominal size 100 and 1000 have the same keywords. With
one thread and a first draw of 0, keyword `Group-rand-10^3_0_0` is reported twice for the first document, as soon as
both kinds of groups exist. -/
theorem C47_random_groups_violated (P : Params) (rnd : Nat → Nat → UInt64) (tr : List Action)
    (hN : 0 < P.entries.toNat)
    (h2 : P.below .r2 0 = true) (h3 : P.below .r3 0 = true) (h0 : rnd 0 0 = 0) (h : GenDb P 1 rnd tr) :
    2 ≤ (callbacks tr).count ("Group-rand-10^3_0_0", 0) := by
  obtain ⟨Ls, hlen, hL, hI⟩ := h
  have e1 : (1 : UInt32).toNat = 1 := rfl
  rw [e1] at hlen
  have hget : Ls[0]? = some Ls[0] := List.getElem?_eq_getElem (by omega)
  have hLs : Ls = [Ls[0]] := by
    apply List.ext_getElem (by simpa using hlen)
    intro i h1 h2
    have : i = 0 := by simp at h2; omega
    subst this; rfl
  have hloop := hL 0 _ hget
  have hp := interleaves_perm hI
  rw [hLs, List.flatten_singleton] at hp
  have hc : (callbacks tr).Perm (callbacks Ls[0]) := hp.filterMap _
  rw [hc.count_eq]
  generalize Ls[0] = L at hloop
  cases hloop with
  | done _ hd =>
    exfalso
    apply hd
    rw [UInt64.lt_iff_toNat_lt]
    exact hN
  | iter _ s' acts rest _ hi _ =>
    rw [callbacks_append, List.count_append]
    refine Nat.le_trans ?_ (Nat.le_add_right _ _)
    have hd : (St.init P (UInt32.ofNat 0)).draws = 0 := rfl
    rw [hd, h0] at hi
    have hr : ∀ r, P.below r 0 = true → ∃ t, stepRand P r (UInt32.ofNat 0) 0 0 (List.replicate (P.nGroups r).toNat 0) =
        .ok (t, [keyword r.base 0 0]) := by
      intro r hb
      have hg := P.below_groups r 0 hb
      have hpos : 0 < (P.nGroups r).toNat := Nat.pos_of_ne_zero (fun e => hg (UInt64.toNat_inj.mp e))
      unfold stepRand
      rw [if_pos ⟨by decide, hb⟩, if_neg hg]
      have hz : ((0 : UInt64) % P.nGroups r).toUInt16.toNat = 0 := by
        rw [UInt64.toNat_toUInt16, UInt64.toNat_mod]; simp
      simp only [hz, List.getElem?_replicate_of_lt hpos]
      rw [if_pos (by cases r <;> decide)]
      exact ⟨_, rfl⟩
    obtain ⟨t2, ht2⟩ := hr .r2 h2
    obtain ⟨t3, ht3⟩ := hr .r3 h3
    unfold Generator.iter at hi
    split at hi
    · cases hi
    · rename_i rand insertions hrs
      have hacts := (Prod.mk.inj (Except.ok.inj hi)).2
      rw [← hacts]
      have hin : ∃ rest, insertions = keyword "Group-rand-10^3_" 0 0 :: keyword "Group-rand-10^3_" 0 0 :: rest := by
        have hg : ∀ g, ((St.init P (UInt32.ofNat 0)).groups g).counter = 0 := fun _ => rfl
        have hrd : ∀ r, (St.init P (UInt32.ofNat 0)).rand r = List.replicate (P.nGroups r).toNat 0 := fun _ => rfl
        unfold randOrder stepRands at hrs
        rw [hg, hrd, ht2] at hrs
        simp only at hrs
        split at hrs
        · cases hrs
        · rename_i tb ins hrs'
          unfold stepRands at hrs'
          rw [hg] at hrs'
          simp only [reduceCtorEq, if_false, hrd, ht3] at hrs'
          split at hrs'
          · cases hrs'
          · rename_i tb' ins' _
            have a := (Prod.mk.inj (Except.ok.inj hrs')).2
            have b := (Prod.mk.inj (Except.ok.inj hrs)).2
            exact ⟨ins', by rw [← b, ← a]; rfl⟩
      obtain ⟨rest', rfl⟩ := hin
      rw [callbacks_append, callbacks_append, List.count_append, List.count_append,
        callbacks_map _ (fun x => x)]
      have hk : keyword "Group-rand-10^3_" 0 0 = "Group-rand-10^3_0_0" := by decide +kernel
      rw [hk]
      simp only [List.map_cons, List.count_cons, beq_self_eq_true, if_true]
      omega

example : ∃ tr, GenDb toyParams 7 (fun t i => UInt64.ofNat (t * 1000 + i)) tr ∧
    ((callbacks tr).map (·.1)).count "Group-10^2_4_3" = 100 := by
  obtain ⟨tr, h⟩ := (C45_terminates_partial toyParams 7 (by decide) (by decide)
    (fun t i => UInt64.ofNat (t * 1000 + i))).1
  exact ⟨tr, h, C47_group_size_partial toyParams 7 (by decide) (by decide) _ tr h "Group-10^2_" 100 (by decide) 4 3
    (by decide) (by decide) (by decide)⟩

example : ∃ tr, GenDb toyParams 1 (fun _ i => UInt64.ofNat i) tr ∧
    2 ≤ (callbacks tr).count ("Group-rand-10^3_0_0", 0) := by
  obtain ⟨tr, h⟩ := (C45_terminates_partial toyParams 1 (by decide) (by decide) (fun _ i => UInt64.ofNat i)).1
  exact ⟨tr, h, C47_random_groups_violated toyParams _ tr (by decide) (by decide) (by decide) rfl h⟩

/-- Documents of which some pass both thresholds and some only the first one -/
example : ∃ tr, GenDb toyParams 1 (fun _ i => UInt64.ofNat i * 0x4000000000000000) tr ∧
    ∃ kws : Nat → List String, (callbacks tr).Perm ((List.range 3000).flatMap fun p =>
        (kws p).map (fun kw => (kw, UInt64.ofNat p * 0x4000000000000000))) ∧ (kws 2).Nodup := by
  obtain ⟨tr, h⟩ := (C45_terminates_partial toyParams 1 (by decide) (by decide)
    (fun _ i => UInt64.ofNat i * 0x4000000000000000)).1
  obtain ⟨kws, h1, h2, -⟩ := C47_no_duplicates_partial toyParams 1 (by decide) (by decide) _ tr h
  refine ⟨tr, h, kws, ?_, h2 2 (Or.inl (by decide))⟩
  have e : (1 : UInt32).toNat = 1 := rfl
  simp only [e, Nat.div_one] at h1
  exact h1

/-- A random group that is used -/
example : ∃ tr, GenDb toyParams 1 (fun _ i => UInt64.ofNat i) tr ∧
    2 ≤ ((callbacks tr).map (·.1)).count "Group-rand-10^3_0_0" ∧
    ((callbacks tr).map (·.1)).count "Group-rand-10^3_0_0" ≤ 1100 := by
  obtain ⟨tr, h⟩ := (C45_terminates_partial toyParams 1 (by decide) (by decide) (fun _ i => UInt64.ofNat i)).1
  refine ⟨tr, h, ?_, ?_⟩
  · exact Nat.le_trans (C47_random_groups_violated toyParams _ tr (by decide) (by decide) (by decide) rfl h)
      (List.count_le_count_map (f := (·.1)) (x := ("Group-rand-10^3_0_0", (0 : UInt64))))
  · exact C47_random_bound_partial toyParams 1 (by decide) (by decide) _ tr h "Group-rand-10^3_" 1100 (by decide) 0 0

end Verif.Generator
