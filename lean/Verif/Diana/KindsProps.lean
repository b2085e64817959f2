import Verif.Diana.KindsLemmas

/-! # Diana: C77 -/

set_option linter.unusedSectionVars false

namespace Verif.Diana.Kinds

open Verif

variable {Kw V : Type} [DecidableEq Kw]

/-! ## What searches return -/

/-- **C77**: for every history of insertions, lost or not, searches of all kinds, deleting or not, whose calls of
RocksDB may fail, and keywords forgotten, and for every schedule of the threads, the searches return what the
specification by positions says. -/
theorem C77_refines (c : Crypto Kw V) (zero : V) (ops : List (Op Kw V)) (hok : ∀ op ∈ ops, op.Ok)
    (hfit : ∀ w, Spec.insertions w ops < 2 ^ 32) (hnc : NoCollision c (fun w => Spec.insertions w ops))
    (s : Sys Kw V) (outs : List (List V)) (h : Run c zero Sys.init ops s outs) :
    Spec.Answers zero Spec.State.init ops outs :=
  (run_spec c _ hnc hfit zero ops _ _ _ (rel_init c _) hok (by intro w; simp [Spec.State.init]) outs h).1

theorem search_exists (c : Crypto Kw V) (zero : V) (F : Fates) (s : Sys Kw V) (w : Kw) (k : Kind V) (hk : k.Ok)
    (del : Bool) : ∃ out edb', Search c zero F s.edb (searchRequest c s.counters w) del out edb' k := by
  cases k with
  | sequential =>
    rcases searchRequest_cases c s.counters w with h0 | ⟨n, hn, hn2, ha, hr⟩
    · exact ⟨[], s.edb, by simp [Search, search, h0]⟩
    · have h0' : (searchRequest c s.counters w).addCount ≠ 0 := by
        intro h; rw [h] at ha; simp at ha; omega
      refine ⟨(searchLoop c F del s.edb (leavesOf c w n)).1, (searchLoop c F del s.edb (leavesOf c w n)).2, ?_⟩
      · rw [Search, search, if_neg h0', hr, c.maxLeaf_constrain _ _ (by omega),
          evalRange_eq c _ (n - 1) 0 (n - 1) (by omega) (by omega) (by omega)]
        have : n - 1 + 1 - 0 = n := by omega
        rw [this, ← List.range_eq_range']
        rfl
  | list t =>
    obtain ⟨trace, edb', h⟩ := parallel_ends c F s.edb s.counters w t hk del
    exact ⟨_, edb', trace, h, rfl⟩
  | callback t =>
    obtain ⟨trace, edb', h⟩ := parallel_ends c F s.edb s.counters w t hk del
    exact ⟨_, edb', trace, h, rfl⟩
  | vector t given =>
    obtain ⟨trace, edb', h⟩ := parallel_ends c F s.edb s.counters w t hk del
    exact ⟨_, edb', trace, h, rfl⟩

/-- **C77**: every operation ends, without exception, whatever calls fail. -/
theorem C77_ends (c : Crypto Kw V) (zero : V) (ops : List (Op Kw V)) (hok : ∀ op ∈ ops, op.Ok) (s : Sys Kw V) :
    ∃ s' outs, Run c zero s ops s' outs := by
  induction ops generalizing s with
  | nil => exact ⟨s, [], .nil s⟩
  | cons op ops ih =>
    have hx : ∃ s1 o, Exec c zero s op s1 o := by
      cases op with
      | insert w i d => exact ⟨_, _, .insert s w i d⟩
      | search w k del F =>
        obtain ⟨out, edb', h⟩ := search_exists c zero F s w k (hok (.search w k del F) (by simp)) del
        exact ⟨_, _, .search s w k del F out edb' h⟩
      | forget w => exact ⟨_, _, .forget s w⟩
    obtain ⟨s1, o, h1⟩ := hx
    obtain ⟨s2, outs, h2⟩ := ih (fun op h => hok op (by simp [h])) s1
    exact ⟨s2, _, .cons h1 h2⟩

/-! ## Answers of a history in two parts -/

theorem answers_append (zero : V) (a b : List (Op Kw V)) (S : Spec.State Kw V) (outs : List (List V))
    (h : Spec.Answers zero S (a ++ b) outs) :
    ∃ o1 o2, outs = o1 ++ o2 ∧ Spec.Answers zero S a o1 ∧ Spec.Answers zero (S.after a) b o2 := by
  induction a generalizing S outs with
  | nil => exact ⟨[], outs, rfl, rfl, h⟩
  | cons op a ih =>
    cases op with
    | insert w i d =>
      obtain ⟨o1, o2, h1, h2, h3⟩ := ih _ _ h
      exact ⟨o1, o2, h1, h2, h3⟩
    | search w k del F =>
      obtain ⟨o, os, rfl, hr, ht⟩ := h
      obtain ⟨o1, o2, rfl, h2, h3⟩ := ih _ _ ht
      exact ⟨o :: o1, o2, rfl, ⟨o, o1, rfl, hr, h2⟩, h3⟩
    | forget w =>
      obtain ⟨o1, o2, h1, h2, h3⟩ := ih _ _ h
      exact ⟨o1, o2, h1, h2, h3⟩

/-- The last search of a history -/
theorem last_answer (zero : V) (ops : List (Op Kw V)) (w : Kw) (k : Kind V) (del : Bool) (F : Fates)
    (outs : List (List V)) (h : Spec.Answers zero Spec.State.init (ops ++ [.search w k del F]) outs) :
    ∃ o1 out, outs = o1 ++ [out] ∧ Spec.Answers zero Spec.State.init ops o1 ∧
      Spec.Results zero ((Spec.State.init.after ops).seen F w) out k := by
  obtain ⟨o1, o2, rfl, h1, o, os, rfl, hr, ht⟩ := answers_append zero _ _ _ _ h
  simp only [Spec.Answers] at ht
  subst ht
  exact ⟨o1, o, rfl, h1, hr⟩

theorem run_last (c : Crypto Kw V) (zero : V) (ops : List (Op Kw V)) (w : Kw) (k : Kind V) (del : Bool) (F : Fates)
    (hok : ∀ op ∈ ops ++ [.search w k del F], op.Ok)
    (hfit : ∀ v, Spec.insertions v (ops ++ [.search w k del F]) < 2 ^ 32)
    (hnc : NoCollision c (fun v => Spec.insertions v (ops ++ [.search w k del F])))
    (s : Sys Kw V) (outs : List (List V)) (h : Run c zero Sys.init (ops ++ [.search w k del F]) s outs) :
    ∃ o1 out, outs = o1 ++ [out] ∧ Spec.Results zero ((Spec.State.init.after ops).seen F w) out k := by
  obtain ⟨o1, out, h1, -, h2⟩ := last_answer zero ops w k del F outs (C77_refines c zero _ hok hfit hnc s outs h)
  exact ⟨o1, out, h1, h2⟩

theorem after_snoc (S : Spec.State Kw V) (ops : List (Op Kw V)) (op : Op Kw V) :
    S.after (ops ++ [op]) = (S.after ops).next op := by
  simp [Spec.State.after]

/-! ## Nothing is invented -/

theorem doc_inserted (ops : List (Op Kw V)) (w : Kw) (a : Nat) (d : V)
    (h : ((Spec.State.init (Kw := Kw) (V := V)).after ops).doc w a = some d) : Op.insert w d true ∈ ops := by
  induction ops using List.reverseRecOn generalizing a with
  | nil => simp [Spec.State.after, Spec.State.init] at h
  | append_singleton ops op ih =>
    rw [after_snoc] at h
    have hold : ∀ a, (Spec.State.init.after ops).doc w a = some d → Op.insert w d true ∈ ops ++ [op] :=
      fun a ha => by simp [ih a ha]
    cases op with
    | insert v i del =>
      simp only [Spec.State.next] at h
      split at h
      · rename_i hx
        obtain ⟨rfl, rfl, -⟩ := hx
        simp only [Option.some.injEq] at h
        simp [h]
      · exact hold a h
    | search v k del F =>
      simp only [Spec.State.next] at h
      split at h
      · cases h
      · exact hold a h
    | forget v => exact hold a h

/-- The documents that a search reports: all of the list, or of the vector those that were not there before -/
def Reports (zero : V) (out : List V) (d : V) : Kind V → Prop
  | .vector _ given => d ∈ out ∧ d ≠ zero ∧ d ∉ given
  | _ => d ∈ out

/-- **C77**: whatever fails, a search only reports documents that were inserted for its keyword and stored. -/
theorem C77_sound (c : Crypto Kw V) (zero : V) (ops : List (Op Kw V)) (w : Kw) (k : Kind V) (del : Bool) (F : Fates)
    (hok : ∀ op ∈ ops ++ [.search w k del F], op.Ok)
    (hfit : ∀ v, Spec.insertions v (ops ++ [.search w k del F]) < 2 ^ 32)
    (hnc : NoCollision c (fun v => Spec.insertions v (ops ++ [.search w k del F])))
    (s : Sys Kw V) (outs : List (List V)) (h : Run c zero Sys.init (ops ++ [.search w k del F]) s outs) :
    ∃ o1 out, outs = o1 ++ [out] ∧ ∀ d, Reports zero out d k → Op.insert w d true ∈ ops := by
  obtain ⟨o1, out, rfl, hr⟩ := run_last c zero ops w k del F hok hfit hnc s outs h
  refine ⟨o1, out, rfl, ?_⟩
  intro d hd
  have hseen : ∀ {d}, some d ∈ (Spec.State.init.after ops).seen F w → Op.insert w d true ∈ ops := by
    intro d hm
    simp only [Spec.State.seen, List.mem_map, List.mem_range] at hm
    obtain ⟨i, -, hi⟩ := hm
    split at hi
    · cases hi
    · exact doc_inserted ops w i d hi
  have hfm : ∀ {d}, d ∈ ((Spec.State.init.after ops).seen F w).filterMap id → Op.insert w d true ∈ ops := by
    intro d hm
    obtain ⟨o, ho, hid⟩ := List.mem_filterMap.mp hm
    simp only [id] at hid
    subst hid
    exact hseen ho
  cases k with
  | sequential => exact hfm (hr ▸ hd)
  | list t => exact hfm (hr ▸ hd)
  | callback t => exact hfm (hr.mem_iff.mp hd)
  | vector t given =>
    obtain ⟨hin, hz, hg⟩ := hd
    obtain ⟨-, h2, h3⟩ := hr
    obtain ⟨i, hi⟩ := List.getElem?_of_mem hin
    by_cases hlt : i < ((Spec.State.init.after ops).seen F w).length
    · rw [h2 i hlt, List.getElem?_eq_getElem hlt] at hi
      simp only [Option.join_some, Option.some.injEq] at hi
      cases ho : ((Spec.State.init.after ops).seen F w)[i] with
      | some x =>
        rw [ho] at hi
        simp only [Option.getD_some] at hi
        subst hi
        exact hseen (ho ▸ List.getElem_mem hlt)
      | none =>
        rw [ho] at hi
        simp only [Option.getD_none] at hi
        exfalso
        rw [List.getD_eq_getElem?_getD] at hi
        cases hgi : given[i]? with
        | none => rw [hgi] at hi; exact hz hi.symm
        | some x => rw [hgi] at hi; exact hg (hi ▸ List.mem_of_getElem? hgi)
    · rw [h3 i (by omega)] at hi
      exact absurd (List.mem_of_getElem? hi) hg

/-! ## Histories in which nothing fails -/

/-- The documents of a keyword: those deleted since the keyword was last forgotten, then those of the multimap -/
theorem clean_state (ops : List (Op Kw V)) (hc : Spec.Clean ops) (w : Kw) :
    ((Spec.State.init (Kw := Kw) (V := V)).after ops).count w = Spec.gaps w ops + (Spec.store w ops).length ∧
    ∀ a, ((Spec.State.init (Kw := Kw) (V := V)).after ops).doc w a =
      if a < Spec.gaps w ops then none else (Spec.store w ops)[a - Spec.gaps w ops]? := by
  suffices hs : (((Spec.State.init (Kw := Kw) (V := V)).after ops).count w =
        Spec.gaps w ops + (Spec.store w ops).length ∧
      ∀ a, ((Spec.State.init (Kw := Kw) (V := V)).after ops).doc w a =
        if a < Spec.gaps w ops then none else (Spec.store w ops)[a - Spec.gaps w ops]?) ∧
      (ops.foldl (fun (p : Nat × Nat) op => match op with
        | .insert v _ _ => if v = w then (p.1, p.2 + 1) else p
        | .search v _ del _ => if v = w ∧ del = true then (p.1 + p.2, 0) else p
        | .forget v => if v = w then (0, 0) else p) (0, 0)).2 = (Spec.store w ops).length from hs.1
  induction ops using List.reverseRecOn with
  | nil => simp [Spec.State.after, Spec.State.init, Spec.gaps, Spec.store]
  | append_singleton ops op ih =>
    obtain ⟨⟨ih1, ih2⟩, ih3⟩ := ih (by
      intro pre op' post he
      exact hc pre op' (post ++ [op]) (by rw [he]; simp))
    have hop := hc ops op [] rfl
    rw [after_snoc]
    unfold Spec.gaps Spec.store at *
    simp only [List.foldl_append, List.foldl_cons, List.foldl_nil]
    generalize hg : (ops.foldl (fun (p : Nat × Nat) op => match op with
        | .insert v _ _ => if v = w then (p.1, p.2 + 1) else p
        | .search v _ del _ => if v = w ∧ del = true then (p.1 + p.2, 0) else p
        | .forget v => if v = w then (0, 0) else p) (0, 0)) = g at *
    generalize hl : (ops.foldl (fun l op => match op with
      | .insert v i _ => if v = w then l ++ [i] else l
      | .search v _ del _ => if v = w ∧ del = true then [] else l
      | .forget _ => l) []) = l at *
    cases op with
    | insert v i del =>
      simp only at hop
      subst hop
      by_cases hv : v = w
      · subst hv
        simp only [Spec.State.next, if_true, true_and]
        refine ⟨⟨by rw [ih1]; simp; omega, ?_⟩, by simp [ih3]⟩
        intro a
        rw [ih1, ih2]
        by_cases ha : a = g.1 + l.length
        · subst ha
          rw [if_pos rfl, if_neg (by omega)]
          have : g.1 + l.length - g.1 = l.length := by omega
          simp [this]
        · rw [if_neg ha]
          by_cases hlt : a < g.1
          · rw [if_pos hlt, if_pos hlt]
          · rw [if_neg hlt, if_neg hlt]
            by_cases hl' : a - g.1 < l.length
            · rw [List.getElem?_append_left hl']
            · rw [List.getElem?_eq_none (by omega), List.getElem?_eq_none (by simp; omega)]
      · have hv' : w ≠ v := Ne.symm hv
        simp only [Spec.State.next, hv, hv', if_false, false_and, and_false]
        exact ⟨⟨ih1, ih2⟩, ih3⟩
    | search v k del F =>
      by_cases hv : v = w ∧ del = true
      · obtain ⟨rfl, rfl⟩ := hv
        simp only [Spec.State.next, true_and, and_self, if_true, List.length_nil, Nat.add_zero]
        refine ⟨⟨by rw [ih1, ih3], ?_⟩, trivial⟩
        intro a
        have hF := hop a
        simp only [hF, and_true]
        rw [ih1, ih2, ih3]
        by_cases ha : a < g.1 + l.length
        · rw [if_pos ha]; simp
        · rw [if_neg ha, if_neg (by omega), List.getElem?_eq_none (by omega)]; simp
      · simp only [if_neg hv]
        refine ⟨⟨ih1, ?_⟩, ih3⟩
        intro a
        simp only [Spec.State.next]
        rw [if_neg (fun hx => hv ⟨hx.2.1.symm, hx.1⟩)]
        exact ih2 a
    | forget v =>
      by_cases hv : v = w
      · subst hv
        simp only at hop
        have hop' : l = [] := hl.symm.trans hop
        subst hop'
        simp only [Spec.State.next, if_true, List.length_nil]
        refine ⟨⟨trivial, ?_⟩, trivial⟩
        intro a
        rw [ih2]; simp
      · have hv' : w ≠ v := Ne.symm hv
        simp only [Spec.State.next, hv, hv', if_false]
        exact ⟨⟨ih1, ih2⟩, ih3⟩

theorem clean_seen (ops : List (Op Kw V)) (hc : Spec.Clean ops) (w : Kw) (F : Fates) (hF : Spec.Healthy F) :
    ((Spec.State.init (Kw := Kw) (V := V)).after ops).seen F w =
      List.replicate (Spec.gaps w ops) none ++ (Spec.store w ops).map some := by
  obtain ⟨h1, h2⟩ := clean_state ops hc w
  unfold Spec.State.seen
  rw [h1]
  apply List.ext_getElem?
  intro a
  simp only [List.getElem?_map, (hF _).1]
  by_cases ha : a < Spec.gaps w ops + (Spec.store w ops).length
  · rw [List.getElem?_range ha]
    simp only [Option.map_some, Bool.false_eq_true, if_false, h2]
    by_cases hg : a < Spec.gaps w ops
    · rw [if_pos hg, List.getElem?_append_left (by simpa using hg)]
      simp [hg]
    · rw [if_neg hg, List.getElem?_append_right (by simp; omega)]
      simp only [List.length_replicate, List.getElem?_map]
      rw [List.getElem?_eq_getElem (by omega)]
      rfl
  · rw [List.getElem?_eq_none (by simp; omega), List.getElem?_eq_none (by simp; omega)]
    rfl

/-- The documents that a search must report: a vector that was empty has the values of new elements in the place of
the documents that were deleted. -/
def Exact (zero : V) (gaps : Nat) (store out : List V) : Kind V → Prop
  | .sequential => out = store
  | .list _ => out = store
  | .callback _ => out.Perm store
  | .vector _ given => given = [] → out = List.replicate gaps zero ++ store

/-- **C77 (part that holds)**: when no call fails, every insertion is delivered, and keywords are only forgotten when
nothing is stored under them, searches of all kinds, mixed in any order and by any schedule, return exactly what was
inserted after the last deleting search. A vector has in addition one element `zero` for each document deleted since
the keyword was last forgotten. Missing: the cases of `C77_delete_violated` (a failed deletion),
`C77_stale_violated` and the elements `zero` of `C77_vector_violated`. -/
theorem C77_exact_partial (c : Crypto Kw V) (zero : V) (ops : List (Op Kw V)) (w : Kw) (k : Kind V) (del : Bool)
    (F : Fates) (hok : ∀ op ∈ ops ++ [.search w k del F], op.Ok)
    (hfit : ∀ v, Spec.insertions v (ops ++ [.search w k del F]) < 2 ^ 32)
    (hnc : NoCollision c (fun v => Spec.insertions v (ops ++ [.search w k del F])))
    (hc : Spec.Clean ops) (hF : Spec.Healthy F)
    (s : Sys Kw V) (outs : List (List V)) (h : Run c zero Sys.init (ops ++ [.search w k del F]) s outs) :
    ∃ o1 out, outs = o1 ++ [out] ∧ Exact zero (Spec.gaps w ops) (Spec.store w ops) out k := by
  obtain ⟨o1, out, rfl, hr⟩ := run_last c zero ops w k del F hok hfit hnc s outs h
  refine ⟨o1, out, rfl, ?_⟩
  rw [clean_seen ops hc w F hF] at hr
  have hfm : (List.replicate (Spec.gaps w ops) (none : Option V) ++ (Spec.store w ops).map some).filterMap id =
      Spec.store w ops := by
    simp [List.filterMap_append, List.filterMap_map]
  cases k with
  | sequential => exact hr.trans hfm
  | list t => exact hr.trans hfm
  | callback t => rw [Spec.Results, hfm] at hr; exact hr
  | vector t given =>
    rintro rfl
    obtain ⟨h1, h2, h3⟩ := hr
    apply List.ext_getElem?
    intro i
    by_cases hi : i < Spec.gaps w ops + (Spec.store w ops).length
    · rw [h2 i (by simpa using hi)]
      by_cases hg : i < Spec.gaps w ops
      · rw [List.getElem?_append_left (by simpa using hg), List.getElem?_append_left (by simpa using hg)]
        simp [hg]
      · rw [List.getElem?_append_right (by simp; omega), List.getElem?_append_right (by simp; omega)]
        simp only [List.length_replicate, List.getElem?_map]
        rw [List.getElem?_eq_getElem (by omega)]
        rfl
    · rw [h3 i (by simp; omega)]
      symm
      rw [List.getElem?_nil, List.getElem?_eq_none_iff]
      simp; omega

/-! ## Deleting searches -/

theorem doc_gone (S : Spec.State Kw V) (w : Kw) (post : List (Op Kw V))
    (hpost : ∀ d b, Op.insert w d b ∉ post) (n : Nat) (hn : ∀ a, a < n → S.doc w a = none)
    (hcount : S.count w ≤ n) :
    (∀ a, a < n → (S.after post).doc w a = none) ∧ (S.after post).count w ≤ n := by
  induction post generalizing S with
  | nil => exact ⟨hn, hcount⟩
  | cons op post ih =>
    refine ih (S.next op) (fun d b hm => hpost d b (by simp [hm])) ?_ ?_
    · intro a ha
      cases op with
      | insert v i d =>
        have hv : w ≠ v := fun e => hpost i d (by simp [e])
        simp [Spec.State.next, hv, hn a ha]
      | search v k d F => simp only [Spec.State.next]; split <;> simp [hn a ha]
      | forget v => exact hn a ha
    · cases op with
      | insert v i d =>
        have hv : w ≠ v := fun e => hpost i d (by simp [e])
        simpa [Spec.State.next, hv] using hcount
      | search v k d F => exact hcount
      | forget v => simp only [Spec.State.next]; split <;> omega

/-- **C77**: after a deleting search none of whose calls fails, and whatever happened before, searches for the
keyword report nothing until the next insertion for the keyword: also after the keyword is forgotten. -/
theorem C77_deleted (c : Crypto Kw V) (zero : V) (pre post : List (Op Kw V)) (w : Kw) (k k' : Kind V) (del : Bool)
    (F F' : Fates) (hF : Spec.Healthy F) (hpost : ∀ d b, Op.insert w d b ∉ post) (ops : List (Op Kw V))
    (hops : ops = pre ++ .search w k true F :: post ++ [.search w k' del F'])
    (hok : ∀ op ∈ ops, op.Ok) (hfit : ∀ v, Spec.insertions v ops < 2 ^ 32)
    (hnc : NoCollision c (fun v => Spec.insertions v ops))
    (s : Sys Kw V) (outs : List (List V)) (h : Run c zero Sys.init ops s outs) :
    ∃ o1 out, outs = o1 ++ [out] ∧ ∀ d, ¬ Reports zero out d k' := by
  subst hops
  obtain ⟨o1, out, rfl, hr⟩ := run_last c zero _ w k' del F' hok hfit hnc s outs h
  refine ⟨o1, out, rfl, ?_⟩
  have hafter : (Spec.State.init (Kw := Kw) (V := V)).after (pre ++ .search w k true F :: post) =
      (((Spec.State.init (Kw := Kw) (V := V)).after pre).next (.search w k true F)).after post := by
    simp [Spec.State.after]
  rw [hafter] at hr
  generalize (Spec.State.init (Kw := Kw) (V := V)).after pre = S at hr
  obtain ⟨g1, g2⟩ := doc_gone (S.next (.search w k true F)) w post hpost (S.count w)
    (by intro a ha; simp [Spec.State.next, ha, (hF a).1, (hF a).2]) (by simp [Spec.State.next])
  have hseen : ∀ o ∈ ((S.next (.search w k true F)).after post).seen F' w, o = none := by
    intro o ho
    simp only [Spec.State.seen, List.mem_map, List.mem_range] at ho
    obtain ⟨i, hi, rfl⟩ := ho
    split
    · rfl
    · exact g1 i (by omega)
  have hfm : (((S.next (.search w k true F)).after post).seen F' w).filterMap id = [] := by
    rw [List.filterMap_eq_nil_iff]
    intro o ho
    rw [hseen o ho]; rfl
  intro d hd
  cases k' with
  | sequential =>
    rw [Spec.Results, hfm] at hr; subst hr
    exact absurd hd (by simp [Reports])
  | list t =>
    rw [Spec.Results, hfm] at hr; subst hr
    exact absurd hd (by simp [Reports])
  | callback t =>
    rw [Spec.Results, hfm] at hr
    have := List.perm_nil.mp hr; subst this
    exact absurd hd (by simp [Reports])
  | vector t given =>
    obtain ⟨hin, hz, hg⟩ := hd
    obtain ⟨-, h2, h3⟩ := hr
    obtain ⟨i, hi⟩ := List.getElem?_of_mem hin
    by_cases hlt : i < (((S.next (.search w k true F)).after post).seen F' w).length
    · rw [h2 i hlt, List.getElem?_eq_getElem hlt, hseen _ (List.getElem_mem hlt)] at hi
      simp only [Option.join_some, Option.getD_none, Option.some.injEq] at hi
      rw [List.getD_eq_getElem?_getD] at hi
      cases hgi : given[i]? with
      | none => rw [hgi] at hi; exact hz hi.symm
      | some x => rw [hgi] at hi; exact hg (hi ▸ List.mem_of_getElem? hgi)
    · rw [h3 i (by omega)] at hi
      exact absurd (List.mem_of_getElem? hi) hg

theorem seen_others (w : Kw) (post : List (Op Kw V)) (hpost : ∀ op ∈ post, ¬ Spec.On w op)
    (S T : Spec.State Kw V) (hST : ∀ v, v ≠ w → S.count v = T.count v ∧ S.doc v = T.doc v) (zero : V)
    (outs : List (List V)) : Spec.Answers zero S post outs ↔ Spec.Answers zero T post outs := by
  induction post generalizing S T outs with
  | nil => rfl
  | cons op post ih =>
    have hon := hpost op (by simp)
    have hnext : ∀ v, v ≠ w → (S.next op).count v = (T.next op).count v ∧
        (S.next op).doc v = (T.next op).doc v := by
      intro v hv
      obtain ⟨h1, h2⟩ := hST v hv
      cases op with
      | insert u i d =>
        obtain ⟨h3, -⟩ := hST u hon
        refine ⟨?_, ?_⟩
        · simp only [Spec.State.next, h1, h3]
        · funext a; simp only [Spec.State.next, h2, h3]
      | search u k d F =>
        obtain ⟨h3, -⟩ := hST u hon
        refine ⟨h1, ?_⟩
        funext a; simp only [Spec.State.next, h2, h3]
      | forget u => exact ⟨by simp only [Spec.State.next, h1], h2⟩
    have ih' := fun outs => ih (fun op h => hpost op (by simp [h])) (S.next op) (T.next op) hnext outs
    cases op with
    | insert u i d => exact ih' outs
    | forget u => exact ih' outs
    | search u k d F =>
      obtain ⟨h3, h4⟩ := hST u hon
      have : S.seen F u = T.seen F u := by simp only [Spec.State.seen, h3, h4]
      simp only [Spec.Answers, this, ih']

/-- **C77**: a search for a keyword, deleting or not, and failing or not, does not change the answers for other
keywords. -/
theorem C77_others (c : Crypto Kw V) (zero : V) (pre post : List (Op Kw V)) (w : Kw) (k : Kind V) (del : Bool)
    (F : Fates) (hpost : ∀ op ∈ post, ¬ Spec.On w op) (ops : List (Op Kw V))
    (hops : ops = pre ++ .search w k del F :: post)
    (hok : ∀ op ∈ ops, op.Ok) (hfit : ∀ v, Spec.insertions v ops < 2 ^ 32)
    (hnc : NoCollision c (fun v => Spec.insertions v ops))
    (s : Sys Kw V) (outs : List (List V)) (h : Run c zero Sys.init ops s outs) :
    ∃ o1 out o2, outs = o1 ++ out :: o2 ∧ Spec.Answers zero Spec.State.init pre o1 ∧
      Spec.Answers zero (Spec.State.init.after pre) post o2 := by
  subst hops
  obtain ⟨o1, o2, rfl, h1, o, os, rfl, -, ht⟩ :=
    answers_append zero _ _ _ _ (C77_refines c zero _ hok hfit hnc s outs h)
  refine ⟨o1, o, os, rfl, h1, ?_⟩
  refine (seen_others w post hpost _ _ ?_ zero os).mp ht
  intro v hv
  refine ⟨rfl, ?_⟩
  funext a
  simp [Spec.State.next, hv]

/-! ## Examples and violations -/

namespace Sample

/-- No call fails. -/
def fine : Fates := fun _ => ⟨false, false⟩

theorem healthy : Spec.Healthy fine := fun _ => ⟨rfl, rfl⟩

/-- Deletions have no effect. -/
def stuck : Fates := fun _ => ⟨false, true⟩

theorem fit (ops : List (Op Bool Index)) (h : ops.length ≤ 256) :
    (∀ v, Spec.insertions v ops < 2 ^ 32) ∧ NoCollision Toy.crypto (fun v => Spec.insertions v ops) := by
  have hle : ∀ v, Spec.insertions v ops ≤ 256 := fun v => Nat.le_trans List.countP_le_length h
  exact ⟨fun v => by have := hle v; omega, Toy.noCollision _ hle⟩

end Sample

open Sample

/-- Non-vacuity of `C77_exact_partial`: all kinds of searches in a history. -/
example : ∃ s outs, Run Toy.crypto (0 : Index) Sys.init
      ([.insert true 5 true, .insert false 9 true, .search true (.list 2) false fine,
        .insert true 6 true, .search true (.callback 3) true fine, .insert true 7 true] ++
        [.search true (.vector 4 []) false fine]) s outs ∧
    ∃ o1, outs = o1 ++ [[0, 0, 7]] := by
  have hok : ∀ op ∈ ([.insert true 5 true, .insert false 9 true, .search true (.list 2) false fine,
        .insert true 6 true, .search true (.callback 3) true fine, .insert true 7 true] ++
        [.search true (.vector 4 []) false fine] : List (Op Bool Index)), op.Ok := by
    simp [Op.Ok, Kind.Ok]
  obtain ⟨s, outs, h⟩ := C77_ends Toy.crypto (0 : Index) _ hok Sys.init
  obtain ⟨hf, hn⟩ := fit ([.insert true 5 true, .insert false 9 true, .search true (.list 2) false fine,
        .insert true 6 true, .search true (.callback 3) true fine, .insert true 7 true] ++
        [.search true (.vector 4 []) false fine]) (by simp)
  refine ⟨s, outs, h, ?_⟩
  obtain ⟨o1, out, rfl, he⟩ := C77_exact_partial Toy.crypto 0 _ true (.vector 4 []) false fine hok hf hn
    (by
      intro pre op post he
      have hm : op ∈ ([.insert true 5 true, .insert false 9 true, .search true (.list 2) false fine,
        .insert true 6 true, .search true (.callback 3) true fine, .insert true 7 true] :
          List (Op Bool Index)) := by rw [he]; simp
      simp only [List.mem_cons, List.not_mem_nil, or_false] at hm
      rcases hm with rfl | rfl | rfl | rfl | rfl | rfl <;> first | rfl | exact healthy)
    healthy s outs h
  exact ⟨o1, by rw [he rfl]; rfl⟩

/-- **C77 is violated** by a deletion that fails: the result of `remove` is not looked at, and the next search
returns the document again, for every keyword, document and kind of the first search. -/
theorem C77_delete_violated (c : Crypto Kw V) (zero : V) (w : Kw) (d : V) (k : Kind V) (hk : k.Ok)
    (hnc : NoCollision c (fun v => Spec.insertions v
      [.insert w d true, .search w k true (fun _ => ⟨false, true⟩),
        .search w .sequential false (fun _ => ⟨false, false⟩)]))
    (s : Sys Kw V) (outs : List (List V))
    (h : Run c zero Sys.init [.insert w d true, .search w k true (fun _ => ⟨false, true⟩),
      .search w .sequential false (fun _ => ⟨false, false⟩)] s outs) :
    ∃ o1, outs = o1 ++ [[d]] := by
  obtain ⟨o1, out, rfl, hr⟩ := run_last c zero
    [.insert w d true, .search w k true (fun _ => ⟨false, true⟩)] w .sequential false (fun _ => ⟨false, false⟩)
    (by simp [Op.Ok, hk, show (Kind.sequential : Kind V).Ok from trivial])
    (by intro v; exact Nat.lt_of_le_of_lt List.countP_le_length (by simp))
    hnc s outs h
  refine ⟨o1, ?_⟩
  rw [hr]
  simp [Spec.State.seen, Spec.State.after, Spec.State.next, Spec.State.init]

/-- **C77 is violated** by a keyword that is forgotten while a document is stored (as after a failed deletion): a
later insertion that is lost makes the old document a result. -/
theorem C77_stale_violated (c : Crypto Kw V) (zero : V) (w : Kw) (d e : V)
    (hnc : NoCollision c (fun v => Spec.insertions v
      [.insert w d true, .search w .sequential true (fun _ => ⟨false, true⟩), .forget w, .insert w e false,
        .search w .sequential false (fun _ => ⟨false, false⟩)]))
    (s : Sys Kw V) (outs : List (List V))
    (h : Run c zero Sys.init [.insert w d true, .search w .sequential true (fun _ => ⟨false, true⟩), .forget w,
      .insert w e false, .search w .sequential false (fun _ => ⟨false, false⟩)] s outs) :
    ∃ o1, outs = o1 ++ [[d]] := by
  obtain ⟨o1, out, rfl, hr⟩ := run_last c zero
    [.insert w d true, .search w .sequential true (fun _ => ⟨false, true⟩), .forget w, .insert w e false]
    w .sequential false (fun _ => ⟨false, false⟩)
    (by simp [Op.Ok, Kind.Ok])
    (by intro v; exact Nat.lt_of_le_of_lt List.countP_le_length (by simp))
    hnc s outs h
  refine ⟨o1, ?_⟩
  rw [hr]
  simp [Spec.State.seen, Spec.State.after, Spec.State.next, Spec.State.init]

/-- **C77 is violated** by the vector: after a deleting search, although nothing is lost and nothing fails, a search
that fills a vector returns `zero` (document 0) for each deleted document. -/
theorem C77_vector_violated (c : Crypto Kw V) (zero : V) (w : Kw) (d : V) (k : Kind V) (hk : k.Ok) (t : UInt8)
    (ht : t ≠ 0)
    (hnc : NoCollision c (fun v => Spec.insertions v
      [.insert w d true, .search w k true (fun _ => ⟨false, false⟩),
        .search w (.vector t []) false (fun _ => ⟨false, false⟩)]))
    (s : Sys Kw V) (outs : List (List V))
    (h : Run c zero Sys.init [.insert w d true, .search w k true (fun _ => ⟨false, false⟩),
      .search w (.vector t []) false (fun _ => ⟨false, false⟩)] s outs) :
    ∃ o1, outs = o1 ++ [[zero]] := by
  obtain ⟨o1, out, rfl, he⟩ := C77_exact_partial c zero
    [.insert w d true, .search w k true (fun _ => ⟨false, false⟩)] w (.vector t []) false (fun _ => ⟨false, false⟩)
    (by simp [Op.Ok, hk, show (Kind.vector t [] : Kind V).Ok from ht])
    (by intro v; exact Nat.lt_of_le_of_lt List.countP_le_length (by simp))
    hnc
    (by
      intro pre op post he
      have hm : op ∈ [.insert w d true, .search w k true (fun _ => ⟨false, false⟩)] := by rw [he]; simp
      simp only [List.mem_cons, List.not_mem_nil, or_false] at hm
      rcases hm with rfl | rfl
      · rfl
      · exact fun _ => ⟨rfl, rfl⟩)
    (fun _ => ⟨rfl, rfl⟩) s outs h
  refine ⟨o1, ?_⟩
  rw [he rfl]
  simp [Spec.gaps, Spec.store]

/-- **C77 is violated** by a read that fails: the document is missing from the results of a deleting search, stays
at the server and is returned by the next search. -/
theorem C77_read_violated (c : Crypto Kw V) (zero : V) (w : Kw) (d : V)
    (hnc : NoCollision c (fun v => Spec.insertions v
      [.insert w d true, .search w .sequential true (fun _ => ⟨true, false⟩),
        .search w .sequential false (fun _ => ⟨false, false⟩)]))
    (s : Sys Kw V) (outs : List (List V))
    (h : Run c zero Sys.init [.insert w d true, .search w .sequential true (fun _ => ⟨true, false⟩),
      .search w .sequential false (fun _ => ⟨false, false⟩)] s outs) :
    outs = [[], [d]] := by
  have := C77_refines c zero _ (by simp [Op.Ok, Kind.Ok])
    (by intro v; exact Nat.lt_of_le_of_lt List.countP_le_length (by simp)) hnc s outs h
  obtain ⟨o, os, rfl, hr, o', os', rfl, hr', ht⟩ := this
  simp only [Spec.Answers] at ht
  subst ht
  rw [Spec.Results] at hr hr'
  rw [hr, hr']
  simp [Spec.State.seen, Spec.State.next, Spec.State.init]

/-- The histories of the violations occur: `C77_delete_violated` for a parallel search. -/
example : ∃ s outs, Run Toy.crypto (0 : Index) Sys.init
    [.insert true 5 true, .search true (.list 2) true (fun _ => ⟨false, true⟩),
      .search true .sequential false (fun _ => ⟨false, false⟩)] s outs ∧ ∃ o1, outs = o1 ++ [[5]] := by
  obtain ⟨s, outs, h⟩ := C77_ends Toy.crypto (0 : Index) [.insert true 5 true,
    .search true (.list 2) true (fun _ => ⟨false, true⟩),
    .search true .sequential false (fun _ => ⟨false, false⟩)] (by simp [Op.Ok, Kind.Ok]) Sys.init
  exact ⟨s, outs, h, C77_delete_violated _ _ _ _ _ (by simp [Kind.Ok]) (fit _ (by simp)).2 s outs h⟩

/-- Non-vacuity of `C77_deleted`: another keyword, a lost insertion for it and a failed search before. -/
example : ∃ s outs, Run Toy.crypto (0 : Index) Sys.init
    ([.insert true 5 true, .insert true 6 false, .search true (.list 2) true stuck] ++
      .search true (.callback 3) true fine :: [.insert false 9 true, .forget true] ++
      [.search true .sequential false fine]) s outs ∧ ∃ o1, outs = o1 ++ [[]] := by
  obtain ⟨s, outs, h⟩ := C77_ends Toy.crypto (0 : Index)
    ([.insert true 5 true, .insert true 6 false, .search true (.list 2) true stuck] ++
      .search true (.callback 3) true fine :: [.insert false 9 true, .forget true] ++
      [.search true .sequential false fine]) (by simp [Op.Ok, Kind.Ok]) Sys.init
  have hf := fit ([.insert true 5 true, .insert true 6 false, .search true (.list 2) true stuck] ++
      .search true (.callback 3) true fine :: [.insert false 9 true, .forget true] ++
      [.search true .sequential false fine]) (by simp)
  obtain ⟨o1, out, rfl, hd⟩ := C77_deleted Toy.crypto 0 _ _ true _ .sequential false fine fine healthy
    (by simp) _ rfl (by simp [Op.Ok, Kind.Ok]) hf.1 hf.2 s outs h
  refine ⟨s, _, h, o1, ?_⟩
  rw [List.eq_nil_iff_forall_not_mem.mpr hd]

end Verif.Diana.Kinds
