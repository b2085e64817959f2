import Verif.Generator.Lemmas

/-! # Helper lemmas: the random groups of the generator -/

namespace Verif.Generator

open Spec

theorem iter_callbacks (P : Params) (tid n : UInt32) (k : Nat) (s s' : St) (ind : UInt64) (acts : List Action)
    (h : Inv P tid n k s) (hk : k + 1 < 2 ^ 64) (hi : Generator.iter P tid n.toUInt64 ind s = .ok (s', acts)) :
    ∃ ins, stepRands P tid ind s.groups randOrder s.rand = .ok (s'.rand, ins) ∧
      callbacks acts = (keywords tid.toNat k ind.toNat ++ ins).map (fun kw => (kw, ind)) := by
  unfold Generator.iter at hi
  split at hi
  · cases hi
  rename_i rand ins hr
  have e1 := (Prod.mk.inj (Except.ok.inj hi)).1
  have e2 := (Prod.mk.inj (Except.ok.inj hi)).2
  refine ⟨ins, ?_, ?_⟩
  · rw [← e1]; exact hr
  rw [← e2]
  have hg : groupOrder.map (fun g => ((stepGroup g tid s.i (s.groups g)).kw, ind)) =
      (families.map (fun f => s!"{f.1}{tid.toNat}_{group f.2 k}")).map (fun kw => (kw, ind)) := by
    rw [← groups_keywords, List.map_map]
    apply List.map_congr_left
    intro g _
    simp only [Function.comp_apply]
    rw [(stepGroup_spec g tid s.i _ k h.i hk (h.group g) (h.kw g)).2.1]
  rw [callbacks_append, callbacks_append, callbacks_append, callbacks_append, callbacks_map _ (fun x => x),
    callbacks_map, callbacks_map _ (fun x => x), hg, percent_keywords]
  simp [callbacks, keywords]

theorem rand_base (r : RandId) : r.base.toList = r.base.toList.dropLast ++ ['_'] ∧
    '_' ∉ r.base.toList.dropLast ∧ r.base.toList.head? = some 'G' ∧ r.base.toList.take 7 = "Group-r".toList ∧
    7 ≤ r.base.toList.length := by
  cases r <;> decide +kernel

theorem rand_keyword_inj (r r' : RandId) {t t' c c' : Nat}
    (h : (s!"{r.base}{t}_{c}" : String) = s!"{r'.base}{t'}_{c'}") : r.base = r'.base ∧ t = t' ∧ c = c' := by
  have h := congrArg String.toList h
  rw [keyword_toList, keyword_toList] at h
  obtain ⟨e, hb, -⟩ := rand_base r
  obtain ⟨e', hb', -⟩ := rand_base r'
  rw [e, e'] at h
  simp only [List.append_assoc, List.singleton_append] at h
  obtain ⟨h1, h2⟩ := split_underscore hb hb' h
  obtain ⟨h3, h4⟩ := split_underscore Nat.underscore_not_in_toDigits Nat.underscore_not_in_toDigits h2
  refine ⟨?_, toDigits_inj h3, toDigits_inj h4⟩
  apply String.toList_inj.mp
  rw [e, e', h1]

/-- The fifteen fixed keywords of a document are not keywords of random groups. -/
theorem count_keywords_rand (r : RandId) (t c t' i ind : Nat) :
    (keywords t' i ind).count s!"{r.base}{t}_{c}" = 0 := by
  obtain ⟨-, -, hh, ht, hl⟩ := rand_base r
  rw [List.count_eq_zero]
  intro hm
  unfold keywords at hm
  rcases List.mem_append.mp hm with hm | hm
  · apply percents_head ind _ hm
    rw [keyword_toList]
    cases hb : r.base.toList with
    | nil => rw [hb] at hl; simp at hl
    | cons a l => rw [hb] at hh; simpa using hh
  · obtain ⟨f, hf, he⟩ := List.mem_map.mp hm
    obtain ⟨-, -, hlen, hne, -⟩ := families_base f hf
    have := congrArg (fun s : String => s.toList.take 7) he
    simp only [keyword_toList] at this
    rw [List.append_assoc, List.take_append_of_le_length hlen, List.append_assoc,
      List.take_append_of_le_length hl, ht] at this
    exact hne this

/-- What precedes the first underscore of a keyword tells its family; the fifteen fixed keywords are distinct. -/
theorem percents_nodup (ind : Nat) : (percents ind).Nodup := by
  have hend : ∀ (a b : String) (x y : Nat), (a ++ toString x ++ "_1" : String) ≠ b ++ toString y ++ "_2" := by
    intro a b x y e
    have := congrArg (fun s : String => s.toList.getLast?) e
    simp [String.toList_append] at this
  have hpre : ∀ (a b u v : List Char), a ≠ b → '_' ∉ a → '_' ∉ b → a ++ '_' :: u ≠ b ++ '_' :: v :=
    fun a b u v hab ha hb e => hab (split_underscore ha hb e).1
  have hdiff : ∀ (a b w : String) (x y : Nat), a.toList ≠ b.toList → '_' ∉ a.toList → '_' ∉ b.toList →
      (a ++ "_" ++ toString x ++ w : String) ≠ b ++ "_" ++ toString y ++ w := by
    intro a b w x y hab ha hb e
    have := congrArg String.toList e
    simp only [String.toList_append, List.append_assoc] at this
    exact hpre _ _ _ _ hab ha hb this
  unfold percents
  simp only [List.nodup_cons, List.mem_cons, List.not_mem_nil, or_false, not_or, not_false_eq_true, List.nodup_nil,
    and_true]
  exact ⟨⟨hdiff "0.1" "1" "_1" _ _ (by decide) (by decide) (by decide),
      hdiff "0.1" "10" "_1" _ _ (by decide) (by decide) (by decide), hend "0.1_" "0.1_" _ _, hend "0.1_" "1_" _ _,
      hend "0.1_" "10_" _ _⟩,
    ⟨hdiff "1" "10" "_1" _ _ (by decide) (by decide) (by decide), hend "1_" "0.1_" _ _, hend "1_" "1_" _ _,
      hend "1_" "10_" _ _⟩,
    ⟨hend "10_" "0.1_" _ _, hend "10_" "1_" _ _, hend "10_" "10_" _ _⟩,
    ⟨hdiff "0.1" "1" "_2" _ _ (by decide) (by decide) (by decide),
      hdiff "0.1" "10" "_2" _ _ (by decide) (by decide) (by decide)⟩,
    hdiff "1" "10" "_2" _ _ (by decide) (by decide) (by decide)⟩

theorem fixed_nodup (t i ind : Nat) : (keywords t i ind).Nodup := by
  unfold keywords
  rw [List.nodup_append]
  refine ⟨percents_nodup ind, ?_, ?_⟩
  · apply List.Nodup.map_on _ families_nodup
    intro f hf f' hf' e
    exact (keyword_inj hf hf' e).1
  · intro a ha b hb e
    subst e
    obtain ⟨f, hf, rfl⟩ := List.mem_map.mp hb
    apply percents_head ind _ ha
    rw [keyword_toList]
    obtain ⟨-, -, hlen, -, hh⟩ := families_base f hf
    cases hl : f.1.toList with
    | nil => rw [hl] at hlen; simp at hlen
    | cons a l => rw [hl] at hh; simpa using hh

theorem base_inj (r r' : RandId) (h : r.base = r'.base) :
    r = r' ∨ ((r = .r2 ∨ r = .r3) ∧ (r' = .r2 ∨ r' = .r3)) := by
  revert h
  cases r <;> cases r' <;> simp [RandId.base]

theorem keywords_nodup (P : Params) (t i k : Nat) (ind : UInt64) (ins : List String)
    (h : RandIns P t ind randOrder ins) (hb : P.below .r2 ind = false ∨ P.below .r3 ind = false) :
    (keywords t i k ++ ins).Nodup := by
  obtain ⟨S, h1, h2, rfl⟩ := h
  rw [List.nodup_append]
  refine ⟨fixed_nodup t i k, ?_, ?_⟩
  · have hS : (S.map (·.1)).Nodup := h1.nodup (by decide)
    apply List.Nodup.map_on _ (List.Nodup.of_map _ hS)
    intro x hx y hy e
    obtain ⟨e1, -, e2⟩ := rand_keyword_inj x.1 y.1 e
    have hx' := h2 x hx
    have hy' := h2 y hy
    have : x.1 = y.1 := by
      rcases base_inj _ _ e1 with e | ⟨e3 | e3, e4 | e4⟩
      · exact e
      · rw [e3, e4]
      · rw [e3] at hx'; rw [e4] at hy'; simp [hx', hy'] at hb
      · rw [e3] at hx'; rw [e4] at hy'; simp [hx', hy'] at hb
      · rw [e3, e4]
    exact Prod.ext this e2
  · intro a ha b hb e
    subst e
    obtain ⟨x, hx, rfl⟩ := List.mem_map.mp hb
    have := count_keywords_rand x.1 t x.2 t i k
    exact List.count_eq_zero.mp this ha

theorem keywords_count_le (P : Params) (t i k : Nat) (ind : UInt64) (ins : List String)
    (h : RandIns P t ind randOrder ins) (kw : String) :
    (keywords t i k ++ ins).count kw ≤ 2 ∧
    ((∀ g : Nat, kw ≠ s!"Group-rand-10^3_{t}_{g}") → (keywords t i k ++ ins).count kw ≤ 1) := by
  obtain ⟨S, h1, h2, rfl⟩ := h
  have hfix : (keywords t i k).count kw ≤ 1 := List.nodup_iff_count_le_one.mp (fixed_nodup t i k) kw
  rw [List.count_append]
  by_cases hm : kw ∈ S.map (fun x => (s!"{x.1.base}{t}_{x.2}" : String))
  · obtain ⟨x, hx, rfl⟩ := List.mem_map.mp hm
    rw [count_keywords_rand x.1 t x.2 t i k, Nat.zero_add]
    have hle : (S.map (fun x => (s!"{x.1.base}{t}_{x.2}" : String))).count s!"{x.1.base}{t}_{x.2}" ≤
        ((S.map (·.1)).map RandId.base).count x.1.base := by
      rw [List.count_eq_countP, List.count_eq_countP, List.countP_map, List.map_map, List.countP_map]
      apply List.countP_mono_left
      intro y _ hy
      simp only [Function.comp_apply, beq_iff_eq] at hy ⊢
      exact (rand_keyword_inj y.1 x.1 hy).1
    have hle' := Nat.le_trans hle ((h1.map RandId.base).count_le _)
    constructor
    · refine Nat.le_trans hle' ?_
      cases x.1 <;> decide
    · intro hne
      have hx1 : x.1 ≠ .r2 ∧ x.1 ≠ .r3 := by
        constructor <;> intro e <;> exact hne x.2 (by rw [e]; rfl)
      refine Nat.le_trans hle' ?_
      revert hx1
      cases x.1 <;> decide
  · rw [List.count_eq_zero.mpr hm]
    omega

/-- What may still be added to group `g` of the families called `base` -/
def budget (base : String) (g : Nat) (rs : List RandId) (tables : RandId → List UInt64) : Nat :=
  (rs.map (fun r => if r.base = base then r.size.toNat - ((tables r).getD g 0).toNat else 0)).sum

theorem budget_le (base : String) (g : Nat) (rs : List RandId) (tables : RandId → List UInt64) :
    budget base g rs tables ≤ (rs.map (fun r => if r.base = base then r.size.toNat else 0)).sum := by
  unfold budget
  induction rs with
  | nil => simp
  | cons r rs ih =>
    simp only [List.map_cons, List.sum_cons]
    split <;> omega

theorem stepRand_count (P : Params) (r r0 : RandId) (tid : UInt32) (ind : UInt64) (c : UInt32)
    (table t : List UInt64) (ins : List String) (h : stepRand P r tid ind c table = .ok (t, ins)) (t0 g : Nat) :
    (tid.toNat ≠ t0 → ins.count s!"{r0.base}{t0}_{g}" = 0) ∧
    (r.base ≠ r0.base → ins.count s!"{r0.base}{t0}_{g}" = 0) ∧
    ins.count s!"{r0.base}{t0}_{g}" + (r.size.toNat - (t.getD g 0).toNat) ≤
      r.size.toNat - (table.getD g 0).toNat := by
  unfold stepRand at h
  split at h
  · split at h
    · cases h
    · dsimp only at h
      generalize (ind % P.nGroups r).toUInt16.toNat = g' at h
      split at h
      · cases h
      rename_i x hx
      split at h
      · rename_i hlt
        cases h
        have hkw : keyword r.base tid g' = s!"{r.base}{tid.toNat}_{g'}" := rfl
        have hc : ∀ k : String, [keyword r.base tid g'].count k = if keyword r.base tid g' = k then 1 else 0 := by
          intro k
          rw [List.count_singleton]
          simp
        rw [hc]
        refine ⟨?_, ?_, ?_⟩
        · intro hne
          rw [if_neg]
          intro he
          rw [hkw] at he
          exact hne (rand_keyword_inj r r0 he).2.1
        · intro hne
          rw [if_neg]
          intro he
          rw [hkw] at he
          exact hne (rand_keyword_inj r r0 he).1
        · have hg' := (List.getElem?_eq_some_iff.mp hx).1
          by_cases hgg : g' = g
          · subst hgg
            have e1 : ((table.set g' (x + 1)).getD g' 0) = x + 1 := by
              rw [List.getD_eq_getElem?_getD, List.getElem?_set_self hg']
              rfl
            have e2 : table.getD g' 0 = x := by
              rw [List.getD_eq_getElem?_getD, hx]
              rfl
            rw [e1, e2]
            have hl := UInt64.lt_iff_toNat_lt.mp hlt
            have hs : r.size.toNat < 2 ^ 63 := by cases r <;> decide
            have e3 : (x + 1).toNat = x.toNat + 1 := by
              rw [UInt64.toNat_add]
              have : (1 : UInt64).toNat = 1 := rfl
              rw [this]
              exact Nat.mod_eq_of_lt (by omega)
            rw [e3]
            split <;> omega
          · rw [if_neg]
            · have e1 : ((table.set g' (x + 1)).getD g 0) = table.getD g 0 := by
                rw [List.getD_eq_getElem?_getD, List.getElem?_set_ne hgg, List.getD_eq_getElem?_getD]
              rw [e1]
              omega
            · intro he
              rw [hkw] at he
              exact hgg (rand_keyword_inj r r0 he).2.2
      · cases h
        simp
  · cases h
    simp

theorem stepRands_count (P : Params) (r0 : RandId) (tid : UInt32) (ind : UInt64) (groups : GroupId → GroupState)
    (t0 g : Nat) (rs : List RandId) : rs.Nodup → ∀ (tables t : RandId → List UInt64) (ins : List String),
    stepRands P tid ind groups rs tables = .ok (t, ins) →
    (tid.toNat ≠ t0 → ins.count s!"{r0.base}{t0}_{g}" = 0) ∧
    (∀ r, r ∉ rs → t r = tables r) ∧
    ins.count s!"{r0.base}{t0}_{g}" + budget r0.base g rs t ≤ budget r0.base g rs tables := by
  induction rs with
  | nil =>
    intro _ tables t ins h
    cases h
    simp
  | cons r rs ih =>
    intro hnd tables t ins h
    rw [List.nodup_cons] at hnd
    unfold stepRands at h
    split at h
    · cases h
    rename_i t1 ins1 h1
    split at h
    · cases h
    rename_i t2 ins2 h2
    cases h
    obtain ⟨a1, a2, a3⟩ := stepRand_count P r r0 tid ind _ _ _ _ h1 t0 g
    obtain ⟨b1, b2, b3⟩ := ih hnd.2 _ _ _ h2
    refine ⟨?_, ?_, ?_⟩
    · intro hne
      rw [List.count_append, a1 hne, b1 hne]
    · intro r' hr'
      rw [List.mem_cons, not_or] at hr'
      rw [b2 r' hr'.2, if_neg hr'.1]
    · have e1 : t r = t1 := by rw [b2 r hnd.1, if_pos rfl]
      have e2 : budget r0.base g rs (fun r' => if r' = r then t1 else tables r') = budget r0.base g rs tables := by
        unfold budget
        congr 1
        apply List.map_congr_left
        intro r' hr'
        have : r' ≠ r := fun e => hnd.1 (e ▸ hr')
        dsimp only
        rw [if_neg this]
      rw [e2] at b3
      rw [List.count_append]
      unfold budget at b3 ⊢
      rw [List.map_cons, List.sum_cons, List.map_cons, List.sum_cons, e1]
      by_cases hb : r.base = r0.base
      · rw [if_pos hb, if_pos hb]
        omega
      · rw [if_neg hb, if_neg hb, a2 hb]
        omega

/-- The callbacks of a thread for a keyword of a random group -/
theorem loop_rand (P : Params) (tid n : UInt32) (rnd : Nat → UInt64) (hn : 0 < n.toNat)
    (hfit : P.entries.toNat + n.toNat ≤ 2 ^ 64) (r0 : RandId) (t0 g : Nat) (s : St) (L : List Action)
    (h : Loop P tid n.toUInt64 rnd s L) (k : Nat) (hinv : Inv P tid n k s) :
    (tid.toNat ≠ t0 → ((callbacks L).map (·.1)).count s!"{r0.base}{t0}_{g}" = 0) ∧
    ((callbacks L).map (·.1)).count s!"{r0.base}{t0}_{g}" ≤ budget r0.base g randOrder s.rand := by
  induction h generalizing k with
  | done s h => simp [callbacks]
  | iter s s' acts rest h hi _ ih =>
    have hlt := UInt64.lt_iff_toNat_lt.mp h
    have hle : k ≤ k * n.toNat := Nat.le_mul_of_pos_right k hn
    have hc := hinv.counter
    obtain ⟨s1, acts1, e1, hinv1, -⟩ := iter_ok P tid n k s (rnd s.draws) hinv h hfit (by omega)
    obtain ⟨ins, f1, f2⟩ := iter_callbacks P tid n k s s' _ acts hinv (by omega) hi
    rw [hi] at e1
    obtain ⟨rfl, rfl⟩ := Prod.mk.inj (Except.ok.inj e1)
    obtain ⟨g1, g2⟩ := ih (k + 1) hinv1
    obtain ⟨a1, -, a3⟩ := stepRands_count P r0 tid (rnd s.draws) s.groups t0 g randOrder (by decide) _ _ _ f1
    have hcount : ((callbacks (acts ++ rest)).map (·.1)).count s!"{r0.base}{t0}_{g}" =
        ins.count s!"{r0.base}{t0}_{g}" + ((callbacks rest).map (·.1)).count s!"{r0.base}{t0}_{g}" := by
      rw [callbacks_append, List.map_append, List.count_append, f2, List.map_map]
      rw [show (fun x : String × UInt64 => x.1) ∘ (fun kw => (kw, rnd s.draws)) = id from rfl, List.map_id,
        List.count_append, count_keywords_rand, Nat.zero_add]
    rw [hcount]
    refine ⟨fun hne => by rw [a1 hne, g1 hne], ?_⟩
    omega

theorem sum_single (l : List Nat) (t B : Nat) (h1 : ∀ (i x : Nat), l[i]? = some x → i ≠ t → x = 0)
    (h2 : ∀ x, l[t]? = some x → x ≤ B) : l.sum ≤ B := by
  induction l generalizing t with
  | nil => simp
  | cons a l ih =>
    rw [List.sum_cons]
    cases t with
    | zero =>
      have ha := h2 a rfl
      have : l.sum = 0 := by
        have hz : ∀ x ∈ l, x = 0 := by
          intro x hx
          obtain ⟨i, hi⟩ := List.mem_iff_getElem?.mp hx
          exact h1 (i + 1) x (by simpa using hi) (by omega)
        clear ih h1 h2
        induction l with
        | nil => rfl
        | cons b l ih =>
          rw [List.sum_cons, hz b (by simp), ih (fun x hx => hz x (by simp [hx]))]
      omega
    | succ t =>
      have ha := h1 0 a rfl (by omega)
      have := ih t (fun i x hi hne => h1 (i + 1) x (by simpa using hi) (by omega))
        (fun x hx => h2 x (by simpa using hx))
      omega

end Verif.Generator
