import Verif.Runner.Foreign
import Verif.Runner.SearchRpcProps

/-! # Lemmas on search messages that no client would send -/

set_option linter.unusedSectionVars false

namespace Verif.Runner.Foreign

variable {Kw Seed ST DK : Type}

/-! ## Diana -/

theorem evaluated_throws (c : Diana.Crypto Kw Index) (ck : c.CK) (l : List Nat) :
    (evaluated c ck l).throws = true ↔ ∃ i ∈ l, c.ceval ck i = none := by
  induction l with
  | nil => simp [evaluated]
  | cons i l ih =>
    rw [evaluated]
    cases h : c.ceval ck i with
    | none => simp [h]
    | some leaf => simp [h, ih]

/-- The leaves of the positions of a list -/
def leaves (c : Diana.Crypto Kw Index) (ck : c.CK) (l : List Nat) : List (Nat × Diana.Leaf) :=
  l.filterMap (fun i => (c.ceval ck i).map (fun leaf => (i, leaf)))

theorem evaluated_prefix (c : Diana.Crypto Kw Index) (ck : c.CK) (l : List Nat) :
    (evaluated c ck l).todo <+: leaves c ck l := by
  induction l with
  | nil => simp [evaluated, leaves]
  | cons i l ih =>
    rw [evaluated]
    cases h : c.ceval ck i with
    | none => simp
    | some leaf =>
      have : leaves c ck (i :: l) = (i, leaf) :: leaves c ck l := by simp [leaves, h]
      rw [this]
      exact List.cons_prefix_cons.mpr ⟨rfl, ih⟩

theorem evaluated_all (c : Diana.Crypto Kw Index) (ck : c.CK) (l : List Nat) (h : ∀ i ∈ l, c.ceval ck i ≠ none) :
    evaluated c ck l = ⟨leaves c ck l, false⟩ := by
  induction l with
  | nil => simp [evaluated, leaves]
  | cons i l ih =>
    rw [evaluated]
    cases hi : c.ceval ck i with
    | none => exact absurd hi (h i (by simp))
    | some leaf =>
      rw [ih (fun j hj => h j (by simp [hj]))]
      simp [leaves, hi]

/-- What a thread is still to report -/
def Thread.yield (c : Diana.Crypto Kw Index) (edb : Diana.Edb Index) (t : Thread) : List (Nat × Index) :=
  t.todo.filterMap (Diana.look c edb)

/-- What the callbacks have got, by position -/
def calls (trace : List (Nat × Index × Nat)) : List (Nat × Index) := trace.map (fun e => (e.1, e.2.1))

structure ProcInv (c : Diana.Crypto Kw Index) (edb : Diana.Edb Index) (s0 s : Proc) : Prop where
  perm : (calls s.trace ++ s.threads.flatMap (Thread.yield c edb)).Perm (s0.threads.flatMap (Thread.yield c edb))
  flags : s.threads.map Thread.throws = s0.threads.map Thread.throws
  dead : s.dead = true → ∃ t ∈ s0.threads, t.throws = true

theorem set_flags {l : List Thread} {t : Nat} {a b : Thread} (h : l[t]? = some a) (e : b.throws = a.throws) :
    (l.set t b).map Thread.throws = l.map Thread.throws := by
  induction l generalizing t with
  | nil => simp
  | cons x l ih =>
    cases t with
    | zero => simp at h; subst h; simp [e]
    | succ t => simp at h; simp [ih h]

theorem flatMap_set {l : List Thread} {t : Nat} {a b : Thread} {x : Option (Nat × Index)} (f : Thread → List (Nat × Index))
    (h : l[t]? = some a) (e : f a = x.toList ++ f b) :
    (l.flatMap f).Perm (x.toList ++ (l.set t b).flatMap f) := by
  induction l generalizing t with
  | nil => simp at h
  | cons y l ih =>
    cases t with
    | zero => simp at h; subst h; simp [e]
    | succ t =>
      simp at h
      rw [List.flatMap_cons, List.set_cons_succ, List.flatMap_cons]
      refine ((ih h).append_left _).trans ?_
      rw [← List.append_assoc, ← List.append_assoc]
      exact (List.perm_append_comm).append_right _

theorem inv_step {c : Diana.Crypto Kw Index} {edb : Diana.Edb Index} {s0 s s' : Proc} (hi : ProcInv c edb s0 s)
    (h : Step c edb s s') : ProcInv c edb s0 s' := by
  cases h with
  | miss t i leaf rest b hd h hm =>
    refine ⟨?_, by rw [← hi.flags]; exact set_flags h rfl, hi.dead⟩
    refine List.Perm.trans (List.Perm.append_left _ ?_) hi.perm
    refine (flatMap_set (x := none) (Thread.yield c edb) h ?_).symm
    simp [Thread.yield, Diana.look, Diana.lookup, hm]
  | hit t i leaf rest b v hd h hm =>
    refine ⟨?_, by rw [← hi.flags]; exact set_flags h rfl, hi.dead⟩
    refine List.Perm.trans ?_ hi.perm
    have := flatMap_set (b := ⟨rest, b⟩) (x := some (i, c.xor v (c.mask leaf))) (Thread.yield c edb) h
      (by simp [Thread.yield, Diana.look, Diana.lookup, hm])
    simp only [calls, List.map_append, List.map_cons, List.map_nil, List.append_assoc]
    exact (this.append_left _).symm
  | throw t rest hd h =>
    refine ⟨hi.perm, hi.flags, fun _ => ?_⟩
    have h1 : (s.threads.map Thread.throws)[t]? = some true := by simp [h]
    rw [hi.flags] at h1
    obtain ⟨x, hx, hx2⟩ := List.mem_map.mp (List.mem_of_getElem? h1)
    exact ⟨x, hx, hx2⟩

theorem inv_reachable {c : Diana.Crypto Kw Index} {edb : Diana.Edb Index} {s0 s : Proc} (hd : s0.dead = false) (ht : s0.trace = [])
    (h : Relation.ReflTransGen (Step c edb) s0 s) : ProcInv c edb s0 s := by
  induction h with
  | refl => exact ⟨by simp [calls, ht], rfl, by simp [hd]⟩
  | tail _ h ih => exact inv_step ih h

/-- Work left -/
def Proc.weight (s : Proc) : Nat := (s.threads.map (fun t => t.todo.length)).sum + if s.dead then 0 else 1

theorem weight_set {l : List Thread} {t i : Nat} {leaf : Diana.Leaf} {rest : List (Nat × Diana.Leaf)} {b : Bool}
    (h : l[t]? = some ⟨(i, leaf) :: rest, b⟩) :
    ((l.set t ⟨rest, b⟩).map (fun t => t.todo.length)).sum < (l.map (fun t => t.todo.length)).sum := by
  have := Diana.sum_set (l.map (fun t => t.todo.length)) t (rest.length + 1) rest.length (by simp [h])
  rw [List.map_set]
  show ((l.map fun t => t.todo.length).set t rest.length).sum < _
  omega

theorem weight_step {c : Diana.Crypto Kw Index} {edb : Diana.Edb Index} {s s' : Proc} (h : Step c edb s s') :
    s'.weight < s.weight := by
  cases h with
  | miss t i leaf rest b hd h hm =>
    have := weight_set h
    simp only [Proc.weight, hd]
    omega
  | hit t i leaf rest b v hd h hm =>
    have := weight_set h
    simp only [Proc.weight, hd]
    omega
  | throw t rest hd h => simp [Proc.weight, hd]

theorem progress (c : Diana.Crypto Kw Index) (edb : Diana.Edb Index) (s : Proc) :
    s.dead = true ∨ s.Joined ∨ ∃ s', Step c edb s s' := by
  by_cases hd : s.dead = true
  · exact Or.inl hd
  · right
    have hd : s.dead = false := by simpa using hd
    by_cases hj : ∀ t ∈ s.threads, t = ⟨[], false⟩
    · exact Or.inl ⟨hd, hj⟩
    · right
      obtain ⟨x, hx⟩ := Classical.not_forall.mp hj
      obtain ⟨hx, hne⟩ := Classical.not_imp.mp hx
      obtain ⟨t, ht⟩ := List.getElem?_of_mem hx
      obtain ⟨todo, b⟩ := x
      cases b with
      | true => exact ⟨_, .throw t todo hd ht⟩
      | false =>
        cases todo with
        | nil => exact absurd rfl hne
        | cons e rest =>
          obtain ⟨i, leaf⟩ := e
          cases hm : edb (c.token leaf) with
          | none => exact ⟨_, .miss t i leaf rest false hd ht hm⟩
          | some v => exact ⟨_, .hit t i leaf rest false v hd ht hm⟩

theorem ends (c : Diana.Crypto Kw Index) (edb : Diana.Edb Index) (s : Proc) :
    ∃ s', Relation.ReflTransGen (Step c edb) s s' ∧ (s'.dead = true ∨ s'.Joined) := by
  induction hk : s.weight using Nat.strongRecOn generalizing s with
  | ind k ih =>
    rcases progress c edb s with h | h | ⟨s1, h⟩
    · exact ⟨s, .refl, Or.inl h⟩
    · exact ⟨s, .refl, Or.inr h⟩
    · obtain ⟨s', h1, h2⟩ := ih _ (hk ▸ weight_step h) s1 rfl
      exact ⟨s', .head h h1, h2⟩

theorem start_threads (c : Diana.Crypto Kw Index) (ck : c.CK) (rs : List (Nat × Nat)) (h : ∀ r ∈ rs, r.1 ≤ r.2) :
    (start c ck rs).threads = rs.map (fun r => evaluated c ck (List.range' r.1 (r.2 + 1 - r.1))) := by
  unfold start
  apply List.map_congr_left
  intro r hr
  have := h r hr
  simp only [evalRange]
  rw [if_neg (by omega)]

theorem start_throws (c : Diana.Crypto Kw Index) (ck : c.CK) (rs : List (Nat × Nat)) (n : Nat) (h : ∀ r ∈ rs, r.1 ≤ r.2)
    (hp : rs.flatMap (fun r => List.range' r.1 (r.2 + 1 - r.1)) = List.range n) :
    (∃ t ∈ (start c ck rs).threads, t.throws = true) ↔ ¬ Spec.covers c ck n := by
  rw [start_threads c ck rs h]
  constructor
  · rintro ⟨t, ht, ht2⟩ hc
    obtain ⟨r, hr, rfl⟩ := List.mem_map.mp ht
    obtain ⟨i, hi, hi2⟩ := (evaluated_throws c ck _).mp ht2
    refine hc i ?_ hi2
    rw [← List.mem_range, ← hp]
    exact List.mem_flatMap.mpr ⟨r, hr, hi⟩
  · intro hc
    unfold Spec.covers at hc
    obtain ⟨i, hi⟩ := Classical.not_forall.mp hc
    obtain ⟨hi, hi2⟩ := Classical.not_imp.mp hi
    have hi2 : c.ceval ck i = none := Classical.not_not.mp hi2
    rw [← List.mem_range, ← hp] at hi
    obtain ⟨r, hr, hi⟩ := List.mem_flatMap.mp hi
    exact ⟨_, List.mem_map.mpr ⟨r, hr, rfl⟩, (evaluated_throws c ck _).mpr ⟨i, hi, hi2⟩⟩

/-- The positions where a document is stored, with the documents -/
def stored (c : Diana.Crypto Kw Index) (edb : Diana.Edb Index) (ck : c.CK) (l : List Nat) : List (Nat × Index) :=
  l.filterMap (fun i => (Spec.dianaAt c edb ck i).map (fun v => (i, v)))

theorem look_leaves (c : Diana.Crypto Kw Index) (edb : Diana.Edb Index) (ck : c.CK) (l : List Nat) :
    (leaves c ck l).filterMap (Diana.look c edb) = stored c edb ck l := by
  unfold leaves stored
  rw [List.filterMap_filterMap]
  apply List.filterMap_congr
  intro i _
  cases h : c.ceval ck i with
  | none => simp [Spec.dianaAt, h]
  | some leaf => simp [Spec.dianaAt, h, Diana.look, Diana.lookup]

theorem lookups_leaves (c : Diana.Crypto Kw Index) (edb : Diana.Edb Index) (ck : c.CK) (l : List Nat) :
    lookups c edb (leaves c ck l) = l.filterMap (Spec.dianaAt c edb ck) := by
  unfold leaves lookups
  rw [List.filterMap_filterMap]
  apply List.filterMap_congr
  intro i _
  cases h : c.ceval ck i with
  | none => simp [Spec.dianaAt, h]
  | some leaf => simp [Spec.dianaAt, h]

theorem start_yield (c : Diana.Crypto Kw Index) (edb : Diana.Edb Index) (ck : c.CK) (rs : List (Nat × Nat)) (n : Nat)
    (h : ∀ r ∈ rs, r.1 ≤ r.2) (hp : rs.flatMap (fun r => List.range' r.1 (r.2 + 1 - r.1)) = List.range n) :
    (∀ e ∈ (start c ck rs).threads.flatMap (Thread.yield c edb), e ∈ stored c edb ck (List.range n)) ∧
    (Spec.covers c ck n → (start c ck rs).threads.flatMap (Thread.yield c edb) = stored c edb ck (List.range n)) := by
  rw [start_threads c ck rs h]
  constructor
  · intro e he
    obtain ⟨t, ht, he⟩ := List.mem_flatMap.mp he
    obtain ⟨r, hr, rfl⟩ := List.mem_map.mp ht
    obtain ⟨a, ha, ha2⟩ := List.mem_filterMap.mp he
    have h1 : e ∈ stored c edb ck (List.range' r.1 (r.2 + 1 - r.1)) := by
      rw [← look_leaves]
      exact List.mem_filterMap.mpr ⟨a, (evaluated_prefix c ck _).subset ha, ha2⟩
    obtain ⟨i, hi, hi2⟩ := List.mem_filterMap.mp h1
    refine List.mem_filterMap.mpr ⟨i, ?_, hi2⟩
    rw [← hp]
    exact List.mem_flatMap.mpr ⟨r, hr, hi⟩
  · intro hc
    rw [← hp, List.flatMap_map]
    unfold stored
    rw [List.filterMap_flatMap]
    apply List.flatMap_congr
    intro r hr
    rw [evaluated_all]
    · exact look_leaves c edb ck _
    · intro i hi
      refine hc i ?_
      rw [← List.mem_range, ← hp]
      exact List.mem_flatMap.mpr ⟨r, hr, hi⟩

theorem partition (tc : UInt8) (n : UInt32) (ht : tc ≠ 0) (hn : n.toNat ≠ 0) :
    ∃ rs, Diana.ranges tc n = some rs ∧ (∀ r ∈ rs, r.1 ≤ r.2) ∧
      rs.flatMap (fun r => List.range' r.1 (r.2 + 1 - r.1)) = List.range n.toNat := by
  obtain ⟨rs, h1, -, h2, h3⟩ := Diana.C08_partition tc n ht (fun e => hn (by simp [e]))
  exact ⟨rs, h1, h2, h3⟩

theorem parallel_end {c : Diana.Crypto Kw Index} {edb : Diana.Edb Index} {r : Diana.SearchReq c} {tc : UInt8}
    (hn : r.addCount.toNat ≠ 0) {trace : List (Nat × Index × Nat)} {dead : Bool} (h : ParallelEnd c edb r tc trace dead) :
    (∀ e ∈ calls trace, e ∈ stored c edb r.rcprf (List.range r.addCount.toNat)) ∧
    (dead = true ↔ ¬ Spec.covers c r.rcprf r.addCount.toNat) ∧
    (dead = false → (calls trace).Perm (stored c edb r.rcprf (List.range r.addCount.toNat))) := by
  obtain ⟨rs, s, hr, hs, rfl, he⟩ := h
  have ht : tc ≠ 0 := by
    rintro rfl
    simp [Diana.ranges] at hr
  obtain ⟨rs', h1, h2, h3⟩ := partition tc r.addCount ht hn
  rw [h1] at hr
  obtain rfl := Option.some.inj hr
  have hi := inv_reachable rfl rfl hs
  have hy := start_yield c edb r.rcprf rs' _ h2 h3
  have hth := start_throws c r.rcprf rs' _ h2 h3
  have hsub : ∀ e ∈ calls s.trace, e ∈ stored c edb r.rcprf (List.range r.addCount.toNat) := fun e he =>
    hy.1 e (hi.perm.subset (List.mem_append_left _ he))
  have hjoin : s.Joined → Spec.covers c r.rcprf r.addCount.toNat := by
    intro hj
    by_contra hc
    obtain ⟨t, ht, ht2⟩ := hth.mpr hc
    have : true ∈ s.threads.map Thread.throws := by
      rw [hi.flags]
      exact List.mem_map.mpr ⟨t, ht, ht2⟩
    obtain ⟨x, hx, hx2⟩ := List.mem_map.mp this
    rw [hj.2 x hx] at hx2
    simp at hx2
  refine ⟨hsub, ?_, ?_⟩
  · cases dead with
    | true => simpa using hth.mp (hi.dead (by simpa using he))
    | false => simpa using hjoin (by simpa using he)
  · rintro rfl
    have hj : s.Joined := by simpa using he
    have h0 : s.threads.flatMap (Thread.yield c edb) = [] := by
      rw [List.flatMap_eq_nil_iff]
      intro x hx
      rw [hj.2 x hx]
      simp [Thread.yield]
    have := hi.perm
    rw [h0, List.append_nil, hy.2 (hjoin hj)] at this
    exact this

theorem parallel_exists (c : Diana.Crypto Kw Index) (edb : Diana.Edb Index) (r : Diana.SearchReq c) (tc : UInt8) (ht : tc ≠ 0)
    (hn : r.addCount.toNat ≠ 0) : ∃ trace dead, ParallelEnd c edb r tc trace dead := by
  obtain ⟨rs, h1, -, -⟩ := partition tc r.addCount ht hn
  obtain ⟨s, h2, h3⟩ := ends c edb (start c r.rcprf rs)
  rcases h3 with h3 | h3
  · exact ⟨s.trace, true, rs, s, h1, h2, rfl, by simpa using h3⟩
  · exact ⟨s.trace, false, rs, s, h1, h2, rfl, by simpa using h3⟩

theorem stored_docs (c : Diana.Crypto Kw Index) (edb : Diana.Edb Index) (ck : c.CK) (l : List Nat) :
    (stored c edb ck l).map Prod.snd = l.filterMap (Spec.dianaAt c edb ck) := by
  unfold stored
  rw [List.map_filterMap]
  apply List.filterMap_congr
  intro i _
  cases Spec.dianaAt c edb ck i <;> simp

theorem mem_stored (c : Diana.Crypto Kw Index) (edb : Diana.Edb Index) (ck : c.CK) (n i : Nat) (v : Index) :
    (i, v) ∈ stored c edb ck (List.range n) ↔ i < n ∧ Spec.dianaAt c edb ck i = some v := by
  unfold stored
  rw [List.mem_filterMap]
  constructor
  · rintro ⟨j, hj, h⟩
    cases hv : Spec.dianaAt c edb ck j with
    | none => simp [hv] at h
    | some u =>
      simp [hv] at h
      obtain ⟨rfl, rfl⟩ := h
      exact ⟨List.mem_range.mp hj, hv⟩
  · rintro ⟨h1, h2⟩
    exact ⟨i, List.mem_range.mpr h1, by simp [h2]⟩

theorem calls_docs (trace : List (Nat × Index × Nat)) : (calls trace).map Prod.snd = trace.map (fun e => e.2.1) := by
  simp [calls]

theorem stored_nodup (c : Diana.Crypto Kw Index) (edb : Diana.Edb Index) (ck : c.CK) (n : Nat) :
    ((stored c edb ck (List.range n)).map Prod.fst).Nodup := by
  have : (stored c edb ck (List.range n)).map Prod.fst =
      (List.range n).filter (fun i => (Spec.dianaAt c edb ck i).isSome) := by
    unfold stored
    rw [List.map_filterMap, ← List.filterMap_eq_filter]
    apply List.filterMap_congr
    intro i _
    cases h : Spec.dianaAt c edb ck i <;> simp [Option.guard, h]
  rw [this]
  exact List.nodup_range.filter _

theorem vector_mem (trace : List (Nat × Index × Nat)) (rs : List Index) (x : Index)
    (h : x ∈ trace.foldl (fun rs e => if e.1 < rs.length then rs.set e.1 e.2.1 else rs) rs) :
    x ∈ rs ∨ ∃ e ∈ trace, e.2.1 = x := by
  induction trace generalizing rs with
  | nil => exact Or.inl h
  | cons a trace ih =>
    rcases ih _ h with h | ⟨e, he, rfl⟩
    · beta_reduce at h
      split at h
      · rcases List.mem_or_eq_of_mem_set h with h | rfl
        · exact Or.inl h
        · exact Or.inr ⟨a, by simp, rfl⟩
      · exact Or.inl h
    · exact Or.inr ⟨e, by simp [he], rfl⟩

theorem vector_eq (c : Diana.Crypto Kw Index) (edb : Diana.Edb Index) (ck : c.CK) (n : UInt32) (trace : List (Nat × Index × Nat))
    (h : (calls trace).Perm (stored c edb ck (List.range n.toNat))) :
    Diana.vectorResult 0 n (List.replicate n.toNat 0) trace =
      (List.range n.toNat).map (fun i => (Spec.dianaAt c edb ck i).getD 0) := by
  have hnd : (trace.map (·.1)).Nodup := by
    have h1 := (h.map Prod.fst).nodup_iff.mpr (stored_nodup c edb ck n.toNat)
    have : (calls trace).map Prod.fst = trace.map (·.1) := by simp [calls]
    rwa [this] at h1
  obtain ⟨f1, f2, f3⟩ := Diana.vector_fold trace hnd (List.replicate n.toNat (0 : Index))
  unfold Diana.vectorResult
  simp only [List.length_replicate, Nat.lt_irrefl, if_false]
  apply List.ext_getElem?
  intro i
  by_cases hi : i < n.toNat
  · rw [List.getElem?_map, List.getElem?_range hi, Option.map_some]
    cases hv : Spec.dianaAt c edb ck i with
    | some v =>
      have h1 := h.mem_iff.mpr ((mem_stored c edb ck n.toNat i v).mpr ⟨hi, hv⟩)
      obtain ⟨e, he, hev⟩ := List.mem_map.mp h1
      have e1 : e.1 = i := (Prod.mk.inj hev).1
      have e2 : e.2.1 = v := (Prod.mk.inj hev).2
      have := f2 e he (by rw [List.length_replicate, e1]; exact hi)
      rw [e1, e2] at this
      simpa using this
    | none =>
      rw [f3 i]
      · simp [hi]
      · intro e he hei
        have := (mem_stored c edb ck n.toNat e.1 e.2.1).mp (h.mem_iff.mp (List.mem_map.mpr ⟨e, he, rfl⟩))
        rw [hei, hv] at this
        simp at this
  · rw [List.getElem?_eq_none (by rw [f1, List.length_replicate]; omega), List.getElem?_eq_none (by simp; omega)]

/-! ## Sophos -/

/-- The loop throws if and only if one of the tokens that it evaluates is refused. -/
theorem strideLoop_throws (c : Sophos.Crypto Kw Seed ST DK) (refused : ST → Bool) (n max i : Nat) (st : ST) :
    ((strideLoop c refused n max i st).2 = true ↔ ∃ k, i + k * (n + 1) < max ∧ refused (c.eval^[k * (n + 1)] st) = true) ∧
    ((strideLoop c refused n max i st).2 = false → (strideLoop c refused n max i st).1 = Sophos.strideLoop c n max i st) := by
  induction hk : max - i using Nat.strongRecOn generalizing i st with
  | ind k ih =>
    rw [strideLoop, Sophos.strideLoop]
    by_cases hlt : i < max
    · simp only [hlt, if_true]
      cases h : refused st with
      | true => exact ⟨⟨fun _ => ⟨0, by simpa using hlt, by simpa using h⟩, fun _ => rfl⟩, fun h => by simp at h⟩
      | false =>
        simp only [Bool.false_eq_true, if_false]
        obtain ⟨h1, h2⟩ := ih (max - (i + (n + 1))) (by omega) (i + (n + 1)) (c.eval^[n + 1] st) rfl
        refine ⟨h1.trans ⟨?_, ?_⟩, fun hf => by rw [h2 hf]⟩
        · rintro ⟨k, hk1, hk2⟩
          refine ⟨k + 1, by rw [Nat.succ_mul]; omega, ?_⟩
          rw [Nat.succ_mul, Function.iterate_add_apply]
          exact hk2
        · rintro ⟨k, hk1, hk2⟩
          cases k with
          | zero => simp [h] at hk2
          | succ k =>
            rw [Nat.succ_mul] at hk1
            rw [Nat.succ_mul, Function.iterate_add_apply] at hk2
            exact ⟨k, by omega, hk2⟩
    · simp only [hlt, if_false]
      refine ⟨⟨fun h => by simp at h, ?_⟩, fun _ => trivial⟩
      rintro ⟨k, hk1, -⟩
      omega

/-- A job throws if and only if it evaluates a token that is refused; otherwise it is the job of C03. -/
theorem job_throws (c : Sophos.Crypto Kw Seed ST DK) (refused : ST → Bool) (st : ST) (index : UInt8) (max : Nat) (N : UInt8) (hN : N ≠ 0) :
    ∃ l b, job c refused st index max N = some (l, b) ∧
      (b = true ↔ (index ≠ 0 ∧ refused st = true) ∨
        ∃ k, index.toNat + k * N.toNat + N.toNat < max ∧ refused (c.eval^[index.toNat + k * N.toNat] st) = true) ∧
      (b = false → Sophos.job c st index max N = some l) := by
  have hpos : 0 < N.toNat := Nat.pos_of_ne_zero (fun e => hN (UInt8.toNat_inj.mp e))
  unfold job Sophos.job
  by_cases h : index ≠ 0 ∧ refused st = true
  · rw [if_pos h]
    exact ⟨[], true, rfl, ⟨fun _ => Or.inl h, fun _ => rfl⟩, fun h => by cases h⟩
  · rw [if_neg h]
    simp only [hN, if_false]
    have hst : (if index ≠ 0 then c.eval^[index.toNat] st else st) = c.eval^[index.toNat] st := by
      split
      · rfl
      · rename_i h0
        have : index = 0 := Classical.not_not.mp h0
        subst this
        rfl
    rw [hst]
    obtain ⟨h1, h2⟩ := strideLoop_throws c refused (N.toNat - 1) max (index.toNat + N.toNat) (c.eval^[index.toNat] st)
    refine ⟨_, _, rfl, h1.trans ⟨?_, ?_⟩, fun hf => by rw [h2 hf]⟩
    · rintro ⟨k, hk1, hk2⟩
      rw [Nat.sub_add_cancel hpos] at hk1 hk2
      rw [← Function.iterate_add_apply] at hk2
      exact Or.inr ⟨k, by omega, by rw [Nat.add_comm]; exact hk2⟩
    · rintro (hh | ⟨k, hk1, hk2⟩)
      · exact absurd hh h
      · refine ⟨k, ?_, ?_⟩
        · rw [Nat.sub_add_cancel hpos]; omega
        · rw [Nat.sub_add_cancel hpos, ← Function.iterate_add_apply, Nat.add_comm]; exact hk2

/-- The jobs of `N` threads: one throws if and only if a token at a position with a later one for the same thread is refused, or the first
token if there is a second thread. -/
theorem jobs_throw (c : Sophos.Crypto Kw Seed ST DK) (refused : ST → Bool) (st : ST) (max m : Nat) (hm : 0 < m) (hm2 : m < 256) :
    ∃ js, (List.range m).mapM (fun t => job c refused st (UInt8.ofNat t) max (UInt8.ofNat m)) = some js ∧
      ((∃ j ∈ js, j.2 = true) ↔ ∃ p, (p + m < max ∨ p = 0 ∧ 2 ≤ m) ∧ refused (c.eval^[p] st) = true) ∧
      ((∀ j ∈ js, j.2 = false) →
        js = (js.map Prod.fst).map (fun l => (l, false)) ∧
        (List.range m).mapM (fun t => Sophos.job c st (UInt8.ofNat t) max (UInt8.ofNat m)) = some (js.map Prod.fst)) := by
  have hmn : (UInt8.ofNat m).toNat = m := by simp; omega
  have hN : UInt8.ofNat m ≠ 0 := fun e => by rw [e] at hmn; simp at hmn; omega
  have gen : ∀ l : List Nat, (∀ t ∈ l, t < m) →
      ∃ js, l.mapM (fun t => job c refused st (UInt8.ofNat t) max (UInt8.ofNat m)) = some js ∧
      ((∃ j ∈ js, j.2 = true) ↔ ∃ t ∈ l, (t ≠ 0 ∧ refused st = true) ∨
        ∃ k, t + k * m + m < max ∧ refused (c.eval^[t + k * m] st) = true) ∧
      ((∀ j ∈ js, j.2 = false) →
        js = (js.map Prod.fst).map (fun l => (l, false)) ∧
        l.mapM (fun t => Sophos.job c st (UInt8.ofNat t) max (UInt8.ofNat m)) = some (js.map Prod.fst)) := by
    intro l
    induction l with
    | nil => intro _; exact ⟨[], rfl, by simp, fun _ => ⟨rfl, rfl⟩⟩
    | cons t l ih =>
      intro hl
      obtain ⟨js, h1, h2, h3⟩ := ih (fun x hx => hl x (by simp [hx]))
      obtain ⟨l', b, g1, g2, g3⟩ := job_throws c refused st (UInt8.ofNat t) max (UInt8.ofNat m) hN
      have ht := hl t (by simp)
      have htn : (UInt8.ofNat t).toNat = t := by simp; omega
      have ht0 : UInt8.ofNat t ≠ 0 ↔ t ≠ 0 := by
        constructor
        · rintro h rfl; exact h rfl
        · intro h e
          rw [e] at htn
          simp at htn
          exact h htn.symm
      rw [htn, hmn, ht0] at g2
      refine ⟨(l', b) :: js, ?_, ?_, ?_⟩
      · rw [List.mapM_cons, g1, h1]; rfl
      · simp only [List.mem_cons, exists_eq_or_imp, h2, g2]
      · intro hf
        have hb : b = false := hf (l', b) (by simp)
        obtain ⟨e1, e2⟩ := h3 (fun j hj => hf j (by simp [hj]))
        subst hb
        refine ⟨?_, ?_⟩
        · rw [List.map_cons, List.map_cons, ← e1]
        · rw [List.mapM_cons, g3 rfl, e2]; rfl
  obtain ⟨js, h1, h2, h3⟩ := gen (List.range m) (fun t ht => List.mem_range.mp ht)
  refine ⟨js, h1, h2.trans ⟨?_, ?_⟩, h3⟩
  · rintro ⟨t, ht, ⟨h4, h5⟩ | ⟨k, h4, h5⟩⟩
    · exact ⟨0, Or.inr ⟨rfl, by have := List.mem_range.mp ht; omega⟩, h5⟩
    · exact ⟨_, Or.inl h4, h5⟩
  · rintro ⟨p, hp | ⟨rfl, hp⟩, h5⟩
    · refine ⟨p % m, List.mem_range.mpr (Nat.mod_lt _ hm), Or.inr ⟨p / m, ?_, ?_⟩⟩
      · rw [Nat.mul_comm, Nat.mod_add_div]; exact hp
      · rw [Nat.mul_comm, Nat.mod_add_div]; exact h5
    · exact ⟨1, List.mem_range.mpr (by omega), Or.inl ⟨by omega, h5⟩⟩

theorem allJobs_mapM {α : Type} (l : List α) (f : α → Option (List ST)) :
    Sophos.allJobs (l.map f) = l.mapM f := by
  unfold Sophos.allJobs
  induction l with
  | nil => rfl
  | cons a l ih => rw [List.map_cons, List.mapM_cons, List.mapM_cons, ih]; rfl

theorem parallelJobs_throw (c : Sophos.Crypto Kw Seed ST DK) (refused : ST → Bool) (hw : Nat) (hhw : hw ≤ 255)
    (r : Sophos.SearchReq ST DK) :
    ∃ js, parallelJobs c refused hw r = some js ∧
      ((∃ j ∈ js, j.2 = true) ↔ ∃ p, Spec.sophosEvaluates hw false r.addCount.toNat p ∧ refused (c.eval^[p] r.token) = true) ∧
      ((∀ j ∈ js, j.2 = false) →
        js = (js.map Prod.fst).map (fun l => (l, false)) ∧ Sophos.allJobs (Sophos.parallelJobs c hw r) = some (js.map Prod.fst)) := by
  have h2 : 2 ≤ Nat.max hw 2 := Nat.le_max_right _ _
  obtain ⟨js, h3, h4, h5⟩ := jobs_throw c refused r.token r.addCount.toNat (Nat.max hw 2) (by omega)
    (Nat.max_lt.mpr ⟨by omega, by omega⟩)
  refine ⟨js, h3, h4.trans ?_, ?_⟩
  · simp [Spec.sophosEvaluates, h2]
  · unfold Sophos.parallelJobs
    rw [allJobs_mapM]
    exact h5

theorem countedJobs_throw (c : Sophos.Crypto Kw Seed ST DK) (refused : ST → Bool) (hw : Nat) (hhw : hw % 256 ≠ 0)
    (r : Sophos.SearchReq ST DK) (hc : 2 ≤ r.addCount.toNat) :
    ∃ js, countedJobs c refused (UInt8.ofNat hw) r = some js ∧
      ((∃ j ∈ js, j.2 = true) ↔ ∃ p, Spec.sophosEvaluates hw true r.addCount.toNat p ∧ refused (c.eval^[p] r.token) = true) ∧
      ((∀ j ∈ js, j.2 = false) →
        js = (js.map Prod.fst).map (fun l => (l, false)) ∧
        Sophos.allJobs (Sophos.countedJobs c (UInt8.ofNat hw) r) = some (js.map Prod.fst)) := by
  have hn : (UInt8.ofNat hw).toNat = hw % 256 := by simp
  have he : UInt8.ofNat (hw % 256) = UInt8.ofNat hw := UInt8.toNat_inj.mp (by simp)
  obtain ⟨js, h3, h4, h5⟩ := jobs_throw c refused r.token r.addCount.toNat (hw % 256) (by omega) (by omega)
  rw [he] at h3 h5
  refine ⟨js, ?_, h4.trans ?_, ?_⟩
  · unfold countedJobs
    rw [hn]
    exact h3
  · simp [Spec.sophosEvaluates, hc]
  · unfold Sophos.countedJobs
    rw [allJobs_mapM, hn]
    exact h5

theorem searchLoop_ok (c : Sophos.Crypto Kw Seed ST DK) (refused : ST → Bool) (edb : Sophos.Edb) (k : DK) (n : Nat) (st : ST)
    (h : ∀ p < n, refused (c.eval^[p] st) = false) :
    searchLoop c refused edb k n st =
      ((List.range n).filterMap (fun i => Sophos.access c edb k (c.eval^[i] st)), false) := by
  induction n generalizing st with
  | zero => rfl
  | succ n ih =>
    have h0 : refused st = false := h 0 (by omega)
    rw [searchLoop, ih _ (fun p hp => by rw [← Function.iterate_succ_apply]; exact h (p + 1) (by omega)), List.range_succ_eq_map,
      List.filterMap_cons, List.filterMap_map]
    simp only [h0, Bool.false_eq_true, if_false, Function.comp_def, Function.iterate_succ_apply]
    cases hx : Sophos.access c edb k st <;> simp [hx]

theorem access_eq (c : Sophos.Crypto Kw Seed ST DK) (edb : Sophos.Edb) (k : DK) (st : ST) (i : Nat) :
    Sophos.access c edb k (c.eval^[i] st) = Spec.sophosAt c edb k st i := by
  unfold Sophos.access Spec.sophosAt Sophos.genUpdateTokenMasks
  simp only
  cases edb (c.prf k (c.eval^[i] st) false) <;> rfl

theorem strideLoop_mem (c : Sophos.Crypto Kw Seed ST DK) (refused : ST → Bool) (n max : Nat) (st : ST) (i : Nat) :
    ∀ x ∈ (strideLoop c refused n max (i + (n + 1)) (c.eval^[i] st)).1, ∃ p < max, x = c.eval^[p] st := by
  suffices h : ∀ j s, (∃ i, j = i + (n + 1) ∧ s = c.eval^[i] st) →
      ∀ x ∈ (strideLoop c refused n max j s).1, ∃ p < max, x = c.eval^[p] st from h _ _ ⟨i, rfl, rfl⟩
  intro j
  induction hk : max - j using Nat.strongRecOn generalizing j with
  | ind k ih =>
    rintro s ⟨i, rfl, rfl⟩ x hx
    rw [strideLoop] at hx
    by_cases hlt : i + (n + 1) < max
    · rw [if_pos hlt] at hx
      split at hx
      · simp at hx
      · have he : c.eval^[n + 1] (c.eval^[i] st) = c.eval^[i + (n + 1)] st := by
          rw [← Function.iterate_add_apply]; congr 1; omega
        simp only [he, List.mem_cons] at hx
        rcases hx with rfl | hx
        · exact ⟨_, hlt, rfl⟩
        · exact ih (max - (i + (n + 1) + (n + 1))) (by omega) _ rfl _ ⟨i + (n + 1), rfl, rfl⟩ x hx
    · rw [if_neg hlt] at hx
      simp at hx

theorem job_mem (c : Sophos.Crypto Kw Seed ST DK) (refused : ST → Bool) (st : ST) (index : UInt8) (max : Nat) (N : UInt8)
    (j : List ST × Bool) (h : job c refused st index max N = some j) : ∀ x ∈ j.1, ∃ p < max, x = c.eval^[p] st := by
  have hst : (if index ≠ 0 then c.eval^[index.toNat] st else st) = c.eval^[index.toNat] st := by
    by_cases h0 : index = 0
    · simp [h0]
    · simp [h0]
  unfold job at h
  split at h
  · obtain rfl := Option.some.inj h
    simp
  · simp only [hst] at h
    have hfirst : ∀ x ∈ (if index.toNat < max then [c.eval^[index.toNat] st] else []), ∃ p < max, x = c.eval^[p] st := by
      intro x hx
      split at hx
      · rename_i hlt
        exact ⟨_, hlt, by simpa using hx⟩
      · simp at hx
    by_cases hN : N = 0
    · rw [if_pos hN] at h
      split at h
      · split at h
        · obtain rfl := Option.some.inj h
          exact hfirst
        · cases h
      · obtain rfl := Option.some.inj h
        exact hfirst
    · rw [if_neg hN] at h
      obtain rfl := Option.some.inj h
      intro x hx
      rcases List.mem_append.mp hx with hx | hx
      · exact hfirst x hx
      · have hN' : N.toNat ≠ 0 := fun e => hN (UInt8.toNat_inj.mp e)
        have : index.toNat + N.toNat = index.toNat + (N.toNat - 1 + 1) := by omega
        rw [this] at hx
        exact strideLoop_mem c refused _ _ _ _ x hx

theorem mapM_mem {α β : Type} {l : List α} {f : α → Option β} {r : List β} (h : l.mapM f = some r) :
    ∀ b ∈ r, ∃ a ∈ l, f a = some b := by
  induction l generalizing r with
  | nil =>
    have : r = [] := by simpa [List.mapM_nil] using h.symm
    simp [this]
  | cons a l ih =>
    rw [List.mapM_cons] at h
    cases h1 : f a with
    | none => simp [h1] at h
    | some b1 =>
      cases h2 : l.mapM f with
      | none => simp [h1, h2] at h
      | some r1 =>
        simp [h1, h2] at h
        subst h
        intro b hb
        rcases List.mem_cons.mp hb with rfl | hb
        · exact ⟨a, by simp, h1⟩
        · obtain ⟨a', h3, h4⟩ := ih h2 b hb
          exact ⟨a', by simp [h3], h4⟩

theorem searchLoop_mem (c : Sophos.Crypto Kw Seed ST DK) (refused : ST → Bool) (edb : Sophos.Edb) (k : DK) (n : Nat) (st : ST)
    (x : Index) (h : x ∈ (searchLoop c refused edb k n st).1) : ∃ i < n, Sophos.access c edb k (c.eval^[i] st) = some x := by
  induction n generalizing st with
  | zero => simp [searchLoop] at h
  | succ n ih =>
    rw [searchLoop] at h
    have hfirst : x ∈ (Sophos.access c edb k st).toList → ∃ i < n + 1, Sophos.access c edb k (c.eval^[i] st) = some x :=
      fun h => ⟨0, by omega, by simpa using h⟩
    split at h
    · exact hfirst h
    · rcases List.mem_append.mp h with h | h
      · exact hfirst h
      · obtain ⟨i, h1, h2⟩ := ih _ h
        exact ⟨i + 1, by omega, h2⟩

theorem pool_emitted {α β : Type} {f : α → Option β} {p : ThreadPool.Pool α β} (hi : ThreadPool.Inv f p) {b : β}
    (hb : b ∈ p.emitted) : ∃ a ∈ p.accepted, f a = some b := by
  obtain ⟨a, ha, ha2⟩ := List.mem_filterMap.mp (hi.effects.subset (List.mem_append_left _ hb))
  exact ⟨a, hi.tasks.mem_iff.mpr (List.mem_append_left _ ha), ha2⟩

theorem threads_length {α β : Type} {f : α → Option β} {Ls : List (List α)} {s : ThreadPool.Threads α β}
    (h : ThreadPool.ThreadsReachable f Ls s) : s.todo.length = Ls.length := by
  induction h with
  | refl => rfl
  | tail _ h ih =>
    cases h with
    | step t a rest h => simpa using ih

theorem threads_finished {α β : Type} (f : α → Option β) (Ls : List (List α)) (t : Nat) (l : List α) (ht : Ls[t]? = some l) :
    ∃ s, ThreadPool.ThreadsReachable f Ls s ∧ s.todo[t]? = some [] := by
  obtain ⟨s, hs, hd⟩ := threads_complete f Ls
  refine ⟨s, hs, ?_⟩
  have hlt : t < s.todo.length := by
    rw [threads_length hs]
    exact (List.getElem?_eq_some_iff.mp ht).1
  rw [List.getElem?_eq_getElem hlt, hd _ (List.getElem_mem hlt)]

theorem pipe_length {α β γ : Type} {f : α → Option β} {g : β → Option γ} {nA nB : Nat} {Ls : List (List α)}
    {s : ThreadPool.Pipe α β γ} (h : ThreadPool.PipeReachable f g nA nB Ls s) : s.producers.length = Ls.length := by
  induction h with
  | refl => rfl
  | tail _ h ih =>
    obtain ⟨b, h⟩ := h
    cases h <;> simpa using ih

theorem pipe_finished {α β : Type} (f : α → Option β) (nA nB : Nat) (Ls : List (List α)) (t : Nat) (l : List α)
    (ht : Ls[t]? = some l) :
    ∃ s : ThreadPool.Pipe α β β, ThreadPool.PipeReachable f some nA nB Ls s ∧ s.producers[t]? = some [] := by
  obtain ⟨s, h1, h2⟩ := ThreadPool.exists_stuck (R := ThreadPool.PipeStep f (some : β → _)) (μ := ThreadPool.Pipe.weight)
    (fun s s' => ThreadPool.pipe_weight_step) (ThreadPool.Pipe.init nA nB Ls)
  have hs : ThreadPool.PipeReachable f some nA nB Ls s := h1
  refine ⟨s, hs, ?_⟩
  have hp := (ThreadPool.pipe_stuck (ThreadPool.pipeReachable_inv hs) h2).2.2
  have hlt : t < s.producers.length := by
    rw [pipe_length hs]
    exact (List.getElem?_eq_some_iff.mp ht).1
  rw [List.getElem?_eq_getElem hlt, List.flatten_eq_nil_iff.mp hp _ (List.getElem_mem hlt)]

end Verif.Runner.Foreign
