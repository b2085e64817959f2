import Verif.Power.Spec
import Verif.Faults.Props
import Verif.Diana.Lemmas

/-! # Helper lemmas for a loss of power -/

set_option linter.unusedSectionVars false

namespace Verif.Power

open Verif Verif.Runner.Sess

variable {Kw : Type} [DecidableEq Kw]

/-! ## What is needed of a scheme -/

/-- The client holds counters `n`, the server the slots `f`, and a search visits the slots. -/
structure Lawful (S : Scheme Kw) (B : Kw → Nat) (arr : List Index → List Index) where
  C : S.Cli → (Kw → Nat) → Prop
  D : S.Srv → (Kw → Nat → Option Index) → Prop
  c0 : C S.cli0 (fun _ => 0)
  d0 : D S.srv0 (fun _ _ => none)
  request : ∀ m n w i, C m n → n w < B w →
    C (S.request m w i).2 (fun v => if v = w then n w + 1 else n v)
  store : ∀ m n w i d f, C m n → n w < B w → D d f →
    D (S.store d (S.request m w i).1) (fun v b => if v = w ∧ b = n w then some i else f v b)
  find : ∀ m n d f w, C m n → D d f → n w ≤ B w →
    S.find m d w = some (arr ((List.range (n w)).filterMap (f w)))

theorem filterMap_newest (n : Nat) (f : Nat → Option Index) :
    (List.range n).filterMap (fun q => f (n - 1 - q)) = ((List.range n).filterMap f).reverse := by
  induction n with
  | zero => rfl
  | succ n ih =>
    rw [List.range_succ_eq_map, List.filterMap_cons, List.filterMap_map, ← List.range_succ_eq_map,
      List.range_succ, List.filterMap_append, List.reverse_append, ← ih]
    have h : List.filterMap ((fun q => f (n + 1 - 1 - q)) ∘ Nat.succ) (List.range n) =
        List.filterMap (fun q => f (n - 1 - q)) (List.range n) := by
      apply List.filterMap_congr
      intro q _
      show f _ = f _
      congr 1
      simp only [Nat.succ_eq_add_one]
      omega
    rw [h]
    simp only [Nat.add_sub_cancel, Nat.sub_zero, List.filterMap_cons, List.filterMap_nil]
    cases f n <;> simp

section Sophos

variable {Seed ST DK : Type} (c : Sophos.Crypto Kw Seed ST DK) (g : ST × DK)

theorem sophosLoop_good (edb : Sophos.Edb) (k : DK) (p n : Nat) (st : ST) :
    Faults.sophosLoop c edb (fun _ => false) k p n st = Sophos.searchCallbackLoop c edb k n st := by
  induction n generalizing p st with
  | zero => rfl
  | succ n ih =>
    simp only [Faults.sophosLoop, Sophos.searchCallbackLoop, Sophos.access, Faults.get, Bool.not_false,
      if_true, Sophos.genUpdateTokenMasks, ih]
    cases edb (c.prf k st false) <;> rfl

theorem counterOf_upd (m : Map Kw UInt32) (n : Kw → Nat) (w : Kw) (h : ∀ v, m v = Counter.counterOf (n v))
    (v : Kw) : (Counter.getAndIncrement m w).2 v = Counter.counterOf (if v = w then n w + 1 else n v) := by
  have hn : (Counter.getAndIncrement m w).2 = m.put w (UInt32.ofNat (n w)) := by
    simp only [Counter.getAndIncrement, Counter.get, h, Counter.nextValue_counterOf]
  rw [hn]
  exact Faults.counters_put m (⟨n, fun _ _ => none⟩ : Faults.Spec.Slots Kw Nat) w (n w) h v

theorem increment_val (m : Map Kw UInt32) (n : Nat) (w : Kw) (h : m w = Counter.counterOf n) :
    (Counter.getAndIncrement m w).1 = UInt32.ofNat n := by
  simp only [Counter.getAndIncrement, Counter.get, h, Counter.nextValue_counterOf]

theorem sophos_find (B : Kw → Nat) (m : Map Kw UInt32) (d : Sophos.Edb) (n : Kw → Nat)
    (f : Kw → Nat → Option Index) (hm : ∀ w, m w = Counter.counterOf (n w))
    (hd : ∀ w a, a < B w → d (Sophos.updateToken c w a) =
      (f w a).map (fun v => (Sophos.mkReq c w a v).index)) (w : Kw) (hn : n w ≤ B w)
    (hB : B w < 2 ^ 32) :
    Sophos.search c d (Sophos.searchRequest c g m w) =
      ((List.range (n w)).filterMap (f w)).reverse := by
  have h := Faults.sophos_search c g B ⟨m, d⟩ ⟨n, f⟩ ⟨hm, hd⟩ w hn hB true (fun _ => false)
  have h2 := congrArg Prod.snd h
  simp only [Faults.sophosStep, Faults.Spec.Slots.step, sophosLoop_good, if_true, Bool.false_eq_true,
    if_false, Faults.Out.results.injEq] at h2
  rw [← filterMap_newest]
  refine Eq.trans ?_ h2
  rw [Sophos.search, Sophos.searchCallbackLoop_eq, List.nil_append]
  rfl

/-- Sophos -/
def lawful_sophos (B : Kw → Nat) (hB : ∀ w, B w < 2 ^ 32) (hnc : Faults.SophosNoCollision c B) :
    Lawful (sophos c g) B List.reverse where
  C := fun m n => ∀ w, (show Map Kw UInt32 from m) w = Counter.counterOf (n w)
  D := fun d f => ∀ w a, a < B w → (show Sophos.Edb from d) (Sophos.updateToken c w a) =
    (f w a).map (fun v => (Sophos.mkReq c w a v).index)
  c0 := fun w => rfl
  d0 := fun w a _ => rfl
  request := fun m n w i hm _ v => counterOf_upd m n w hm v
  store := by
    intro m n w i d f hm hn hd v b hb
    have h1 : ((sophos c g).request m w i).1 = Sophos.mkReq c w (n w) i := by
      show Sophos.requestFor c w i (Counter.getAndIncrement m w).1 = _
      rw [increment_val m (n w) w (hm w), Sophos.requestFor_spec, Nat.mod_eq_of_lt]
      have := hB w; omega
    rw [h1]
    exact Faults.sinv_fill c B hnc d ⟨n, f⟩ hd w (n w) hn i v b hb
  find := by
    intro m n d f w hm hd hn
    exact congrArg some (sophos_find c g B m d n f hm hd w hn (hB w))

end Sophos

section Diana

variable (c : Diana.Crypto Kw Index)

theorem diana_find (B : Kw → Nat) (m : Map Kw UInt32) (d : Diana.Edb Index) (n : Kw → Nat)
    (f : Kw → Nat → Option Index) (hm : ∀ w, m w = Counter.counterOf (n w))
    (hd : ∀ w a, a < B w → d (Diana.updateToken c w a) =
      (f w a).map (fun v => c.xor v (c.mask (c.eval (c.root (c.hash w)) a)))) (w : Kw) (hn : n w ≤ B w)
    (hB : B w < 2 ^ 32) :
    (if (Diana.searchRequest c m w).addCount = 0 then some []
      else (Diana.search c d (Diana.searchRequest c m w) false).map (·.1)) =
      some ((List.range (n w)).filterMap (f w)) := by
  have hs := Diana.search_request c d m w (n w) (hm w) (Nat.lt_of_le_of_lt hn hB) false
  have hr : (Diana.search c d (Diana.searchRequest c m w) false).map (·.1) =
      some ((List.range (n w)).filterMap (f w)) := by
    rw [hs]
    simp only [Option.map_some, Diana.searchLoop_keep, Diana.leavesOf, List.filterMap_map]
    congr 1
    apply List.filterMap_congr
    intro a ha
    rw [List.mem_range] at ha
    have he := hd w a (by omega)
    unfold Diana.updateToken at he
    simp only [Function.comp, Diana.lookup]
    rw [he]
    cases f w a <;> simp [c.xor_xor]
  split
  · rename_i h0
    rw [← hr]
    simp [Diana.search, h0]
  · exact hr

/-- Diana -/
def lawful_diana (B : Kw → Nat) (hB : ∀ w, B w < 2 ^ 32) (hnc : Diana.NoCollision c B) :
    Lawful (diana c) B id where
  C := fun m n => ∀ w, (show Map Kw UInt32 from m) w = Counter.counterOf (n w)
  D := fun d f => ∀ w a, a < B w → (show Diana.Edb Index from d) (Diana.updateToken c w a) =
    (f w a).map (fun v => c.xor v (c.mask (c.eval (c.root (c.hash w)) a)))
  c0 := fun w => rfl
  d0 := fun w a _ => rfl
  request := fun m n w i hm _ v => counterOf_upd m n w hm v
  store := by
    intro m n w i d f hm hn hd v b hb
    have h1 : ((diana c).request m w i).1 =
        ⟨Diana.updateToken c w (n w), c.xor i (c.mask (c.eval (c.root (c.hash w)) (n w)))⟩ := by
      show Diana.requestFor c w i (Counter.getAndIncrement m w).1 = _
      rw [increment_val m (n w) w (hm w)]
      have h2 : (UInt32.ofNat (n w)).toNat = n w := by
        rw [UInt32.toNat_ofNat']; have := hB w; omega
      simp only [Diana.requestFor, h2]
      rfl
    rw [h1]
    exact Faults.dinv_fill c B hnc d ⟨n, f⟩ hd w (n w) hn i v b hb
  find := by
    intro m n d f w hm hd hn
    exact diana_find c B m d n f hm hd w hn (hB w)

end Diana

/-! ## The slots -/

variable {S : Scheme Kw} {B : Kw → Nat} {arr : List Index → List Index}

/-- Every content that a loss can bring back corresponds to the end of a list. -/
def Tracks {α β : Type} (R : α → List β → Prop) (d : Db α) (l : List β) : Prop :=
  ∀ k, R (d.lose k).cur (l.drop k)

theorem tracks_cur {α β : Type} {R : α → List β → Prop} {d : Db α} {l : List β} (h : Tracks R d l) :
    R d.cur l := h 0

theorem tracks_write {α β : Type} {R : α → List β → Prop} {d : Db α} {l : List β} (h : Tracks R d l)
    (x : α) (b : β) (hx : R x (b :: l)) : Tracks R (d.write x) (b :: l)
  | 0 => hx
  | k + 1 => h k

theorem tracks_lose {α β : Type} {R : α → List β → Prop} {d : Db α} {l : List β} (h : Tracks R d l)
    (j : Nat) : Tracks R (d.lose j) (l.drop j) := by
  intro k
  have := h (j + k)
  simpa only [Db.lose, List.drop_drop] using this

/-- The number of insertions of `w` -/
theorem inserted_append (a b : List (Op Kw)) (w : Kw) :
    Spec.inserted (a ++ b) w = Spec.inserted a w ++ Spec.inserted b w := by
  simp [Spec.inserted]

/-- What holds of both sides -/
structure Inv (L : Lawful S B arr) (s : Sys S) (t : Spec.Slots Kw) : Prop where
  cli : Tracks (fun m ups => L.C m (fun w => ups.count w)) s.cli t.ups
  srv : Tracks (fun d ws => L.D d (Spec.slot ws)) s.srv t.writes

theorem inv_init (L : Lawful S B arr) : Inv L (init S) ⟨[], []⟩ := by
  refine ⟨fun k => ?_, fun k => ?_⟩
  · simpa [init, Db.lose, Db.cur] using L.c0
  · have := L.d0
    have e : Spec.slot ([] : List (Kw × Nat × Index)) = fun _ _ => none := rfl
    simpa [init, Db.lose, Db.cur, e] using this

theorem slot_cons (w : Kw) (a : Nat) (i : Index) (ws : List (Kw × Nat × Index)) :
    Spec.slot ((w, a, i) :: ws) = fun v b => if v = w ∧ b = a then some i else Spec.slot ws v b := by
  funext v b
  unfold Spec.slot
  rw [List.find?_cons]
  by_cases h : v = w ∧ b = a
  · obtain ⟨rfl, rfl⟩ := h
    simp
  · have h' : ¬ (w = v ∧ a = b) := fun e => h ⟨e.1.symm, e.2.symm⟩
    simp [h, h']

theorem inv_step (L : Lawful S B arr) {s : Sys S} {t : Spec.Slots Kw} (h : Inv L s t) (op : Op Kw)
    (hB : ∀ w, t.ups.count w + (Spec.inserted [op] w).length ≤ B w) :
    Inv L (step S s op) (t.step op) := by
  cases op with
  | clientLoss k => exact ⟨tracks_lose h.cli k, h.srv⟩
  | serverLoss k => exact ⟨h.cli, tracks_lose h.srv k⟩
  | insert w i delivered =>
    have hw : t.ups.count w < B w := by
      have := hB w
      simp [Spec.inserted] at this
      omega
    have hc := tracks_cur h.cli
    have hd := tracks_cur h.srv
    refine ⟨?_, ?_⟩
    · refine tracks_write h.cli _ w ?_
      have := L.request _ _ w i hc hw
      have e : (fun v => (w :: t.ups).count v) =
          fun v => if v = w then t.ups.count w + 1 else t.ups.count v := by
        funext v
        by_cases hv : v = w
        · subst hv; simp
        · rw [if_neg hv, List.count_cons_of_ne (fun h => hv h.symm)]
      rw [e]
      exact this
    · cases delivered with
      | false => exact h.srv
      | true =>
        refine tracks_write h.srv _ (w, t.ups.count w, i) ?_
        rw [slot_cons]
        exact L.store _ _ w i _ _ hc hw hd

theorem ups_bound (ops : List (Op Kw)) (w : Kw) :
    (Spec.Slots.run ops).ups.count w ≤ (Spec.inserted ops w).length := by
  induction ops using List.reverseRecOn with
  | nil => simp [Spec.Slots.run]
  | append_singleton ops op ih =>
    rw [inserted_append, List.length_append, Spec.Slots.run, List.foldl_append]
    change (Spec.Slots.step (Spec.Slots.run ops) op).ups.count w ≤ _
    cases op with
    | clientLoss k =>
      have := (List.drop_sublist k (Spec.Slots.run ops).ups).count_le w
      simp only [Spec.Slots.step]
      omega
    | serverLoss k => simp only [Spec.Slots.step]; omega
    | insert v i d =>
      simp only [Spec.Slots.step, List.count_cons, Spec.inserted, List.filterMap_cons,
        List.filterMap_nil]
      by_cases hv : v = w
      · simp [hv]; exact ih
      · simp [hv]; exact ih

theorem inv_run (L : Lawful S B arr) (ops : List (Op Kw))
    (hB : ∀ w, (Spec.inserted ops w).length ≤ B w) : Inv L (run S ops) (Spec.Slots.run ops) := by
  induction ops using List.reverseRecOn with
  | nil => exact inv_init L
  | append_singleton ops op ih =>
    rw [run, List.foldl_append, Spec.Slots.run, List.foldl_append]
    refine inv_step L (ih fun w => ?_) op fun w => ?_
    · have := hB w
      rw [inserted_append, List.length_append] at this
      omega
    · have := hB w
      rw [inserted_append, List.length_append] at this
      exact Nat.le_trans (Nat.add_le_add_right (ups_bound ops w) _) this

theorem search_slots (L : Lawful S B arr) (ops : List (Op Kw))
    (hB : ∀ w, (Spec.inserted ops w).length ≤ B w) (w : Kw) :
    search S ops w = some (arr ((Spec.Slots.run ops).search w)) := by
  have h := inv_run L ops hB
  exact L.find _ _ _ _ w (tracks_cur h.cli) (tracks_cur h.srv)
    (Nat.le_trans (ups_bound ops w) (hB w))

/-! ## The slots and the insertions -/

/-- Every write is of an inserted document. -/
theorem writes_inserted (ops : List (Op Kw)) :
    ∀ e ∈ (Spec.Slots.run ops).writes, e.2.2 ∈ Spec.inserted ops e.1 := by
  induction ops using List.reverseRecOn with
  | nil => simp [Spec.Slots.run]
  | append_singleton ops op ih =>
    intro e he
    rw [Spec.Slots.run, List.foldl_append] at he
    change e ∈ (Spec.Slots.step (Spec.Slots.run ops) op).writes at he
    rw [inserted_append, List.mem_append]
    cases op with
    | clientLoss k => exact .inl (ih e he)
    | serverLoss k => exact .inl (ih e (List.mem_of_mem_drop he))
    | insert v i d =>
      cases d with
      | false => exact .inl (ih e he)
      | true =>
        simp only [Spec.Slots.step, if_true, List.mem_cons] at he
        rcases he with rfl | he
        · right; simp [Spec.inserted]
        · exact .inl (ih e he)

theorem slot_mem {ws : List (Kw × Nat × Index)} {w : Kw} {a : Nat} {i : Index}
    (h : Spec.slot ws w a = some i) : (w, a, i) ∈ ws := by
  unfold Spec.slot at h
  rw [Option.map_eq_some_iff] at h
  obtain ⟨e, he, rfl⟩ := h
  have h1 := List.mem_of_find?_eq_some he
  have h2 := List.find?_some he
  simp only [decide_eq_true_eq] at h2
  obtain ⟨rfl, rfl⟩ := h2
  exact h1

theorem search_inserted (ops : List (Op Kw)) (w : Kw) :
    ∀ i ∈ (Spec.Slots.run ops).search w, i ∈ Spec.inserted ops w := by
  intro i hi
  simp only [Spec.Slots.search, List.mem_filterMap] at hi
  obtain ⟨a, _, ha⟩ := hi
  exact writes_inserted ops _ (slot_mem ha)

/-! ### Losses of a list of insertions -/

theorem forget_nil (k : Nat) : Spec.forget k ([] : List (Spec.Ins Kw)) = [] := by
  cases k <;> rfl

theorem unstore_nil (k : Nat) : Spec.unstore k ([] : List (Spec.Ins Kw)) = [] := by
  cases k <;> rfl

theorem forget_known (k : Nat) (l : List (Spec.Ins Kw)) :
    (Spec.forget k l).filter (·.known) = (l.filter (·.known)).drop k := by
  induction l generalizing k with
  | nil => simp [forget_nil]
  | cons e l ih =>
    cases k with
    | zero => rfl
    | succ k =>
      rw [Spec.forget]
      cases he : e.known <;> simp [he, ih]

theorem unstore_known (k : Nat) (l : List (Spec.Ins Kw)) (h : ∀ e ∈ l, e.known = true) :
    ∀ e ∈ Spec.unstore k l, e.known = true := by
  induction l generalizing k with
  | nil => simp [unstore_nil]
  | cons e l ih =>
    cases k with
    | zero => exact h
    | succ k =>
      have h1 := h e (List.mem_cons_self ..)
      have h2 : ∀ x ∈ l, x.known = true := fun x hx => h x (List.mem_cons_of_mem _ hx)
      rw [Spec.unstore]
      intro x hx
      cases he : e.stored <;> simp only [he, if_true, Bool.false_eq_true, if_false, List.mem_cons] at hx
      · rcases hx with rfl | hx
        · exact h1
        · exact ih _ h2 _ hx
      · rcases hx with rfl | hx
        · exact h1
        · exact ih _ h2 _ hx

/-- The writes for insertions of which the client forgot none -/
def writesOf : List (Spec.Ins Kw) → List (Kw × Nat × Index)
  | [] => []
  | e :: l => if e.stored then (e.w, (l.map (·.w)).count e.w, e.i) :: writesOf l else writesOf l

theorem unstore_w (k : Nat) (l : List (Spec.Ins Kw)) :
    (Spec.unstore k l).map (·.w) = l.map (·.w) := by
  induction l generalizing k with
  | nil => simp [unstore_nil]
  | cons e l ih =>
    cases k with
    | zero => rfl
    | succ k =>
      rw [Spec.unstore]
      cases he : e.stored <;> simp [ih]

theorem unstore_writes (k : Nat) (l : List (Spec.Ins Kw)) :
    writesOf (Spec.unstore k l) = (writesOf l).drop k := by
  induction l generalizing k with
  | nil => simp [unstore_nil, writesOf]
  | cons e l ih =>
    cases k with
    | zero => rfl
    | succ k =>
      rw [Spec.unstore]
      cases he : e.stored <;> simp [writesOf, he, ih]

/-- The entries of `w`, oldest first: the document if its update is stored -/
def cells (w : Kw) (l : List (Spec.Ins Kw)) : List (Option Index) :=
  (l.reverse.filter (fun e => e.w = w)).map (fun e => if e.stored then some e.i else none)

theorem cells_cons (w : Kw) (e : Spec.Ins Kw) (l : List (Spec.Ins Kw)) :
    cells w (e :: l) = cells w l ++ if e.w = w then [if e.stored then some e.i else none] else [] := by
  by_cases h : e.w = w <;> simp [cells, h]

theorem cells_length (w : Kw) (l : List (Spec.Ins Kw)) : (cells w l).length = (l.map (·.w)).count w := by
  induction l with
  | nil => rfl
  | cons e l ih =>
    rw [cells_cons, List.length_append, ih, List.map_cons, List.count_cons]
    by_cases h : e.w = w <;> simp [h]

/-- The slots that the client knows of hold the documents that it remembers. -/
def Match (K : List (Spec.Ins Kw)) (f : Kw → Nat → Option Index) : Prop :=
  ∀ w a, a < (cells w K).length → f w a = ((cells w K)[a]?).join

theorem match_drop {K : List (Spec.Ins Kw)} {f : Kw → Nat → Option Index} (h : Match K f) (k : Nat) :
    Match (K.drop k) f := by
  induction k with
  | zero => exact h
  | succ k ih =>
    cases hk : K.drop k with
    | nil =>
      have : K.drop (k + 1) = [] := by
        rw [← List.drop_drop, hk]; rfl
      rw [this]
      intro w a ha
      simp [cells] at ha
    | cons e l =>
      have : K.drop (k + 1) = l := by
        rw [← List.drop_drop, hk]; rfl
      rw [this]
      rw [hk] at ih
      intro w a ha
      have := ih w a (by rw [cells_cons, List.length_append]; omega)
      rw [this, cells_cons, List.getElem?_append_left ha]

theorem match_insert {K : List (Spec.Ins Kw)} {f : Kw → Nat → Option Index} (h : Match K f) (w : Kw)
    (i : Index) (n : Nat) (hn : n = (K.map (·.w)).count w) (kn : Bool) :
    Match (⟨w, i, true, kn⟩ :: K) (fun v b => if v = w ∧ b = n then some i else f v b) := by
  intro v b hb
  rw [cells_cons] at hb ⊢
  rw [← cells_length] at hn
  by_cases hv : v = w
  · subst hv
    simp only [if_true, List.length_append, List.length_singleton] at hb
    by_cases hb' : b = n
    · subst hb'
      simp [hn]
    · simp only [hb', and_false, if_false, if_true]
      rw [h v b (by omega), List.getElem?_append_left (by omega)]
  · have hv' : ¬ w = v := fun e => hv e.symm
    simp only [hv, hv', false_and, if_false, List.append_nil] at hb ⊢
    exact h v b hb

theorem writesOf_lt (l : List (Spec.Ins Kw)) :
    ∀ e ∈ writesOf l, e.2.1 < (l.map (·.w)).count e.1 := by
  induction l with
  | nil => simp [writesOf]
  | cons x l ih =>
    intro e he
    rw [writesOf] at he
    have hmono : ∀ v, (l.map (·.w)).count v ≤ ((x :: l).map (·.w)).count v := fun v =>
      (List.sublist_cons_self ..).count_le v
    cases hx : x.stored with
    | false =>
      simp only [hx, Bool.false_eq_true, if_false] at he
      exact Nat.lt_of_lt_of_le (ih e he) (hmono _)
    | true =>
      simp only [hx, if_true, List.mem_cons] at he
      rcases he with rfl | he
      · simp
      · exact Nat.lt_of_lt_of_le (ih e he) (hmono _)

theorem match_writesOf (l : List (Spec.Ins Kw)) : Match l (Spec.slot (writesOf l)) := by
  induction l with
  | nil => intro w a ha; simp [cells] at ha
  | cons e l ih =>
    cases he : e.stored with
    | true =>
      have := match_insert ih e.w e.i _ rfl e.known
      rw [writesOf, he, if_pos rfl, slot_cons]
      have e' : e = ⟨e.w, e.i, true, e.known⟩ := by rw [← he]
      rw [e']
      exact this
    | false =>
      rw [writesOf, he]
      simp only [Bool.false_eq_true, if_false]
      intro v b hb
      rw [cells_cons] at hb ⊢
      simp only [he, Bool.false_eq_true, if_false] at hb ⊢
      by_cases hv : e.w = v
      · subst hv
        simp only [if_true, List.length_append, List.length_singleton] at hb ⊢
        by_cases hb' : b < (cells e.w l).length
        · rw [ih _ _ hb', List.getElem?_append_left hb']
        · have hbe : b = (cells e.w l).length := by omega
          have hnone : Spec.slot (writesOf l) e.w b = none := by
            rw [Option.eq_none_iff_forall_ne_some]
            intro i hi
            have := writesOf_lt l _ (slot_mem hi)
            rw [← cells_length] at this
            simp only at this
            omega
          rw [hnone, hbe]
          simp
      · simp only [hv, if_false, List.append_nil] at hb ⊢
        exact ih v b hb

theorem match_search {K : List (Spec.Ins Kw)} {f : Kw → Nat → Option Index} (h : Match K f) (w : Kw) :
    (List.range ((K.map (·.w)).count w)).filterMap (f w) =
      (K.reverse.filter (fun e => e.w = w ∧ e.stored)).map (·.i) := by
  have h1 : (List.range ((K.map (·.w)).count w)).filterMap (f w) = (cells w K).filterMap id := by
    rw [← Diana.filterMap_slots, ← cells_length]
    apply List.filterMap_congr
    intro a ha
    exact h w a (List.mem_range.mp ha)
  rw [h1, cells, List.filterMap_map]
  generalize K.reverse = R
  induction R with
  | nil => rfl
  | cons e R ih =>
    by_cases hw : e.w = w
    · cases hs : e.stored <;> simp [hw, hs] at ih ⊢ <;> exact ih
    · simp [hw] at ih ⊢
      exact ih

/-! ### The two phases -/

theorem run_append (a b : List (Op Kw)) : Spec.run (a ++ b) = b.foldl Spec.step (Spec.run a) := by
  simp [Spec.run]

theorem slots_append (a b : List (Op Kw)) :
    Spec.Slots.run (a ++ b) = b.foldl Spec.Slots.step (Spec.Slots.run a) := by
  simp [Spec.Slots.run]

/-- As long as the client loses nothing -/
theorem phase1 (ops : List (Op Kw)) (h : Spec.NoClientLoss ops) :
    (∀ e ∈ Spec.run ops, e.known = true) ∧
    (Spec.Slots.run ops).ups = (Spec.run ops).map (·.w) ∧
    (Spec.Slots.run ops).writes = writesOf (Spec.run ops) := by
  induction ops using List.reverseRecOn with
  | nil => exact ⟨by simp [Spec.run], rfl, rfl⟩
  | append_singleton ops op ih =>
    obtain ⟨h1, h2, h3⟩ := ih fun k hk => h k (List.mem_append_left _ hk)
    rw [run_append, slots_append]
    simp only [List.foldl_cons, List.foldl_nil]
    cases op with
    | clientLoss k => exact absurd (by simp) (h k)
    | serverLoss k =>
      refine ⟨unstore_known k _ h1, ?_, ?_⟩
      · simp only [Spec.Slots.step, Spec.step, unstore_w, h2]
      · simp only [Spec.Slots.step, Spec.step, unstore_writes, h3]
    | insert w i d =>
      refine ⟨?_, ?_, ?_⟩
      · simp only [Spec.step, List.mem_cons, forall_eq_or_imp, true_and]
        exact h1
      · simp [Spec.Slots.step, Spec.step, h2]
      · simp only [Spec.Slots.step, Spec.step, writesOf, h2, h3]

/-- From then on, with everything delivered and nothing lost by the server -/
theorem phase2 (a b : List (Op Kw)) (ha : Spec.NoClientLoss a) (hb1 : Spec.NoServerLoss b)
    (hb2 : Spec.AllDelivered b) :
    (Spec.Slots.run (a ++ b)).ups = ((Spec.run (a ++ b)).filter (·.known)).map (·.w) ∧
    Match ((Spec.run (a ++ b)).filter (·.known)) (Spec.slot (Spec.Slots.run (a ++ b)).writes) := by
  induction b using List.reverseRecOn with
  | nil =>
    obtain ⟨h1, h2, h3⟩ := phase1 a ha
    have hf : (Spec.run a).filter (·.known) = Spec.run a := List.filter_eq_self.mpr h1
    rw [List.append_nil, hf, h3]
    exact ⟨h2, match_writesOf _⟩
  | append_singleton b op ih =>
    obtain ⟨h1, h2⟩ := ih (fun k hk => hb1 k (List.mem_append_left _ hk))
      (fun w i hk => hb2 w i (List.mem_append_left _ hk))
    rw [← List.append_assoc, run_append, slots_append]
    simp only [List.foldl_cons, List.foldl_nil]
    cases op with
    | serverLoss k => exact absurd (by simp) (hb1 k)
    | clientLoss k =>
      simp only [Spec.Slots.step, Spec.step, forget_known]
      exact ⟨by rw [h1, List.map_drop], match_drop h2 k⟩
    | insert w i d =>
      cases d with
      | false => exact absurd (by simp) (hb2 w i)
      | true =>
        simp only [Spec.Slots.step, Spec.step, if_true, List.filter_cons, List.map_cons, h1, true_and]
        rw [slot_cons]
        exact match_insert h2 w i _ rfl true

theorem slots_remembered (a b : List (Op Kw)) (ha : Spec.NoClientLoss a) (hb1 : Spec.NoServerLoss b)
    (hb2 : Spec.AllDelivered b) (w : Kw) :
    (Spec.Slots.run (a ++ b)).search w = Spec.remembered (a ++ b) w := by
  obtain ⟨h1, h2⟩ := phase2 a b ha hb1 hb2
  rw [Spec.Slots.search, h1, match_search h2, Spec.remembered, ← List.filter_reverse, List.filter_filter]
  congr 1
  apply List.filter_congr
  intro e _
  cases e.known <;> simp

theorem remembered_stored (ops : List (Op Kw)) (h : Spec.NoClientLoss ops) (w : Kw) :
    Spec.remembered ops w = Spec.stored ops w := by
  obtain ⟨h1, _⟩ := phase1 ops h
  unfold Spec.remembered Spec.stored
  congr 1
  apply List.filter_congr
  intro e he
  rw [List.mem_reverse] at he
  simp [h1 e he]

/-! ## Earlier searches and later updates -/

/-- An update is found with the counters `m` if its slot is one of those they cover. -/
theorem find_update (L : Lawful S B arr) (harr : ∀ x : Option Index, arr x.toList = x.toList)
    (a ops : List (Op Kw)) (w : Kw) (j : Index) (ha : ∀ v, (Spec.inserted a v).length ≤ B v)
    (hops : ∀ v, (Spec.inserted ops v).length ≤ B v) (hw : (Spec.inserted ops w).length < B w) (v : Kw) :
    S.find (run S a).cli.cur (S.store S.srv0 (request S ops w j)) v =
      some (if v = w ∧ (Spec.Slots.run ops).ups.count w < (Spec.Slots.run a).ups.count w then [j]
        else []) := by
  have h1 := tracks_cur (inv_run L a ha).cli
  have h2 := tracks_cur (inv_run L ops hops).cli
  have h3 := L.store _ _ w j _ _ h2 (Nat.lt_of_le_of_lt (ups_bound ops w) hw) L.d0
  have h4 := L.find _ _ _ _ v h1 h3 (Nat.le_trans (ups_bound a v) (ha v))
  refine h4.trans ?_
  generalize (Spec.Slots.run ops).ups.count w = p
  generalize hq : (Spec.Slots.run a).ups.count v = q
  have key : (List.range q).filterMap (fun b => if v = w ∧ b = p then some j else none) =
      (if v = w ∧ p < q then some j else none : Option Index).toList := by
    clear hq
    induction q with
    | zero => simp
    | succ q ih =>
      rw [List.range_succ, List.filterMap_append, ih]
      by_cases hv : v = w
      · by_cases hp : p < q
        · simp [hv, hp, Nat.lt_succ_of_lt hp, Nat.ne_of_gt hp]
        · by_cases hp2 : q = p
          · simp [hv, hp2]
          · have h5 : ¬ p < q + 1 := by omega
            simp [hv, hp, hp2, h5]
      · simp [hv]
  rw [key, harr]
  by_cases hv : v = w
  · subst hv
    rw [← hq]
    by_cases hp : p < List.count v (Spec.Slots.run a).ups <;> simp [hp]
  · simp [hv]

theorem ups_mono (a b : List (Op Kw)) (hb : Spec.NoClientLoss b) (w : Kw) :
    (Spec.Slots.run a).ups.count w ≤ (Spec.Slots.run (a ++ b)).ups.count w := by
  induction b using List.reverseRecOn with
  | nil => simp
  | append_singleton b op ih =>
    have := ih fun k hk => hb k (List.mem_append_left _ hk)
    rw [← List.append_assoc, slots_append]
    simp only [List.foldl_cons, List.foldl_nil]
    cases op with
    | serverLoss k => exact this
    | clientLoss k => exact absurd (by simp) (hb k)
    | insert v i d => exact Nat.le_trans this ((List.sublist_cons_self ..).count_le w)

end Verif.Power
