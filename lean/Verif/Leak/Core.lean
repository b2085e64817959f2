import Verif.Leak.Spec
import Mathlib.Logic.Equiv.Basic
import Mathlib.Tactic.ByContra

/-!
# Two histories with the same leakage: a permutation of the keys

The messages of Sophos and Diana have a common form: with key material `mat (hash w)` for the keyword `w` and a random function `F`
on points, the insertion number `a` for `w` of the document `i` is sent as the two values of `F` at the point
`pt (mat (hash w)) a`, the second masking the document; a search for `w` is sent as a function of the material and the
number of insertions.
-/

namespace Verif.Leak

/-! ## Permutations -/

open Classical in
/-- A permutation that maps the first component of each pair to the second, for a consistent list -/
noncomputable def permOf {P : Type} : List (P × P) → Equiv.Perm P
  | [] => Equiv.refl P
  | (p, q) :: l => (permOf l).trans (Equiv.swap (permOf l p) q)

theorem permOf_fix {P : Type} (l : List (P × P)) : ∀ x, (∀ y ∈ l, y.1 ≠ x ∧ y.2 ≠ x) → permOf l x = x := by
  classical
  induction l with
  | nil => intro x _; rfl
  | cons y l ih =>
    intro x h
    obtain ⟨p, q⟩ := y
    have hx := ih x (fun y hy => h y (List.mem_cons_of_mem _ hy))
    obtain ⟨h1, h2⟩ := h (p, q) List.mem_cons_self
    change Equiv.swap (permOf l p) q (permOf l x) = x
    rw [hx]
    apply Equiv.swap_apply_of_ne_of_ne
    · intro e
      rw [← hx] at e
      exact h1 ((permOf l).injective e).symm
    · exact fun e => h2 e.symm

/-- The pairs of the list are those of a partial bijection. -/
def Consistent {P : Type} (l : List (P × P)) : Prop := ∀ x ∈ l, ∀ y ∈ l, x.1 = y.1 ↔ x.2 = y.2

theorem permOf_apply {P : Type} (l : List (P × P)) (hc : Consistent l) : ∀ x ∈ l, permOf l x.1 = x.2 := by
  classical
  induction l with
  | nil => intro x hx; cases hx
  | cons y l ih =>
    intro x hx
    obtain ⟨p, q⟩ := y
    have ih := ih (fun x hx y hy => hc x (List.mem_cons_of_mem _ hx) y (List.mem_cons_of_mem _ hy))
    change Equiv.swap (permOf l p) q (permOf l x.1) = x.2
    rcases List.mem_cons.mp hx with rfl | hx'
    · exact Equiv.swap_apply_left _ _
    · rw [ih x hx']
      have hxy := hc x hx (p, q) List.mem_cons_self
      by_cases he : x.1 = p
      · have hq := hxy.mp he
        rw [show permOf l p = q by rw [← he, ih x hx']; exact hq, Equiv.swap_self]
        rfl
      · apply Equiv.swap_apply_of_ne_of_ne
        · intro e
          rw [← ih x hx'] at e
          exact he ((permOf l).injective e)
        · exact fun e => he (hxy.mpr e)

theorem permOf_diagonal {P : Type} (l : List (P × P)) (hd : ∀ x ∈ l, x.1 = x.2) : permOf l = Equiv.refl P := by
  classical
  induction l with
  | nil => rfl
  | cons y l ih =>
    obtain ⟨p, q⟩ := y
    have hp : p = q := hd (p, q) List.mem_cons_self
    have ih := ih (fun x hx => hd x (List.mem_cons_of_mem _ hx))
    subst hp
    unfold permOf
    rw [ih]
    exact Equiv.ext (fun x => by simp)

/-! ## Positions -/

variable {Kw D : Type} [DecidableEq Kw]

omit [DecidableEq Kw] in
theorem eachFrom_get {β : Type} (f : List (Cmd Kw D) → Cmd Kw D → β) (H : List (Cmd Kw D)) :
    ∀ (past : List (Cmd Kw D)) (n : Nat), (eachFrom f past H)[n]? = H[n]?.map (f (past ++ H.take n)) := by
  induction H with
  | nil => intro past n; rfl
  | cons o H ih =>
    intro past n
    cases n with
    | zero => simp [eachFrom]
    | succ n =>
      change (eachFrom f (past ++ [o]) H)[n]? = _
      rw [ih]
      simp

theorem mem_insertedFrom (w : Kw) (H : List (Cmd Kw D)) : ∀ (n m : Nat) (i : D),
    (m, i) ∈ insertedFrom w n H ↔ n ≤ m ∧ H[m - n]? = some (.insert w i) := by
  induction H with
  | nil => intro n m i; simp [insertedFrom]
  | cons o H ih =>
    intro n m i
    have hcase : m = n ∨ n + 1 ≤ m ∨ m < n := by omega
    cases o with
    | insert v j =>
      unfold insertedFrom
      rw [List.mem_append, ih]
      rcases hcase with rfl | h | h
      · by_cases hv : v = w
        · simp [hv, eq_comm]
        · simp [hv]
      · rw [show m - n = (m - (n + 1)) + 1 by omega]
        have : m ≠ n := by omega
        by_cases hv : v = w
        · simp [hv, this]; omega
        · simp [hv]; omega
      · have : m ≠ n := by omega
        have h1 : ¬ n ≤ m := by omega
        have h2 : ¬ n + 1 ≤ m := by omega
        by_cases hv : v = w <;> simp [hv, this, h1, h2]
    | search v =>
      unfold insertedFrom
      rw [ih]
      rcases hcase with rfl | h | h
      · simp
      · rw [show m - n = (m - (n + 1)) + 1 by omega]
        simp; omega
      · have h1 : ¬ n ≤ m := by omega
        have h2 : ¬ n + 1 ≤ m := by omega
        simp [h1, h2]

theorem mem_inserted (w : Kw) (H : List (Cmd Kw D)) (m : Nat) (i : D) :
    (m, i) ∈ inserted w H ↔ H[m]? = some (.insert w i) := by
  unfold inserted
  rw [mem_insertedFrom]
  simp

theorem insertedFrom_append (w : Kw) (H K : List (Cmd Kw D)) : ∀ n,
    insertedFrom w n (H ++ K) = insertedFrom w n H ++ insertedFrom w (n + H.length) K := by
  induction H with
  | nil => intro n; simp [insertedFrom]
  | cons o H ih =>
    intro n
    cases o with
    | insert v i =>
      rw [List.cons_append, insertedFrom, insertedFrom, ih, List.append_assoc, List.length_cons, show n + 1 + H.length = n + (H.length + 1) by omega]
    | search v =>
      rw [List.cons_append, insertedFrom, insertedFrom, ih, List.length_cons, show n + 1 + H.length = n + (H.length + 1) by omega]

/-- The insertions before the position `m` are those found later that have a smaller position. -/
theorem filter_inserted (w : Kw) (H : List (Cmd Kw D)) (m n : Nat) (h : m ≤ n) :
    (inserted w (H.take n)).filter (fun x => x.1 < m) = inserted w (H.take m) := by
  rw [show H.take n = H.take m ++ (H.take n).drop m by
    have e := List.take_append_drop m (H.take n)
    rw [List.take_take, Nat.min_eq_left h] at e
    exact e.symm]
  unfold inserted
  rw [insertedFrom_append, List.filter_append]
  have h1 : (insertedFrom w 0 (H.take m)).filter (fun x => x.1 < m) = insertedFrom w 0 (H.take m) := by
    apply List.filter_eq_self.mpr
    rintro ⟨a, i⟩ ha
    rw [mem_insertedFrom] at ha
    have := (List.getElem?_eq_some_iff.mp ha.2).1
    rw [List.length_take] at this
    simp
    omega
  have h2 : (insertedFrom w (0 + (H.take m).length) ((H.take n).drop m)).filter (fun x => x.1 < m) = [] := by
    apply List.filter_eq_nil_iff.mpr
    rintro ⟨a, i⟩ ha
    rw [mem_insertedFrom] at ha
    have := (List.getElem?_eq_some_iff.mp ha.2).1
    rw [List.length_drop, List.length_take, List.length_take] at this
    rw [List.length_take] at ha
    simp
    omega
  rw [h1, h2, List.append_nil]

theorem leak_get (H : List (Cmd Kw D)) (n : Nat) : (leak H)[n]? = H[n]?.map (leakOf (H.take n)) := by
  unfold leak
  rw [eachFrom_get]
  rfl

/-- Two insertions have different slots. -/
theorem slot_unique {H : List (Cmd Kw D)} {m n : Nat} {w : Kw} {a : Nat} (h1 : SlotAt H m w a) (h2 : SlotAt H n w a) :
    m = n := by
  have key : ∀ m n : Nat, SlotAt H m w a → SlotAt H n w a → ¬ m < n := by
    rintro m n ⟨i, hi, ha⟩ ⟨j, hj, hb⟩ hlt
    have hmem : (m, i) ∈ inserted w (H.take n) := by
      rw [mem_inserted, List.getElem?_take, if_pos hlt]
      exact hi
    have hcount : count w (H.take m) < count w (H.take n) := by
      unfold count
      rw [← filter_inserted w H m n (by omega)]
      exact List.length_filter_lt_length_iff_exists.mpr ⟨(m, i), hmem, by simp⟩
    omega
  have := key m n h1 h2
  have := key n m h2 h1
  omega

/-- The slot of each insertion found by a search -/
theorem slot_of_count (H : List (Cmd Kw D)) (w : Kw) (n : Nat) : ∀ a, a < count w (H.take n) → ∃ m, m < n ∧ SlotAt H m w a := by
  induction n with
  | zero => intro a h; simp [count, inserted, insertedFrom] at h
  | succ n ih =>
    intro a h
    by_cases ha : a < count w (H.take n)
    · obtain ⟨m, hm, hs⟩ := ih a ha
      exact ⟨m, by omega, hs⟩
    · rw [List.take_add_one] at h
      cases ho : H[n]? with
      | none => rw [ho] at h; simp at h; omega
      | some o =>
        rw [ho] at h
        unfold count inserted at h ha
        rw [Option.toList_some, insertedFrom_append, List.length_append] at h
        cases o with
        | search v => simp [insertedFrom] at h; omega
        | insert v i =>
          by_cases hv : v = w
          · subst hv
            simp [insertedFrom] at h
            refine ⟨n, by omega, i, ho, ?_⟩
            unfold count inserted
            omega
          · simp [insertedFrom, hv] at h
            omega

section Same

variable {Kw' : Type} [DecidableEq Kw'] {H : List (Cmd Kw D)} {H' : List (Cmd Kw' D)}

theorem same_search (h : leak H = leak H') {n : Nat} {w : Kw} (hn : H[n]? = some (.search w)) :
    ∃ w', H'[n]? = some (.search w') ∧ inserted w (H.take n) = inserted w' (H'.take n) := by
  have e := congrArg (fun l => l[n]?) h
  simp only [leak_get, hn] at e
  cases hn' : H'[n]? with
  | none => rw [hn'] at e; cases e
  | some o =>
    rw [hn'] at e
    cases o with
    | insert v i => simp [leakOf] at e
    | search v => exact ⟨v, rfl, by simpa [leakOf] using e⟩

theorem same_insert (h : leak H = leak H') {n : Nat} {w : Kw} {i : D} (hn : H[n]? = some (.insert w i)) :
    ∃ w' i', H'[n]? = some (.insert w' i') := by
  have e := congrArg (fun l => l[n]?) h
  simp only [leak_get, hn] at e
  cases hn' : H'[n]? with
  | none => rw [hn'] at e; cases e
  | some o =>
    rw [hn'] at e
    cases o with
    | insert v j => exact ⟨v, j, rfl⟩
    | search v => simp [leakOf] at e

/-- An insertion that a search reveals is the same in both histories. -/
theorem same_revealed (h : leak H = leak H') {m n : Nat} {w : Kw} {i : D} (hm : H[m]? = some (.insert w i)) (hmn : m < n)
    (hn : H[n]? = some (.search w)) : ∃ w', H'[m]? = some (.insert w' i) ∧ H'[n]? = some (.search w') ∧
      count w (H.take m) = count w' (H'.take m) := by
  obtain ⟨w', hn', he⟩ := same_search h hn
  have hmem : (m, i) ∈ inserted w (H.take n) := by
    rw [mem_inserted, List.getElem?_take, if_pos hmn]
    exact hm
  rw [he, mem_inserted, List.getElem?_take, if_pos hmn] at hmem
  refine ⟨w', hmem, hn', ?_⟩
  unfold count
  rw [← filter_inserted w H m n (by omega), ← filter_inserted w' H' m n (by omega), he]

/-- The keywords searched twice are the same in both histories. -/
theorem same_keyword (h : leak H = leak H') {n k : Nat} {w v : Kw} {w' v' : Kw'} (hn : H[n]? = some (.search w))
    (hk : H[k]? = some (.search v)) (hn' : H'[n]? = some (.search w')) (hk' : H'[k]? = some (.search v'))
    (hw : inserted w (H.take n) ≠ []) (hv : inserted v (H.take k) ≠ []) (e : w = v) : w' = v' := by
  subst e
  obtain ⟨w1, h1, e1⟩ := same_search h hn
  rw [hn'] at h1
  cases h1
  obtain ⟨w2, h2, e2⟩ := same_search h hk
  rw [hk'] at h2
  cases h2
  -- an insertion before both searches
  have hmin : ∃ m i, (m, i) ∈ inserted w (H.take n) ∧ (m, i) ∈ inserted w (H.take k) := by
    rcases Nat.le_total n k with hnk | hnk
    · obtain ⟨⟨m, i⟩, hx⟩ := List.exists_mem_of_ne_nil _ hw
      have hx' := hx
      rw [← filter_inserted w H n k hnk] at hx'
      exact ⟨m, i, hx, (List.mem_filter.mp hx').1⟩
    · obtain ⟨⟨m, i⟩, hx⟩ := List.exists_mem_of_ne_nil _ hv
      have hx' := hx
      rw [← filter_inserted w H k n hnk] at hx'
      exact ⟨m, i, (List.mem_filter.mp hx').1, hx⟩
  obtain ⟨m, i, ha, hb⟩ := hmin
  rw [e1, mem_inserted, List.getElem?_take] at ha
  rw [e2, mem_inserted, List.getElem?_take] at hb
  by_cases hmn : m < n
  · by_cases hmk : m < k
    · rw [if_pos hmn] at ha
      rw [if_pos hmk, ha] at hb
      cases hb
      rfl
    · rw [if_neg hmk] at hb; cases hb
  · rw [if_neg hmn] at ha; cases ha

end Same

theorem leak_append_inserts (P : List (Cmd Kw D)) (X Y : List (Kw × D)) (h : X.length = Y.length) :
    leak (P ++ X.map (fun e => .insert e.1 e.2)) = leak (P ++ Y.map (fun e => .insert e.1 e.2)) := by
  apply List.ext_getElem?
  intro n
  rw [leak_get, leak_get]
  by_cases hn : n < P.length
  · rw [List.getElem?_append_left hn, List.getElem?_append_left hn, List.take_append_of_le_length (by omega),
      List.take_append_of_le_length (by omega)]
  · rw [List.getElem?_append_right (by omega), List.getElem?_append_right (by omega), List.getElem?_map, List.getElem?_map]
    by_cases hx : n - P.length < X.length
    · rw [List.getElem?_eq_getElem hx, List.getElem?_eq_getElem (h ▸ hx)]
      rfl
    · rw [List.getElem?_eq_none (by omega), List.getElem?_eq_none (by omega)]
      rfl

omit [DecidableEq Kw] in
/-- The searches of a history followed by insertions -/
theorem search_append_inserts {P : List (Cmd Kw D)} {X : List (Kw × D)} {n : Nat} {w : Kw} :
    (P ++ X.map (fun e => Cmd.insert e.1 e.2))[n]? = some (.search w) ↔ P[n]? = some (.search w) := by
  by_cases hn : n < P.length
  · rw [List.getElem?_append_left hn]
  · rw [List.getElem?_append_right (by omega), List.getElem?_map, show P[n]? = none from List.getElem?_eq_none (by omega)]
    cases X[n - P.length]? <;> simp

/-! ## The permutation of the keys -/

variable {Kw' Seed M P T X E S : Type} [DecidableEq Kw']

/-- Keys: the material of each seed, and a random function on points -/
abbrev Keys (Seed M P T X : Type) := (Seed → M) × (P → T × X)

/-- The message of a command -/
inductive Msg (T E S : Type) where
  | update (t : T) (e : E)
  | search (s : S)

/-- The message of a command after the commands `past`: `pt` gives the points, `mask` masks a document, `req` makes the search
request from the material and the (positive) number of insertions; `unknown` is sent for a keyword without insertions. -/
def msgOf (hash : Kw → Seed) (pt : M → Nat → P) (mask : D → X → E) (req : M → Nat → S) (unknown : S) (k : Keys Seed M P T X)
    (past : List (Cmd Kw D)) : Cmd Kw D → Msg T E S
  | .insert w i =>
    let y := k.2 (pt (k.1 (hash w)) (count w past))
    .update y.1 (mask i y.2)
  | .search w => .search (if count w past = 0 then unknown else req (k.1 (hash w)) (count w past))

/-- The points of the insertions of a history are distinct. -/
def Distinct (hash : Kw → Seed) (pt : M → Nat → P) (mat : Seed → M) (H : List (Cmd Kw D)) : Prop :=
  ∀ m n w a v b, SlotAt H m w a → SlotAt H n v b → pt (mat (hash w)) a = pt (mat (hash v)) b → m = n

/-- The hash function has no collision among the keywords searched in a history. -/
def HashOk (hash : Kw → Seed) (H : List (Cmd Kw D)) : Prop :=
  ∀ (m n : Nat) (w v : Kw), H[m]? = some (.search w) → H[n]? = some (.search v) → hash w = hash v → w = v

/-- A point is that of an insertion which no search reveals. -/
def HiddenPoint (hash : Kw → Seed) (pt : M → Nat → P) (mat : Seed → M) (H : List (Cmd Kw D)) (x : P) : Prop :=
  ∃ m w a, HiddenAt H m w a ∧ x = pt (mat (hash w)) a

/-- The seeds of the keywords searched in the same positions -/
def seedPairs (hash : Kw → Seed) (hash' : Kw' → Seed) (H : List (Cmd Kw D)) (H' : List (Cmd Kw' D)) : List (Seed × Seed) :=
  (List.range H.length).filterMap (fun (n : Nat) => match H[n]?, H'[n]? with
    | some (.search w), some (.search w') =>
      if count w (H.take n) = 0 then none else some (hash w, hash' w')
    | _, _ => none)

/-- The points of the insertions in the same positions, and their documents -/
def slotPairs (hash : Kw → Seed) (hash' : Kw' → Seed) (pt : M → Nat → P) (mat mat' : Seed → M) (H : List (Cmd Kw D))
    (H' : List (Cmd Kw' D)) : List ((P × P) × (D × D)) :=
  (List.range H.length).filterMap (fun (n : Nat) => match H[n]?, H'[n]? with
    | some (.insert w i), some (.insert w' i') =>
      some ((pt (mat (hash w)) (count w (H.take n)), pt (mat' (hash' w')) (count w' (H'.take n))), (i, i'))
    | _, _ => none)

omit [DecidableEq Kw'] in
theorem mem_seedPairs {hash : Kw → Seed} {hash' : Kw' → Seed} {H : List (Cmd Kw D)} {H' : List (Cmd Kw' D)}
    {x : Seed × Seed} : x ∈ seedPairs hash hash' H H' ↔ ∃ n w w', H[n]? = some (.search w) ∧ H'[n]? = some (.search w') ∧
      count w (H.take n) ≠ 0 ∧ x = (hash w, hash' w') := by
  unfold seedPairs
  rw [List.mem_filterMap]
  constructor
  · rintro ⟨n, -, h⟩
    cases ho : H[n]? with
    | none => rw [ho] at h; cases h
    | some o =>
      cases ho' : H'[n]? with
      | none => rw [ho, ho'] at h; cases o <;> cases h
      | some o' =>
        rw [ho, ho'] at h
        cases o with
        | insert w i => cases h
        | search w =>
          cases o' with
          | insert w i => cases h
          | search w' =>
            simp only at h
            by_cases hc : count w (H.take n) = 0
            · rw [if_pos hc] at h; cases h
            · rw [if_neg hc] at h
              cases h
              exact ⟨n, w, w', ho, ho', hc, rfl⟩
  · rintro ⟨n, w, w', h, h', hc, rfl⟩
    refine ⟨n, List.mem_range.mpr (List.getElem?_eq_some_iff.mp h).1, ?_⟩
    rw [h, h']
    simp only
    rw [if_neg hc]

theorem mem_slotPairs {hash : Kw → Seed} {hash' : Kw' → Seed} {pt : M → Nat → P} {mat mat' : Seed → M} {H : List (Cmd Kw D)}
    {H' : List (Cmd Kw' D)} {x : (P × P) × (D × D)} : x ∈ slotPairs hash hash' pt mat mat' H H' ↔
      ∃ n w w' i i', H[n]? = some (.insert w i) ∧ H'[n]? = some (.insert w' i') ∧
      x = ((pt (mat (hash w)) (count w (H.take n)), pt (mat' (hash' w')) (count w' (H'.take n))), (i, i')) := by
  unfold slotPairs
  rw [List.mem_filterMap]
  constructor
  · rintro ⟨n, -, h⟩
    cases ho : H[n]? with
    | none => rw [ho] at h; cases h
    | some o =>
      cases ho' : H'[n]? with
      | none => rw [ho, ho'] at h; cases o <;> cases h
      | some o' =>
        rw [ho, ho'] at h
        cases o with
        | search w => cases h
        | insert w i =>
          cases o' with
          | search w => cases h
          | insert w' i' =>
            cases h
            exact ⟨n, w, w', i, i', ho, ho', rfl⟩
  · rintro ⟨n, w, w', i, i', h, h', rfl⟩
    refine ⟨n, List.mem_range.mpr (List.getElem?_eq_some_iff.mp h).1, ?_⟩
    rw [h, h']

open Classical in
/-- The change of the random function: a permutation of the points, and of the masks at each point -/
noncomputable def reprogram (g : D → D → X → X) (l : List ((P × P) × (D × D))) (F : P → T × X) : P → T × X :=
  fun x => ((F (permOf (l.map Prod.fst) x)).1,
    match l.find? (fun y => y.1.1 = x) with
    | none => (F (permOf (l.map Prod.fst) x)).2
    | some y => g y.2.1 y.2.2 (F (permOf (l.map Prod.fst) x)).2)

theorem reprogram_bijective {g : D → D → X → X} (hg : ∀ i j, Function.Bijective (g i j)) (l : List ((P × P) × (D × D))) :
    Function.Bijective (reprogram (T := T) g l) := by
  classical
  constructor
  · intro F F' h
    funext y
    have e := congrFun h ((permOf (l.map Prod.fst)).symm y)
    simp only [reprogram, Equiv.apply_symm_apply] at e
    obtain ⟨e1, e2⟩ := Prod.mk.inj e
    apply Prod.ext e1
    cases hf : l.find? (fun z => z.1.1 = (permOf (l.map Prod.fst)).symm y) with
    | none => rw [hf] at e2; exact e2
    | some z => rw [hf] at e2; exact (hg _ _).1 e2
  · intro G
    refine ⟨fun y => ((G ((permOf (l.map Prod.fst)).symm y)).1,
      match l.find? (fun z => z.1.1 = (permOf (l.map Prod.fst)).symm y) with
      | none => (G ((permOf (l.map Prod.fst)).symm y)).2
      | some z => Function.surjInv (hg z.2.1 z.2.2).2 (G ((permOf (l.map Prod.fst)).symm y)).2), ?_⟩
    funext x
    simp only [reprogram, Equiv.symm_apply_apply]
    apply Prod.ext
    · rfl
    · cases hf : l.find? (fun z => z.1.1 = x) with
      | none => rfl
      | some z => exact Function.surjInv_eq (hg z.2.1 z.2.2).2 _

theorem hash_consistent {hash : Kw → Seed} {hash' : Kw' → Seed} {H : List (Cmd Kw D)} {H' : List (Cmd Kw' D)}
    (h : leak H = leak H') (hh : HashOk hash H) (hh' : HashOk hash' H') : Consistent (seedPairs hash hash' H H') := by
  intro x hx y hy
  obtain ⟨n, w, w', h1, h1', hc, rfl⟩ := mem_seedPairs.mp hx
  obtain ⟨k, v, v', h2, h2', hd, rfl⟩ := mem_seedPairs.mp hy
  have hw : inserted w (H.take n) ≠ [] := fun e => hc (by unfold count; rw [e]; rfl)
  have hv : inserted v (H.take k) ≠ [] := fun e => hd (by unfold count; rw [e]; rfl)
  constructor
  · intro e
    change hash' w' = hash' v'
    rw [same_keyword h h1 h2 h1' h2' hw hv (hh _ _ _ _ h1 h2 e)]
  · intro e
    change hash w = hash v
    obtain ⟨u, g1, e1⟩ := same_search h h1
    rw [h1'] at g1
    cases g1
    obtain ⟨u, g2, e2⟩ := same_search h h2
    rw [h2'] at g2
    cases g2
    rw [same_keyword h.symm h1' h2' h1 h2 (by rw [← e1]; exact hw) (by rw [← e2]; exact hv) (hh' _ _ _ _ h1' h2' e)]

theorem slot_consistent {hash : Kw → Seed} {hash' : Kw' → Seed} {pt : M → Nat → P} {mat mat' : Seed → M}
    {H : List (Cmd Kw D)} {H' : List (Cmd Kw' D)} (hd : Distinct hash pt mat H) (hd' : Distinct hash' pt mat' H') :
    Consistent ((slotPairs hash hash' pt mat mat' H H').map Prod.fst) := by
  intro x hx y hy
  obtain ⟨x, hx1, rfl⟩ := List.mem_map.mp hx
  obtain ⟨y, hy1, rfl⟩ := List.mem_map.mp hy
  obtain ⟨n, w, w', i, i', h1, h1', rfl⟩ := mem_slotPairs.mp hx1
  obtain ⟨k, v, v', j, j', h2, h2', rfl⟩ := mem_slotPairs.mp hy1
  constructor
  · intro e
    have := hd n k w _ v _ ⟨i, h1, rfl⟩ ⟨j, h2, rfl⟩ e
    subst this
    rw [h1] at h2
    rw [h1'] at h2'
    cases h2; cases h2'
    rfl
  · intro e
    have := hd' n k w' _ v' _ ⟨i', h1', rfl⟩ ⟨j', h2', rfl⟩ e
    subst this
    rw [h1] at h2
    rw [h1'] at h2'
    cases h2; cases h2'
    rfl

/-- The random function after the change, at the point of an insertion -/
theorem reprogram_slot {g : D → D → X → X} {hash : Kw → Seed} {hash' : Kw' → Seed} {pt : M → Nat → P} {mat mat' : Seed → M}
    {H : List (Cmd Kw D)} {H' : List (Cmd Kw' D)} (hd : Distinct hash pt mat H) (hd' : Distinct hash' pt mat' H')
    {n : Nat} {w : Kw} {w' : Kw'} {i i' : D} (h1 : H[n]? = some (.insert w i)) (h1' : H'[n]? = some (.insert w' i'))
    (F : P → T × X) :
    reprogram g (slotPairs hash hash' pt mat mat' H H') F (pt (mat (hash w)) (count w (H.take n))) =
      ((F (pt (mat' (hash' w')) (count w' (H'.take n)))).1, g i i' (F (pt (mat' (hash' w')) (count w' (H'.take n)))).2) := by
  classical
  have hmem : ((pt (mat (hash w)) (count w (H.take n)), pt (mat' (hash' w')) (count w' (H'.take n))), (i, i')) ∈
      slotPairs hash hash' pt mat mat' H H' := mem_slotPairs.mpr ⟨n, w, w', i, i', h1, h1', rfl⟩
  have hperm := permOf_apply _ (slot_consistent (hash := hash) (hash' := hash') hd hd') _
    (List.mem_map_of_mem (f := Prod.fst) hmem)
  simp only at hperm
  unfold reprogram
  rw [hperm]
  cases hf : (slotPairs hash hash' pt mat mat' H H').find?
      (fun y => y.1.1 = pt (mat (hash w)) (count w (H.take n))) with
  | none =>
    have := List.find?_eq_none.mp hf _ hmem
    simp at this
  | some y =>
    have hy := List.mem_of_find?_eq_some hf
    have he := List.find?_some hf
    obtain ⟨k, v, v', j, j', h2, h2', rfl⟩ := mem_slotPairs.mp hy
    simp only [decide_eq_true_eq] at he
    have := hd k n v _ w _ ⟨j, h2, rfl⟩ ⟨i, h1, rfl⟩ he
    subst this
    rw [h1] at h2
    rw [h1'] at h2'
    cases h2; cases h2'
    rfl

/-- The change of the keys -/
noncomputable def rekey (g : D → D → X → X) (hash : Kw → Seed) (hash' : Kw' → Seed) (pt : M → Nat → P) (H : List (Cmd Kw D))
    (H' : List (Cmd Kw' D)) (k : Keys Seed M P T X) : Keys Seed M P T X :=
  (k.1 ∘ permOf (seedPairs hash hash' H H'),
    reprogram g (slotPairs hash hash' pt (k.1 ∘ permOf (seedPairs hash hash' H H')) k.1 H H') k.2)

theorem rekey_bijective {g : D → D → X → X} (hg : ∀ i j, Function.Bijective (g i j)) (hash : Kw → Seed) (hash' : Kw' → Seed)
    (pt : M → Nat → P) (H : List (Cmd Kw D)) (H' : List (Cmd Kw' D)) :
    Function.Bijective (rekey (T := T) g hash hash' pt H H') := by
  constructor
  · rintro ⟨m, F⟩ ⟨m', F'⟩ h
    obtain ⟨h1, h2⟩ := Prod.mk.inj h
    have hm : m = m' := by
      funext s
      have := congrFun h1 ((permOf (seedPairs hash hash' H H')).symm s)
      simpa using this
    subst hm
    have hF : F = F' := (reprogram_bijective hg _).1 h2
    rw [hF]
  · rintro ⟨m, F⟩
    obtain ⟨F', hF⟩ := (reprogram_bijective (T := T) hg (slotPairs hash hash' pt
      ((m ∘ (permOf (seedPairs hash hash' H H')).symm) ∘ permOf (seedPairs hash hash' H H'))
      (m ∘ (permOf (seedPairs hash hash' H H')).symm) H H')).2 F
    refine ⟨(m ∘ (permOf (seedPairs hash hash' H H')).symm, F'), ?_⟩
    unfold rekey
    apply Prod.ext
    · funext s; simp
    · exact hF

/-- **Core**: for two histories with the same leakage, keys whose messages for the first are those of the given keys for the
second; outside the points of insertions that no search reveals, the random function is unchanged. -/
theorem rekey_spec {g : D → D → X → X} {mask : D → X → E} (hg1 : ∀ i j x, mask i (g i j x) = mask j x)
    (hg2 : ∀ i x, g i i x = x) {hash : Kw → Seed} {hash' : Kw' → Seed} {pt : M → Nat → P} (req : M → Nat → S) (unknown : S)
    {H : List (Cmd Kw D)} {H' : List (Cmd Kw' D)} (h : leak H = leak H') (hh : HashOk hash H) (hh' : HashOk hash' H')
    (k : Keys Seed M P T X) (hd : Distinct hash pt (rekey g hash hash' pt H H' k).1 H) (hd' : Distinct hash' pt k.1 H') :
    eachFrom (msgOf hash pt mask req unknown (rekey g hash hash' pt H H' k)) [] H =
        eachFrom (msgOf hash' pt mask req unknown k) [] H' ∧
      ∀ x, ¬ HiddenPoint hash pt (rekey g hash hash' pt H H' k).1 H x → ¬ HiddenPoint hash' pt k.1 H' x →
        (rekey g hash hash' pt H H' k).2 x = k.2 x := by
  classical
  have hseed : ∀ (n : Nat) (w : Kw) (w' : Kw'), H[n]? = some (.search w) → H'[n]? = some (.search w') → count w (H.take n) ≠ 0 →
      (rekey g hash hash' pt H H' k).1 (hash w) = k.1 (hash' w') := by
    intro n w w' h1 h1' hc
    have := permOf_apply _ (hash_consistent h hh hh') _ (mem_seedPairs.mpr ⟨n, w, w', h1, h1', hc, rfl⟩)
    simp only at this
    change k.1 (permOf (seedPairs hash hash' H H') (hash w)) = _
    rw [this]
  -- a revealed insertion has the same point and document
  have hrev : ∀ (m n : Nat) (w : Kw) (i : D), H[m]? = some (.insert w i) → m < n → H[n]? = some (.search w) →
      ∃ w', H'[m]? = some (.insert w' i) ∧ H'[n]? = some (.search w') ∧
        pt ((rekey g hash hash' pt H H' k).1 (hash w)) (count w (H.take m)) = pt (k.1 (hash' w')) (count w' (H'.take m)) := by
    intro m n w i hm hmn hn
    obtain ⟨w', h1, h2, h3⟩ := same_revealed h hm hmn hn
    refine ⟨w', h1, h2, ?_⟩
    have hpos : count w (H.take n) ≠ 0 := by
      have : (m, i) ∈ inserted w (H.take n) := by
        rw [mem_inserted, List.getElem?_take, if_pos hmn]; exact hm
      exact Nat.ne_of_gt (List.length_pos_of_mem this)
    rw [h3, hseed n w w' hn h2 hpos]
  constructor
  · apply List.ext_getElem?
    intro n
    rw [eachFrom_get, eachFrom_get]
    have e := congrArg (fun l => l[n]?) h
    simp only [leak_get] at e
    cases ho : H[n]? with
    | none =>
      rw [ho] at e
      cases ho' : H'[n]? with
      | none => rfl
      | some o => rw [ho'] at e; cases e
    | some o =>
      cases o with
      | insert w i =>
        obtain ⟨w', i', ho'⟩ := same_insert h ho
        rw [ho', Option.map_some, Option.map_some]
        congr 1
        simp only [msgOf, List.nil_append]
        have hr := reprogram_slot (g := g) hd hd' ho ho' k.2
        rw [show (rekey g hash hash' pt H H' k).2 (pt ((rekey g hash hash' pt H H' k).1 (hash w)) (count w (H.take n))) =
          _ from hr]
        simp only [hg1]
      | search w =>
        obtain ⟨w', ho', hi⟩ := same_search h ho
        rw [ho', Option.map_some, Option.map_some]
        congr 1
        simp only [msgOf, List.nil_append]
        have hc : count w (H.take n) = count w' (H'.take n) := by unfold count; rw [hi]
        by_cases hz : count w (H.take n) = 0
        · rw [if_pos hz, if_pos (hc ▸ hz)]
        · rw [if_neg hz, if_neg (hc ▸ hz), hseed n w w' ho ho' hz, hc]
  · intro x hx hx'
    by_cases hex : ∃ m w i, H[m]? = some (.insert w i) ∧
        x = pt ((rekey g hash hash' pt H H' k).1 (hash w)) (count w (H.take m))
    · obtain ⟨m, w, i, hm, rfl⟩ := hex
      have : ∃ n, m < n ∧ H[n]? = some (.search w) := by
        by_contra hno
        exact hx ⟨m, w, _, ⟨⟨i, hm, rfl⟩, fun n hn e => hno ⟨n, hn, e⟩⟩, rfl⟩
      obtain ⟨n, hmn, hn⟩ := this
      obtain ⟨w', h1, -, h3⟩ := hrev m n w i hm hmn hn
      have hr := reprogram_slot (g := g) hd hd' hm h1 k.2
      rw [hg2, ← h3] at hr
      exact hr
    · have hex' : ¬ ∃ m w i, H'[m]? = some (.insert w i) ∧ x = pt (k.1 (hash' w)) (count w (H'.take m)) := by
        rintro ⟨m, w', i, hm', rfl⟩
        have : ∃ n, m < n ∧ H'[n]? = some (.search w') := by
          by_contra hno
          exact hx' ⟨m, w', _, ⟨⟨i, hm', rfl⟩, fun n hn e => hno ⟨n, hn, e⟩⟩, rfl⟩
        obtain ⟨n, hmn, hn⟩ := this
        obtain ⟨w, h1, h2, -⟩ := same_revealed h.symm hm' hmn hn
        obtain ⟨w'', h3, -, h5⟩ := hrev m n w i h1 hmn h2
        rw [hm'] at h3
        cases h3
        exact hex ⟨m, w, i, h1, h5.symm⟩
      have hfix : permOf ((slotPairs hash hash' pt (rekey (T := T) g hash hash' pt H H' k).1 k.1 H H').map Prod.fst) x = x := by
        apply permOf_fix
        intro y hy
        obtain ⟨y, hy1, rfl⟩ := List.mem_map.mp hy
        obtain ⟨n, w, w', i, i', h1, h1', rfl⟩ := mem_slotPairs.mp hy1
        exact ⟨fun e => hex ⟨n, w, i, h1, e.symm⟩, fun e => hex' ⟨n, w', i', h1', e.symm⟩⟩
      have hfind : (slotPairs hash hash' pt (rekey (T := T) g hash hash' pt H H' k).1 k.1 H H').find? (fun y => y.1.1 = x) =
          none := by
        apply List.find?_eq_none.mpr
        intro y hy
        obtain ⟨n, w, w', i, i', h1, h1', rfl⟩ := mem_slotPairs.mp hy
        simp only [decide_eq_true_eq]
        exact fun e => hex ⟨n, w, i, h1, e.symm⟩
      change reprogram g (slotPairs hash hash' pt (rekey (T := T) g hash hash' pt H H' k).1 k.1 H H') k.2 x = _
      unfold reprogram
      rw [hfix, hfind]

/-- The key material is permuted among the keywords that are searched. -/
theorem rekey_moves (hash : Kw → Seed) (H H' : List (Cmd Kw D)) (s : Seed)
    (h : ∀ (n : Nat) (w : Kw), H[n]? = some (.search w) ∨ H'[n]? = some (.search w) → hash w ≠ s) :
    permOf (seedPairs hash hash H H') s = s := by
  apply permOf_fix
  intro x hx
  obtain ⟨n, w, w', h1, h1', -, rfl⟩ := mem_seedPairs.mp hx
  exact ⟨h n w (Or.inl h1), h n w' (Or.inr h1')⟩

/-- If the same keywords are searched in both histories, the key material is unchanged. -/
theorem rekey_material {g : D → D → X → X} {hash : Kw → Seed} {pt : M → Nat → P} {H H' : List (Cmd Kw D)}
    (h : ∀ (n : Nat) (w w' : Kw), H[n]? = some (.search w) → H'[n]? = some (.search w') → w = w') (k : Keys Seed M P T X) :
    (rekey g hash hash pt H H' k).1 = k.1 := by
  unfold rekey
  rw [permOf_diagonal]
  · rfl
  · intro x hx
    obtain ⟨n, w, w', h1, h1', -, rfl⟩ := mem_seedPairs.mp hx
    rw [h n w w' h1 h1']

end Verif.Leak
