import Verif.Tethys.StreamSpec
import Verif.Tethys.StoreGet
import Verif.Tethys.FilesProps

/-! # Lemmas on the stash file as a stream -/

namespace Verif.Tethys.Stream

open Verif

theorem getD_lt (l : List UInt8) (i : Nat) (h : i < l.length) : l.getD i 0 = l[i] := by
  rw [List.getD_eq_getElem?_getD, List.getElem?_eq_getElem h, Option.getD_some]

theorem read_whole (a rest var : List UInt8) (n : Nat) (h : a.length = n) :
    In.read ⟨a ++ rest, false, false⟩ n var = (a, ⟨rest, false, false⟩) := by
  unfold In.read
  rw [if_neg (by simp), if_neg (by simp only [List.length_append]; omega)]
  rw [List.take_left' h, List.drop_left' h]

theorem read_short (a var : List UInt8) (n : Nat) (h : a.length < n) :
    In.read ⟨a, false, false⟩ n var = (a ++ var.drop a.length, ⟨[], true, true⟩) := by
  unfold In.read
  rw [if_neg (by simp), if_pos h]

theorem read_failed (a var : List UInt8) (n : Nat) (e : Bool) :
    In.read ⟨a, e, true⟩ n var = (var, ⟨a, e, true⟩) := by
  unfold In.read
  rw [if_pos (by simp)]

theorem fresh_length (J : Memory) (k n : Nat) : (fresh J k n).length = n := by simp [fresh]

theorem readElts_spec (J : Memory) (vs : List Index) (rest : List UInt8) (k : Nat) :
    readElts J vs.length k ⟨vs.flatMap indexBytes ++ rest, false, false⟩ =
      (vs, k + vs.length, ⟨rest, false, false⟩) := by
  induction vs generalizing k with
  | nil => rfl
  | cons v vs ih =>
    simp only [List.length_cons, readElts, List.flatMap_cons, List.append_assoc]
    rw [read_whole _ _ _ 8 (indexBytes_length v)]
    simp only
    rw [ih]
    simp only [bytesIndex_indexBytes, Prod.mk.injEq, true_and, and_true]
    omega

theorem readElts_failed (J : Memory) (n k : Nat) (a : List UInt8) (e : Bool) :
    readElts J n k ⟨a, e, true⟩ =
      ((List.range n).map (fun j => bytesIndex (fresh J (k + j) 8)), k + n, ⟨a, e, true⟩) := by
  induction n generalizing k with
  | zero => rfl
  | succ n ih =>
    simp only [readElts]
    rw [read_failed]
    simp only
    rw [ih, List.range_succ_eq_map]
    simp only [List.map_cons, List.map_map, Nat.add_zero, Prod.mk.injEq, List.cons.injEq, true_and, and_true]
    constructor
    · apply List.map_congr_left
      intro j _
      simp only [Function.comp]
      rw [show k + 1 + j = k + j.succ by omega]
    · omega

theorem fill (a var : List UInt8) (o n : Nat) (ha : a.length = n) (hv : var.length = n) (ho : o ≤ n) :
    a.take o ++ var.drop (a.take o).length =
      (List.range n).map (fun b => if b < o then a.getD b 0 else var.getD b 0) := by
  apply List.ext_getElem
  · simp only [List.length_append, List.length_take, List.length_drop, List.length_map, List.length_range]
    omega
  · intro i h1 h2
    simp only [List.length_map, List.length_range] at h2
    have hl : (a.take o).length = o := by rw [List.length_take]; omega
    simp only [List.getElem_map, List.getElem_range]
    by_cases hi : i < o
    · rw [List.getElem_append_left (by omega), if_pos hi, List.getElem_take, getD_lt _ _ (by omega)]
    · rw [List.getElem_append_right (by omega), if_neg hi, List.getElem_drop, getD_lt _ _ (by omega)]
      congr 1
      omega

theorem fresh_getD (J : Memory) (k n b : Nat) (h : b < n) : (fresh J k n).getD b 0 = J k b := by
  rw [getD_lt _ _ (by rw [fresh_length]; exact h)]
  simp [fresh]

/-- The values read from the first bytes of a record -/
def cutValues (J : Memory) (k : Nat) (vs : List Index) (o : Nat) : List Index :=
  (List.range vs.length).map (fun j => bytesIndex ((List.range 8).map (fun b =>
    if 8 * j + b < o then (indexBytes (vs.getD j 0)).getD b 0 else J (k + j) b)))

theorem readElts_cut (J : Memory) (vs : List Index) (o k : Nat) (h : o < 8 * vs.length) :
    readElts J vs.length k ⟨(vs.flatMap indexBytes).take o, false, false⟩ =
      (cutValues J k vs o, k + vs.length, ⟨[], true, true⟩) := by
  induction vs generalizing k o with
  | nil => simp at h
  | cons v vs ih =>
    have hl := indexBytes_length v
    simp only [List.length_cons] at h
    unfold cutValues
    simp only [List.length_cons, readElts, List.flatMap_cons]
    rw [List.range_succ_eq_map (n := vs.length)]
    simp only [List.map_cons, List.map_map]
    by_cases ho : 8 ≤ o
    · rw [List.take_append, List.take_of_length_le (by omega), read_whole _ _ _ 8 hl]
      simp only
      rw [hl, ih _ _ (by omega)]
      simp only [bytesIndex_indexBytes]
      refine Prod.ext (congrArg₂ List.cons ?_ ?_) (Prod.ext (by simp only; omega) rfl)
      · conv => lhs; rw [← bytesIndex_indexBytes v]
        congr 1
        apply List.ext_getElem
        · simp [hl]
        · intro i h1 h2
          simp only [List.length_map, List.length_range] at h2
          simp only [List.getElem_map, List.getElem_range, List.getD_cons_zero]
          rw [if_pos (by omega), getD_lt _ _ (by omega)]
      · unfold cutValues
        apply List.map_congr_left
        intro j _
        simp only [Function.comp]
        congr 1
        apply List.map_congr_left
        intro b _
        rw [List.getD_cons_succ, show k + 1 + j = k + j.succ by omega]
        by_cases hb : 8 * j + b < o - 8
        · rw [if_pos hb, if_pos (by omega)]
        · rw [if_neg hb, if_neg (by omega)]
    · rw [List.take_append_of_le_length (by omega),
        read_short _ _ 8 (by rw [List.length_take]; omega)]
      simp only
      rw [readElts_failed, fill _ _ o 8 hl (fresh_length J k 8) (by omega)]
      refine Prod.ext (congrArg₂ List.cons ?_ ?_) (Prod.ext (by simp only; omega) rfl)
      · refine congrArg bytesIndex ?_
        apply List.map_congr_left
        intro b hb
        have hb := List.mem_range.mp hb
        rw [fresh_getD J k 8 b hb]
        simp
      · apply List.map_congr_left
        intro j _
        simp only [Function.comp]
        congr 1
        unfold fresh
        apply List.map_congr_left
        intro b _
        rw [if_neg (by omega), show k + 1 + j = k + j.succ by omega]

theorem record_length (x : CoreKey × List Index) : (Spec.record x).length = Spec.size x := kvBytes_length x

theorem toKey_toList (key : CoreKey) : toKey key.toList = key := by
  unfold toKey
  apply Vector.ext
  intro i hi
  simp [List.getD_eq_getElem?_getD]

theorem readKV_whole (J : Memory) (k : Nat) (x : CoreKey × List Index) (hx : x.2.length < 2 ^ 60)
    (rest : List UInt8) :
    readKV J k ⟨Spec.record x ++ rest, false, false⟩ =
      .ok (x, k + 1 + x.2.length, ⟨rest, false, false⟩) := by
  unfold readKV Spec.record
  simp only [List.append_assoc]
  rw [read_whole _ _ _ 16 (by simp)]
  simp only
  rw [read_whole _ _ _ 8 (by simp)]
  simp only
  rw [ofLeBytes_leBytes _ _ (by omega), if_neg (by omega), readElts_spec, toKey_toList]

theorem ofLeBytes_append_zeros (a : List UInt8) (n : Nat) :
    ofLeBytes (a ++ List.replicate n 0) = ofLeBytes a := by
  induction a with
  | nil =>
    induction n with
    | zero => rfl
    | succ n ih =>
      rw [List.nil_append] at ih
      simp only [List.nil_append, List.replicate_succ, ofLeBytes, ih]
      rfl
  | cons b a ih => simp only [List.cons_append, ofLeBytes, ih]

theorem ofLeBytes_take (n x o : Nat) (ho : o ≤ n) : ofLeBytes ((leBytes n x).take o) = x % 256 ^ o := by
  induction o generalizing n x with
  | zero => simp [ofLeBytes, Nat.mod_one]
  | succ o ih =>
    obtain ⟨n, rfl⟩ : ∃ m, n = m + 1 := ⟨n - 1, by omega⟩
    simp only [leBytes, List.take_succ_cons, ofLeBytes]
    rw [ih n _ (by omega), Nat.pow_succ, Nat.mul_comm (256 ^ o) 256, Nat.mod_mul]
    simp

theorem cut_key (J : Memory) (k : Nat) (x : CoreKey × List Index) (o : Nat) (ho : o ≤ 16) :
    toKey (x.1.toList.take o ++ (fresh J k 16).drop (x.1.toList.take o).length) = (Spec.cut J k x o).1 := by
  rw [fill _ _ o 16 (by simp) (fresh_length J k 16) ho]
  unfold toKey Spec.cut
  apply Vector.ext
  intro i hi
  simp only [Vector.getElem_ofFn]
  rw [getD_lt _ _ (by simpa using hi)]
  simp only [List.getElem_map, List.getElem_range]
  rw [fresh_getD J k 16 i hi]
  by_cases h : i < o
  · rw [if_pos h, if_pos h, getD_lt _ _ (by simpa using hi)]
    simp
  · rw [if_neg h, if_neg h]

theorem cut_key_whole (J : Memory) (k : Nat) (x : CoreKey × List Index) (o : Nat) (ho : 16 ≤ o) :
    x.1 = (Spec.cut J k x o).1 := by
  unfold Spec.cut
  apply Vector.ext
  intro i hi
  simp only [Vector.getElem_ofFn]
  rw [if_pos (by omega)]
  simp

theorem readKV_cut (J : Memory) (k : Nat) (x : CoreKey × List Index) (hx : x.2.length < 2 ^ 60) (o : Nat)
    (h1 : o < Spec.size x) :
    ∃ k' s, readKV J k ⟨(Spec.record x).take o, false, false⟩ = .ok (Spec.cut J k x o, k', s) ∧
      s.fail = true := by
  unfold Spec.size at h1
  unfold readKV Spec.record
  simp only [List.append_assoc]
  by_cases h16 : o < 16
  · rw [List.take_append_of_le_length (by simp; omega), read_short _ _ 16 (by simp; omega)]
    simp only
    rw [read_failed, cut_key J k x o (by omega)]
    have hz : ofLeBytes (List.replicate 8 0) = 0 := rfl
    simp only [hz]
    rw [if_neg (by omega)]
    refine ⟨_, _, congrArg Except.ok (Prod.ext (Prod.ext rfl ?_) rfl), rfl⟩
    show [] = _
    unfold Spec.cut
    simp [show o - 16 = 0 by omega, Nat.mod_one]
  · rw [List.take_append, List.take_of_length_le (by simp; omega), read_whole _ _ _ 16 (by simp)]
    simp only
    rw [toKey_toList]
    by_cases h24 : o < 24
    · rw [show o - x.1.toList.length = o - 16 by simp, List.take_append_of_le_length (by simp; omega),
        read_short _ _ 8 (by simp; omega)]
      simp only
      have hz : ofLeBytes ((leBytes 8 x.2.length).take (o - 16) ++
          (List.replicate 8 0).drop ((leBytes 8 x.2.length).take (o - 16)).length) =
          x.2.length % 256 ^ (o - 16) := by
        rw [List.drop_replicate, ofLeBytes_append_zeros, ofLeBytes_take _ _ _ (by omega)]
      rw [hz]
      have hle : x.2.length % 256 ^ (o - 16) ≤ x.2.length := Nat.mod_le _ _
      rw [if_neg (by omega), readElts_failed]
      refine ⟨_, _, congrArg Except.ok (Prod.ext (Prod.ext (cut_key_whole J k x o (by omega)) ?_) rfl), rfl⟩
      show _ = (Spec.cut J k x o).2
      unfold Spec.cut
      simp only [show min (o - 16) 8 = o - 16 by omega]
      apply List.map_congr_left
      intro j _
      congr 1
      unfold fresh
      apply List.map_congr_left
      intro b _
      rw [if_neg (by omega)]
    · rw [show o - x.1.toList.length = o - 16 by simp, List.take_append, List.take_of_length_le (by simp; omega),
        read_whole _ _ _ 8 (by simp)]
      simp only
      rw [ofLeBytes_leBytes _ _ (by omega), if_neg (by omega), leBytes_length, readElts_cut _ _ _ _ (by omega)]
      refine ⟨_, _, congrArg Except.ok (Prod.ext (Prod.ext (cut_key_whole J k x o (by omega)) ?_) rfl), rfl⟩
      show cutValues J (k + 1) x.2 (o - 16 - 8) = (Spec.cut J k x o).2
      unfold Spec.cut cutValues
      simp only [show min (o - 16) 8 = 8 by omega]
      rw [Nat.mod_eq_of_lt (by omega)]
      apply List.map_congr_left
      intro j _
      congr 1
      apply List.map_congr_left
      intro b _
      by_cases hb : 8 * j + b < o - 16 - 8
      · rw [if_pos hb, if_pos (by omega)]
      · rw [if_neg hb, if_neg (by omega)]

theorem readMap_failed (J : Memory) (fuel k : Nat) (s : In) (h : s.fail = true) (m : Map CoreKey (List Index)) :
    readMap J (fuel + 1) k s m = .ok m := by
  unfold readMap In.more
  rw [h]
  rfl

theorem readable_nil (J : Memory) (k n : Nat) : Spec.readable J k [] n = [] := rfl

theorem readable_cons (J : Memory) (k n : Nat) (x : CoreKey × List Index) (xs : List (CoreKey × List Index)) :
    Spec.readable J k (x :: xs) n =
      if n = 0 then []
      else if n < Spec.size x then [Spec.cut J k x n]
      else x :: Spec.readable J (k + 1 + x.2.length) xs (n - Spec.size x) := by
  have hp : 0 < Spec.size x := by unfold Spec.size; omega
  by_cases h0 : n = 0
  · subst h0
    simp [Spec.readable, Spec.whole, Spec.stray, hp]
  · by_cases hn : n < Spec.size x
    · simp [Spec.readable, Spec.whole, Spec.stray, h0, hn]
    · simp [Spec.readable, Spec.whole, Spec.stray, h0, hn]

theorem readMap_cut (J : Memory) (xs : List (CoreKey × List Index)) (hx : ∀ x ∈ xs, x.2.length < 2 ^ 60)
    (n k fuel : Nat) (hf : ((xs.flatMap Spec.record).take n).length < fuel) (m : Map CoreKey (List Index)) :
    readMap J fuel k ⟨(xs.flatMap Spec.record).take n, false, false⟩ m =
      .ok ((Spec.readable J k xs n).foldl (fun m x => m.put x.1 x.2) m) := by
  induction xs generalizing n k fuel m with
  | nil =>
    obtain ⟨fuel, rfl⟩ : ∃ f, fuel = f + 1 := ⟨fuel - 1, by omega⟩
    simp [readMap, In.more, readable_nil]
  | cons x xs ih =>
    obtain ⟨fuel, rfl⟩ : ∃ f, fuel = f + 1 := ⟨fuel - 1, by omega⟩
    have hl := record_length x
    have hp : 0 < Spec.size x := by unfold Spec.size; omega
    have hx1 := hx x (List.mem_cons_self ..)
    simp only [List.flatMap_cons] at hf ⊢
    rw [readable_cons]
    by_cases h0 : n = 0
    · subst h0
      simp [readMap, In.more]
    · rw [if_neg h0]
      have hmore : ∀ l : List UInt8, l ≠ [] → In.more ⟨l, false, false⟩ = (true, ⟨l, false, false⟩) := by
        intro l hl
        simp [In.more, hl]
      have hne : (Spec.record x ++ xs.flatMap Spec.record).take n ≠ [] := by
        intro h
        have := congrArg List.length h
        simp only [List.length_take, List.length_append, List.length_nil] at this
        omega
      unfold readMap
      rw [hmore _ hne]
      simp only [if_true]
      by_cases hn : n < Spec.size x
      · rw [if_pos hn, List.take_append_of_le_length (by omega)]
        obtain ⟨k', s, h1, h2⟩ := readKV_cut J k x hx1 n hn
        rw [h1]
        simp only
        rw [List.take_append_of_le_length (by omega), List.length_take] at hf
        obtain ⟨fuel, rfl⟩ : ∃ f, fuel = f + 1 := ⟨fuel - 1, by omega⟩
        rw [readMap_failed _ _ _ _ h2]
        rfl
      · rw [if_neg hn, List.take_append, List.take_of_length_le (by omega), readKV_whole J k x hx1]
        simp only
        rw [hl, ih (fun y hy => hx y (List.mem_cons_of_mem _ hy))]
        · rfl
        · rw [List.take_append, List.take_of_length_le (by omega), List.length_append] at hf
          rw [← hl]
          omega

theorem load_cut (J : Memory) (xs : List (CoreKey × List Index)) (hx : ∀ x ∈ xs, x.2.length < 2 ^ 60) (n : Nat) :
    load J (some ((xs.flatMap Spec.record).take n)) =
      .ok ((Spec.readable J 0 xs n).foldl (fun m x => m.put x.1 x.2) Map.empty) :=
  readMap_cut J xs hx n 0 _ (Nat.lt_succ_self _) _

/-! ## Files that the model without streams reads -/

theorem readValues_inv (n : Nat) (b : List UInt8) (vs : List Index) (h : readValues n b = .ok vs) :
    vs.length = n ∧ ∃ rest, b = vs.flatMap indexBytes ++ rest ∧ rest = b.drop (8 * n) := by
  induction n generalizing b vs with
  | zero =>
    cases h
    exact ⟨rfl, b, rfl, by simp⟩
  | succ n ih =>
    unfold readValues at h
    by_cases hb : b.length < 8
    · rw [if_pos hb] at h; cases h
    · rw [if_neg hb] at h
      cases hr : readValues n (b.drop 8) with
      | error f => rw [hr] at h; cases h
      | ok ws =>
        rw [hr] at h
        cases h
        obtain ⟨h1, rest, h2, h3⟩ := ih _ _ hr
        refine ⟨by simp [h1], rest, ?_, ?_⟩
        · have he : indexBytes (bytesIndex (b.take 8)) = b.take 8 := by
            unfold indexBytes bytesIndex
            have hl : (b.take 8).length = 8 := by rw [List.length_take]; omega
            have hlt := ofLeBytes_lt (b.take 8)
            rw [hl] at hlt
            rw [BitVec.toNat_ofNat, Nat.mod_eq_of_lt (by omega)]
            have := leBytes_ofLeBytes (b.take 8)
            rwa [hl] at this
          rw [List.flatMap_cons, he, List.append_assoc, ← h2, List.take_append_drop]
        · rw [h3, List.drop_drop]
          congr 1
          omega

theorem deserializeKV_inv (b : List UInt8) (x : CoreKey × List Index) (rest : List UInt8)
    (h : deserializeKV b = .ok (x, rest)) : b = Spec.record x ++ rest := by
  unfold deserializeKV at h
  by_cases hb : b.length < 24
  · rw [dif_pos hb] at h; cases h
  · rw [dif_neg hb] at h
    simp only at h
    cases hr : readValues (ofLeBytes ((b.drop 16).take 8)) (b.drop 24) with
    | error f => rw [hr] at h; cases h
    | ok vs =>
      rw [hr] at h
      cases h
      obtain ⟨h1, r, h2, h3⟩ := readValues_inv _ _ _ hr
      unfold Spec.record
      have hl : ((b.drop 16).take 8).length = 8 := by simp only [List.length_take, List.length_drop]; omega
      have h4 := leBytes_ofLeBytes ((b.drop 16).take 8)
      rw [hl] at h4
      simp only [Vector.toList, List.append_assoc]
      rw [h1, h4]
      have h5 : b.drop (24 + 8 * ofLeBytes ((b.drop 16).take 8)) = r := by
        rw [h3, List.drop_drop]
      rw [h5, ← h2]
      have h6 : (b.drop 16).take 8 ++ b.drop 24 = b.drop 16 := by
        have := List.take_append_drop 8 (b.drop 16)
        rwa [List.drop_drop] at this
      rw [h6, List.take_append_drop]

theorem readMap_deserialize (J : Memory) (fuel fuel' k : Nat) (b : List UInt8) (m m' : Map CoreKey (List Index))
    (h : deserializeMap fuel b m = .ok m') (hb : b.length < 2 ^ 63) (hf : b.length < fuel') :
    readMap J fuel' k ⟨b, false, false⟩ m = .ok m' := by
  induction fuel generalizing fuel' k b m with
  | zero => cases h
  | succ fuel ih =>
    obtain ⟨fuel', rfl⟩ : ∃ f, fuel' = f + 1 := ⟨fuel' - 1, by omega⟩
    unfold deserializeMap at h
    unfold readMap In.more
    by_cases h0 : b.length = 0
    · rw [if_pos h0] at h
      have := List.length_eq_zero_iff.mp h0
      subst this
      simpa using h
    · rw [if_neg h0] at h
      have hne : b ≠ [] := fun e => h0 (by rw [e]; rfl)
      simp only [hne, if_false, Bool.false_eq_true, if_true]
      cases hr : deserializeKV b with
      | error f => rw [hr] at h; cases h
      | ok y =>
        obtain ⟨x, rest⟩ := y
        rw [hr] at h
        simp only at h
        have he := deserializeKV_inv b x rest hr
        have hl : b.length = Spec.size x + rest.length := by
          rw [he, List.length_append, record_length]
        unfold Spec.size at hl
        rw [he, readKV_whole J k x (by omega)]
        simp only
        exact ih _ _ _ _ h (by omega) (by omega)

/-- When the model without streams reads a file, so does the one with streams, whatever the memory. -/
theorem load_deserialize (J : Memory) (st : Option (List UInt8)) (m : Map CoreKey (List Index))
    (h : loadStash st = .ok m) (hl : ∀ b, st = some b → b.length < 2 ^ 63) : load J st = .ok m := by
  cases st with
  | none => cases h; rfl
  | some b => exact readMap_deserialize J _ _ 0 b _ _ h (hl b rfl) (Nat.lt_succ_self _)

/-! ## No endless loop -/

theorem read_stays (s : In) (n : Nat) (var : List UInt8) (h : s.fail = true) : (s.read n var).2.fail = true := by
  unfold In.read
  rw [if_pos (by simp [h])]

theorem read_measure (s : In) (n : Nat) (var : List UInt8) (hn : 0 < n) :
    (s.read n var).2.fail = true ∨
      (s.read n var).2.eof = false ∧ (s.read n var).2.rest.length < s.rest.length := by
  unfold In.read
  by_cases h : (s.eof || s.fail) = true
  · rw [if_pos h]; exact Or.inl rfl
  · rw [if_neg h]
    by_cases h2 : s.rest.length < n
    · rw [if_pos h2]; exact Or.inl rfl
    · rw [if_neg h2]
      refine Or.inr ⟨?_, ?_⟩
      · simp only [Bool.or_eq_true, not_or, Bool.not_eq_true] at h
        exact h.1
      · simp only [List.length_drop]; omega

theorem readElts_measure (J : Memory) (n k : Nat) (s : In) (L : Nat)
    (h : s.fail = true ∨ s.eof = false ∧ s.rest.length < L) :
    (readElts J n k s).2.2.fail = true ∨
      (readElts J n k s).2.2.eof = false ∧ (readElts J n k s).2.2.rest.length < L := by
  induction n generalizing k s with
  | zero => exact h
  | succ n ih =>
    simp only [readElts]
    apply ih
    rcases h with h | ⟨h1, h2⟩
    · exact Or.inl (read_stays _ _ _ h)
    · rcases read_measure s 8 (fresh J k 8) (by omega) with h3 | ⟨h3, h4⟩
      · exact Or.inl h3
      · exact Or.inr ⟨h3, by omega⟩

theorem readKV_measure (J : Memory) (k : Nat) (s : In) (x : (CoreKey × List Index) × Nat × In)
    (h : readKV J k s = .ok x) :
    x.2.2.fail = true ∨ x.2.2.eof = false ∧ x.2.2.rest.length < s.rest.length := by
  unfold readKV at h
  simp only at h
  split at h
  · cases h
  · cases h
    simp only
    apply readElts_measure
    rcases read_measure s 16 (fresh J k 16) (by omega) with h1 | ⟨h1, h2⟩
    · exact Or.inl (read_stays _ _ _ h1)
    · rcases read_measure (s.read 16 (fresh J k 16)).2 8 (List.replicate 8 0) (by omega) with h3 | ⟨h3, h4⟩
      · exact Or.inl h3
      · exact Or.inr ⟨h3, by omega⟩

theorem readKV_failure (J : Memory) (k : Nat) (s : In) (f : Failure) (h : readKV J k s = .error f) :
    f = .lengthError := by
  unfold readKV at h
  simp only at h
  split at h
  · cases h; rfl
  · cases h

theorem readMap_total (J : Memory) (fuel k : Nat) (s : In) (m : Map CoreKey (List Index))
    (h : s.fail = true ∧ 0 < fuel ∨ s.eof = false ∧ s.rest.length < fuel) :
    readMap J fuel k s m = .error .lengthError ∨ ∃ m', readMap J fuel k s m = .ok m' := by
  induction fuel generalizing k s m with
  | zero => omega
  | succ fuel ih =>
    rcases h with ⟨h, -⟩ | ⟨h1, h2⟩
    · exact Or.inr ⟨m, readMap_failed J fuel k s h m⟩
    · unfold readMap
      by_cases hm : s.more.1 = true
      · simp only [hm, if_true]
        have hs : s.more.2 = s ∧ s.rest ≠ [] := by
          unfold In.more at hm ⊢
          by_cases hf : s.fail = true
          · rw [if_pos hf] at hm; cases hm
          · rw [if_neg hf, h1] at hm ⊢
            simp only [Bool.false_eq_true, if_false] at hm ⊢
            by_cases hr : s.rest = []
            · rw [if_pos hr] at hm; cases hm
            · rw [if_neg hr]; exact ⟨rfl, hr⟩
        rw [hs.1]
        have hpos := List.length_pos_iff.mpr hs.2
        cases hk : readKV J k s with
        | error f => exact Or.inl (by rw [readKV_failure J k s f hk])
        | ok x =>
          obtain ⟨kv, k', s'⟩ := x
          simp only
          apply ih
          rcases readKV_measure J k s _ hk with h3 | ⟨h3, h4⟩
          · exact Or.inl ⟨h3, by omega⟩
          · simp only at h4
            exact Or.inr ⟨h3, by omega⟩
      · simp only [hm, Bool.false_eq_true, if_false]
        exact Or.inr ⟨m, rfl⟩

theorem load_total (J : Memory) (st : Option (List UInt8)) :
    load J st = .error .lengthError ∨ ∃ m, load J st = .ok m := by
  cases st with
  | none => exact Or.inr ⟨_, rfl⟩
  | some b => exact readMap_total J _ _ _ _ (Or.inr ⟨rfl, Nat.lt_succ_self _⟩)

/-! ## Searches -/

variable {W : Type}

theorem serverLoop_keys (H : List UInt8 → CoreKey) (s : Store) (token : Token) (is : List Nat)
    (ps : List (CoreKey × BucketPair)) (h : serverLoop H s token is = .ok ps) :
    ∀ p ∈ ps, ∃ i ∈ is, p.1 = deriveCoreKey H token i := by
  induction is generalizing ps with
  | nil => cases h; intro p hp; cases hp
  | cons i is ih =>
    unfold serverLoop at h
    simp only at h
    cases hg : s.getBuckets (deriveCoreKey H token i) with
    | error f => rw [hg] at h; cases h
    | ok q =>
      rw [hg] at h
      simp only at h
      cases hl : serverLoop H s token is with
      | error f => rw [hl] at h; cases h
      | ok qs =>
        rw [hl] at h
        cases h
        intro p hp
        rcases List.mem_cons.mp hp with rfl | hp
        · exact ⟨i, List.mem_cons_self .., rfl⟩
        · obtain ⟨j, hj, e⟩ := ih qs hl p hp
          exact ⟨j, List.mem_cons_of_mem _ hj, e⟩

theorem decodeResults_congr (c c' : Client W) (he : c.enc = c'.enc) (ps : List (CoreKey × BucketPair))
    (h : ∀ p ∈ ps, c.stash p.1 = c'.stash p.1) : c.decodeResults ps = c'.decodeResults ps := by
  induction ps with
  | nil => rfl
  | cons p ps ih =>
    unfold Client.decodeResults
    rw [ih (fun q hq => h q (List.mem_cons_of_mem _ hq)), h p (List.mem_cons_self ..), he]

end Verif.Tethys.Stream
