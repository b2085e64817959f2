import Verif.Utils.ListStore

/-!
# List store: C16, C41
-/

set_option linter.unusedSectionVars false

namespace Verif.ListStore

open Verif

variable {T K : Type} [DecidableEq K]

/-- A serialiser that can be used in the list store: what is serialised is read back wherever it
occurs, takes at least one byte, and nothing is read from the empty string. -/
structure Lawful (S : Serializer T) : Prop where
  roundtrip : ∀ e rest, S.deserialize (S.serialize e ++ rest) = .ok e rest
  nonempty : ∀ e, S.serialize e ≠ []
  atEnd : S.deserialize [] = .fail

theorem serializeList_eq (S : Serializer T) (data : List T) :
    serializeList S data = data.flatMap S.serialize := by
  have : ∀ acc, data.foldl (fun acc elt => acc ++ S.serialize elt) acc =
      acc ++ data.flatMap S.serialize := by
    induction data with
    | nil => simp
    | cons a l ih => intro acc; simp [ih]
  simpa [serializeList] using this []

theorem getLoop_append (S : Serializer T) (hS : Lawful S) (data acc : List T) (junk : List UInt8) :
    getLoop S (data.flatMap S.serialize ++ junk) acc = getLoop S junk (acc ++ data) := by
  induction data generalizing acc with
  | nil => simp
  | cons a l ih =>
    rw [List.flatMap_cons, List.append_assoc, getLoop, hS.roundtrip]
    have : 0 < (S.serialize a).length := List.length_pos_iff.mpr (hS.nonempty a)
    have hlt : (l.flatMap S.serialize ++ junk).length <
        (S.serialize a ++ (l.flatMap S.serialize ++ junk)).length := by
      rw [List.length_append (as := S.serialize a)]; omega
    simp only [hlt, if_true, ih]
    simp

theorem getLoop_nil (S : Serializer T) (hS : Lawful S) (acc : List T) :
    getLoop S [] acc = .ok acc := by
  rw [getLoop, hS.atEnd]

/-- **C41**: a list stored under a key is read back identical, and other keys are not affected;
for every serialiser that can be read back, every list and every store. -/
theorem C41_roundtrip (S : Serializer T) (hS : Lawful S) (m : Map K (List UInt8)) (k : K)
    (data : List T) :
    get S (put S m k data) k = (true, .ok data) ∧
    ∀ k', k' ≠ k → get S (put S m k data) k' = get S m k' := by
  constructor
  · unfold get put
    simp only [Map.put_self]
    rw [serializeList_eq]
    have := getLoop_append S hS data [] []
    rw [List.append_nil, getLoop_nil S hS] at this
    simp [this]
  · intro k' hk
    unfold get put
    rw [Map.put_of_ne _ _ hk]

/-- **C41**: a key under which nothing was stored is reported as not found, with an empty list. -/
theorem C41_missing (S : Serializer T) (k : K) : get S (Map.empty : Map K _) k = (false, .ok []) :=
  rfl

theorem tagOf_toList (t : Tag) (h : t.toList.length = 16) : tagOf t.toList h = t := by
  apply Vector.toList_inj.mp
  simp [tagOf, Vector.toList]

theorem janus_lawful : Lawful janusSerializer := by
  constructor
  · intro e rest
    obtain ⟨i, t⟩ := e
    have h8 : (indexBytes i).length = 8 := indexBytes_length i
    have h16 : t.toList.length = 16 := by simp
    have hlen : (indexBytes i ++ t.toList ++ rest).length = 24 + rest.length := by
      simp only [List.length_append, h8, h16]
    have h1 : (indexBytes i ++ t.toList ++ rest).take 8 = indexBytes i := by
      rw [List.append_assoc, List.take_append_of_le_length (by omega), List.take_of_length_le (by omega)]
    have h2 : ((indexBytes i ++ t.toList ++ rest).drop 8).take 16 = t.toList := by
      rw [List.append_assoc, List.drop_append_of_le_length (by omega),
        List.drop_of_length_le (by omega), List.nil_append,
        List.take_append_of_le_length (by omega), List.take_of_length_le (by omega)]
    have h3 : (indexBytes i ++ t.toList ++ rest).drop (8 + 16) = rest := by
      rw [List.drop_append, List.drop_of_length_le (by simp), List.nil_append]
      simp
    simp only [janusSerializer]
    rw [if_neg (by omega), dif_pos (by omega)]
    simp only [h1, h2, h3, bytesIndex_indexBytes]
    congr 2
  · intro e h
    have := congrArg List.length h
    simp [janusSerializer] at this
  · rfl

/-- **C41** for the lists stored by Janus. -/
theorem C41_janus_cache (m : Map K (List UInt8)) (k : K) (data : List (Index × Tag)) :
    get janusSerializer (put janusSerializer m k data) k = (true, .ok data) :=
  (C41_roundtrip janusSerializer janus_lawful m k data).1

/-- Non-vacuity of C41. -/
example : get janusSerializer (put janusSerializer (Map.empty : Map Bool _) true
    [(5, Vector.replicate 16 1), (7, Vector.replicate 16 2)]) true =
      (true, .ok [(5, Vector.replicate 16 1), (7, Vector.replicate 16 2)]) :=
  C41_janus_cache _ _ _

/-- What `get` does on *any* stored value, by its length: it terminates, and it reads out of the
bounds of the value exactly when the value ends with 16 to 23 bytes that do not form an element. -/
theorem C16_characterisation (raw : List UInt8) :
    (16 ≤ raw.length % 24 → getLoop janusSerializer raw [] = .outOfBounds) ∧
    (raw.length % 24 < 16 → ∃ l, getLoop janusSerializer raw [] = .ok l ∧
      l.length = raw.length / 24) := by
  have key : ∀ n (raw : List UInt8) (acc : List (Index × Tag)), raw.length = n →
      (16 ≤ raw.length % 24 → getLoop janusSerializer raw acc = .outOfBounds) ∧
      (raw.length % 24 < 16 → ∃ l, getLoop janusSerializer raw acc = .ok l ∧
        l.length = acc.length + raw.length / 24) := by
    intro n
    induction n using Nat.strongRecOn with
    | ind n ih =>
      intro raw acc hn
      by_cases h1 : raw.length < 16
      · have hf : getLoop janusSerializer raw acc = .ok acc := by
          rw [getLoop]
          have : janusSerializer.deserialize raw = .fail := by
            simp only [janusSerializer]; rw [if_pos (by omega)]
          rw [this]
        refine ⟨fun h => by omega, fun _ => ⟨acc, hf, by omega⟩⟩
      · by_cases h2 : 24 ≤ raw.length
        · have hd : ∃ e, janusSerializer.deserialize raw = .ok e (raw.drop 24) := by
            simp only [janusSerializer]
            rw [if_neg (by omega), dif_pos (by omega)]
            exact ⟨_, rfl⟩
          obtain ⟨e, he⟩ := hd
          have hl : (raw.drop 24).length = raw.length - 24 := by simp
          have hstep : getLoop janusSerializer raw acc =
              getLoop janusSerializer (raw.drop 24) (acc ++ [e]) := by
            conv => lhs; rw [getLoop]
            rw [he]
            simp only
            rw [if_pos (by omega)]
          obtain ⟨i1, i2⟩ := ih (raw.length - 24) (by omega) (raw.drop 24) (acc ++ [e]) hl
          rw [hstep]
          refine ⟨fun h => i1 (by omega), fun h => ?_⟩
          have h' : (raw.drop 24).length % 24 < 16 := by omega
          obtain ⟨l, hl1, hl2⟩ := i2 h'
          refine ⟨l, hl1, ?_⟩
          clear i1 i2
          rw [hl2, hl]; simp; omega
        · have hf : getLoop janusSerializer raw acc = .outOfBounds := by
            rw [getLoop]
            have : janusSerializer.deserialize raw = .outOfBounds := by
              simp only [janusSerializer]; rw [if_neg (by omega), dif_neg (by omega)]
            rw [this]
          exact ⟨fun _ => hf, fun h => by omega⟩
  obtain ⟨k1, k2⟩ := key _ raw [] rfl
  refine ⟨k1, fun h => ?_⟩
  obtain ⟨l, h1, h2⟩ := k2 h
  exact ⟨l, h1, by simpa using h2⟩

/-- The bytes of an index read from 8 bytes. -/
theorem indexBytes_bytesIndex (l : List UInt8) (h : l.length = 8) : indexBytes (bytesIndex l) = l := by
  have h1 : ofLeBytes l < 2 ^ 64 := by
    have := ofLeBytes_lt l
    rw [h] at this
    omega
  unfold indexBytes bytesIndex
  rw [BitVec.toNat_ofNat, Nat.mod_eq_of_lt h1]
  have := leBytes_ofLeBytes l
  rwa [h] at this

/-- Whole elements followed by fewer than 16 bytes are read back. -/
theorem getLoop_elements (l : List (Index × Tag)) (tail : List UInt8) (ht : tail.length < 16)
    (acc : List (Index × Tag)) :
    getLoop janusSerializer (l.flatMap (fun e => indexBytes e.1 ++ e.2.toList) ++ tail) acc = .ok (acc ++ l) := by
  induction l generalizing acc with
  | nil =>
    rw [getLoop]
    have : janusSerializer.deserialize tail = .fail := by
      simp only [janusSerializer]; rw [if_pos (by omega)]
    simp [this]
  | cons e l ih =>
    rw [getLoop]
    have h := janus_lawful.1 e (l.flatMap (fun e => indexBytes e.1 ++ e.2.toList) ++ tail)
    have h' : janusSerializer.serialize e = indexBytes e.1 ++ e.2.toList := rfl
    rw [h'] at h
    rw [List.flatMap_cons, List.append_assoc, h]
    simp only
    rw [if_pos (by simp; omega), ih]
    simp

/-- Every string of bytes that is long enough begins with that many elements. -/
theorem exists_elements (q : Nat) (raw : List UInt8) (h : 24 * q ≤ raw.length) :
    ∃ l : List (Index × Tag), l.length = q ∧
      l.flatMap (fun e => indexBytes e.1 ++ e.2.toList) = raw.take (24 * q) := by
  induction q generalizing raw with
  | zero => exact ⟨[], rfl, by simp⟩
  | succ q ih =>
    obtain ⟨l, h1, h2⟩ := ih (raw.drop 24) (by simp; omega)
    refine ⟨(bytesIndex (raw.take 8), tagOf ((raw.drop 8).take 16) (by simp; omega)) :: l, by simp [h1], ?_⟩
    have h8 : indexBytes (bytesIndex (raw.take 8)) = raw.take 8 := indexBytes_bytesIndex _ (by simp; omega)
    have h16 : (tagOf ((raw.drop 8).take 16) (by simp; omega)).toList = (raw.drop 8).take 16 := by
      simp [tagOf, Vector.toList]
    rw [List.flatMap_cons, h2]
    simp only [h8, h16]
    rw [show 24 * (q + 1) = 8 + (16 + 24 * q) from by omega, List.take_add (i := 8), List.take_add (i := 16),
      List.drop_drop, List.append_assoc]

/-- What is read from *any* stored value that is not read out of bounds: as many elements as the value has bytes for,
and their bytes, put end to end, are the value without the incomplete element at its end. -/
theorem elements_read (raw : List UInt8) (h : raw.length % 24 < 16) :
    ∃ l, getLoop janusSerializer raw [] = .ok l ∧ l.length = raw.length / 24 ∧
      l.flatMap (fun e => indexBytes e.1 ++ e.2.toList) = raw.take (24 * (raw.length / 24)) := by
  obtain ⟨l, h1, h2⟩ := exists_elements (raw.length / 24) raw (by omega)
  refine ⟨l, ?_, h1, h2⟩
  have := getLoop_elements l (raw.drop (24 * (raw.length / 24))) (by simp; omega) []
  rwa [h2, List.take_append_drop, List.nil_append] at this

/-- **C16**, violated: a truncated value of 16 bytes makes the deserialisation read 8 bytes beyond
the end of the buffer (`sizeof(kTagSize)` instead of `kTagSize`). -/
theorem C16_truncated_violated (m : Map K (List UInt8)) (k : K) (raw : List UInt8)
    (h : raw.length = 16) (hm : m k = some raw) :
    get janusSerializer m k = (true, .outOfBounds) := by
  unfold get
  rw [hm]
  simp only [(C16_characterisation raw).1 (by omega)]

example : get janusSerializer ((Map.empty : Map Bool _).put true (List.replicate 16 0)) true =
    (true, .outOfBounds) :=
  C16_truncated_violated _ _ _ (by simp) (Map.put_self _ _ _)

/-- **C41**, violated for truncated values: a stored value that is not a whole number of elements
is misread when its incomplete element has at least 16 bytes. -/
theorem C41_truncated_violated (raw : List UInt8) (h : 16 ≤ raw.length % 24) :
    getLoop janusSerializer raw [] = .outOfBounds := (C16_characterisation raw).1 h

/-- **C16**, the part that holds: a value written by the store is read within its bounds, and so is
every value whose incomplete last element has fewer than 16 bytes. Missing: values ending with 16 to
23 spurious bytes. -/
theorem C16_within_bounds_partial (raw : List UInt8) (h : raw.length % 24 < 16) :
    ∃ l, getLoop janusSerializer raw [] = .ok l ∧ l.length = raw.length / 24 ∧
      l.flatMap (fun e => indexBytes e.1 ++ e.2.toList) = raw.take (24 * (raw.length / 24)) :=
  elements_read raw h

example : ∃ l, getLoop janusSerializer (List.replicate 50 3) [] = .ok l ∧ l.length = 2 ∧
    l.flatMap (fun e => indexBytes e.1 ++ e.2.toList) = List.replicate 48 3 := by
  simpa using C16_within_bounds_partial (List.replicate 50 3) (by simp)

end Verif.ListStore
