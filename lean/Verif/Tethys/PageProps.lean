import Verif.Tethys.EncoderLemmas

/-!
# What the decoder reads in any page (C25)

A page need not be one that the encoder made: it may be damaged, cut short, or belong to another table. The
specification `Spec.Page` says what the values of a key are in a page of bytes; the decoder returns them when
there are some, and otherwise reads past the end of the page.
-/

namespace Verif.Tethys

namespace Spec

/-- The values of a key in a page: parts follow each other, each with its length on eight bytes, its key, and
its values; the page ends with its bytes or with a length which is zero. A part of another key may go past the
end of the page. -/
inductive Page (key : CoreKey) : List UInt8 → List Index → Prop
  | empty : Page key [] []
  | stop (rest : List UInt8) : Page key (List.replicate 8 0 ++ rest) []
  | found (vs : List Index) (rest : List UInt8) (h : vs ≠ []) (hn : vs.length < 2 ^ 64) :
      Page key (leBytes 8 vs.length ++ key.toList ++ vs.flatMap indexBytes ++ rest) vs
  | other (n : Nat) (k : CoreKey) (rest : List UInt8) (vs : List Index) (h0 : 0 < n) (hn : n < 2 ^ 60)
      (hk : k ≠ key) (h : Page key (rest.drop (8 * n)) vs) : Page key (leBytes 8 n ++ k.toList ++ rest) vs

end Spec

theorem readValues_cases (n : Nat) (b : List UInt8) :
    (b.length < 8 * n ∧ readValues n b = .error .outOfBounds) ∨
    ∃ vs rest, vs.length = n ∧ b = vs.flatMap indexBytes ++ rest ∧ readValues n b = .ok vs := by
  induction n generalizing b with
  | zero => exact Or.inr ⟨[], b, rfl, rfl, rfl⟩
  | succ n ih =>
    unfold readValues
    by_cases h : b.length < 8
    · rw [if_pos h]; exact Or.inl ⟨by omega, rfl⟩
    · rw [if_neg h]
      rcases ih (b.drop 8) with ⟨h1, h2⟩ | ⟨vs, rest, h1, h2, h3⟩
      · rw [h2]
        rw [List.length_drop] at h1
        exact Or.inl ⟨by omega, rfl⟩
      · rw [h3]
        refine Or.inr ⟨bytesIndex (b.take 8) :: vs, rest, by simp [h1], ?_, rfl⟩
        have hb : indexBytes (bytesIndex (b.take 8)) = b.take 8 := by
          have hl : (b.take 8).length = 8 := by rw [List.length_take]; omega
          have h5 : ofLeBytes (b.take 8) < 2 ^ 64 := by
            have := ofLeBytes_lt (b.take 8)
            rw [hl] at this
            omega
          unfold indexBytes bytesIndex
          rw [BitVec.toNat_ofNat, Nat.mod_eq_of_lt h5]
          have := leBytes_ofLeBytes (b.take 8)
          rwa [hl] at this
        rw [List.flatMap_cons, hb, List.append_assoc, ← h2, List.take_append_drop]

/-- The cases of a page -/
theorem decodeLoop_cases (key : CoreKey) (fuel : Nat) (b : List UInt8) (hf : b.length < fuel) :
    (∃ vs, decodeLoop key fuel b = .ok vs ∧ Spec.Page key b vs) ∨
      decodeLoop key fuel b = .error .outOfBounds := by
  induction fuel generalizing b with
  | zero => omega
  | succ fuel ih =>
    unfold decodeLoop
    by_cases h0 : b.length = 0
    · rw [if_pos h0]
      rw [List.length_eq_zero_iff] at h0
      subst h0
      exact Or.inl ⟨[], rfl, .empty⟩
    rw [if_neg h0]
    by_cases h8 : b.length < 8
    · rw [if_pos h8]; exact Or.inr rfl
    rw [if_neg h8]
    have hl : (b.take 8).length = 8 := by rw [List.length_take]; omega
    have hle : leBytes 8 (ofLeBytes (b.take 8)) = b.take 8 := by
      have := leBytes_ofLeBytes (b.take 8)
      rwa [hl] at this
    have hlt : ofLeBytes (b.take 8) < 2 ^ 64 := by
      have := ofLeBytes_lt (b.take 8)
      rw [hl] at this
      omega
    simp only []
    generalize ofLeBytes (b.take 8) = len at hle hlt ⊢
    by_cases hz : len = 0
    · rw [if_pos hz]
      subst hz
      have : b = List.replicate 8 0 ++ b.drop 8 := by
        conv_lhs => rw [← List.take_append_drop 8 b, ← hle]
        rfl
      rw [this]
      exact Or.inl ⟨[], rfl, .stop _⟩
    rw [if_neg hz]
    by_cases h24 : b.length < 24
    · rw [if_pos h24]; exact Or.inr rfl
    rw [if_neg h24]
    have hb : b = leBytes 8 len ++ (b.drop 8).take 16 ++ b.drop 24 := by
      rw [hle, List.append_assoc]
      conv_lhs => rw [← List.take_append_drop 8 b, ← List.take_append_drop 16 (b.drop 8), List.drop_drop]
    by_cases hk : (b.drop 8).take 16 = key.toList
    · rw [if_pos hk]
      rcases readValues_cases len (b.drop 24) with ⟨-, h2⟩ | ⟨vs, rest, h1, h2, h3⟩
      · exact Or.inr h2
      · refine Or.inl ⟨vs, h3, ?_⟩
        rw [hb, hk, h2, ← List.append_assoc, ← h1]
        exact .found vs rest (by rintro rfl; exact hz h1.symm) (by omega)
    rw [if_neg hk]
    by_cases h60 : 2 ^ 60 ≤ len
    · rw [if_pos h60]; exact Or.inr rfl
    rw [if_neg h60]
    rcases ih (b.drop (24 + 8 * len)) (by rw [List.length_drop]; omega) with ⟨vs, h1, h2⟩ | h1
    · refine Or.inl ⟨vs, h1, ?_⟩
      have h16 : ((b.drop 8).take 16).toArray.size = 16 := by
        rw [List.size_toArray, List.length_take, List.length_drop]; omega
      rw [hb]
      have hv : (b.drop 8).take 16 = (⟨((b.drop 8).take 16).toArray, h16⟩ : CoreKey).toList := rfl
      rw [hv]
      refine .other len _ _ vs (by omega) (by omega) ?_ (by rw [List.drop_drop]; exact h2)
      intro he
      apply hk
      rw [hv, he]
    · exact Or.inr h1

theorem decodeLoop_page (key : CoreKey) (b : List UInt8) (vs : List Index) (h : Spec.Page key b vs) (fuel : Nat)
    (hf : b.length < fuel) : decodeLoop key fuel b = .ok vs := by
  induction h generalizing fuel with
  | empty =>
    obtain ⟨fuel, rfl⟩ : ∃ f, fuel = f + 1 := ⟨fuel - 1, by simp at hf; omega⟩
    rfl
  | stop rest =>
    obtain ⟨fuel, rfl⟩ : ∃ f, fuel = f + 1 := ⟨fuel - 1, by omega⟩
    unfold decodeLoop
    rw [if_neg (by simp), if_neg (by simp), List.take_left' (by simp)]
    rfl
  | found vs rest h hn =>
    obtain ⟨fuel, rfl⟩ : ∃ f, fuel = f + 1 := ⟨fuel - 1, by omega⟩
    unfold decodeLoop
    have hpos : 0 < vs.length := List.length_pos_iff.mpr h
    have hlen : (leBytes 8 vs.length ++ key.toList ++ vs.flatMap indexBytes ++ rest).length =
        24 + 8 * vs.length + rest.length := by
      simp only [List.length_append, leBytes_length, Vector.length_toList, length_flatMap_indexBytes]
    rw [if_neg (by omega), if_neg (by omega)]
    have htake : ofLeBytes ((leBytes 8 vs.length ++ key.toList ++ vs.flatMap indexBytes ++ rest).take 8) =
        vs.length := by
      simp only [List.append_assoc]
      rw [List.take_left' (leBytes_length _ _), ofLeBytes_leBytes _ _ (by omega)]
    have hkey : ((leBytes 8 vs.length ++ key.toList ++ vs.flatMap indexBytes ++ rest).drop 8).take 16 =
        key.toList := by
      simp only [List.append_assoc]
      rw [List.drop_left' (leBytes_length _ _), List.take_left' (by simp)]
    have hdrop : (leBytes 8 vs.length ++ key.toList ++ vs.flatMap indexBytes ++ rest).drop 24 =
        vs.flatMap indexBytes ++ rest := by
      rw [List.append_assoc (leBytes 8 vs.length ++ key.toList), List.drop_left' (by simp)]
    simp only [htake, hkey, hdrop]
    rw [if_neg (by omega), if_neg (by omega), if_pos trivial, readValues_spec]
  | other n k rest vs h0 hn hk h ih =>
    obtain ⟨fuel, rfl⟩ : ∃ f, fuel = f + 1 := ⟨fuel - 1, by omega⟩
    unfold decodeLoop
    have hlen : (leBytes 8 n ++ k.toList ++ rest).length = 24 + rest.length := by
      simp only [List.length_append, leBytes_length, Vector.length_toList]
    rw [if_neg (by omega), if_neg (by omega)]
    have htake : ofLeBytes ((leBytes 8 n ++ k.toList ++ rest).take 8) = n := by
      simp only [List.append_assoc]
      rw [List.take_left' (leBytes_length _ _), ofLeBytes_leBytes _ _ (by omega)]
    have hkey : ((leBytes 8 n ++ k.toList ++ rest).drop 8).take 16 = k.toList := by
      simp only [List.append_assoc]
      rw [List.drop_left' (leBytes_length _ _), List.take_left' (by simp)]
    have hdrop : (leBytes 8 n ++ k.toList ++ rest).drop (24 + 8 * n) = rest.drop (8 * n) := by
      rw [← List.drop_drop, List.drop_left' (by simp)]
    simp only [htake, hkey, hdrop]
    rw [if_neg (by omega), if_neg (by omega), if_neg (by rw [toList_inj]; exact hk), if_neg (by omega)]
    exact ih fuel (by rw [List.length_drop]; omega)

/-- **C25**: the decoder returns exactly the values that the key has in the page, whatever the bytes of the
page; where the key has none, not even an empty list of them, it reads past the end of the page. It never
runs for ever. -/
theorem C25_any_page (key : CoreKey) (b : List UInt8) :
    (∀ vs, decodeSingle key b = .ok vs ↔ Spec.Page key b vs) ∧
    ((∀ vs, ¬ Spec.Page key b vs) → decodeSingle key b = .error .outOfBounds) := by
  refine ⟨fun vs => ⟨fun h => ?_, fun h => decodeLoop_page key b vs h _ (by omega)⟩, fun h => ?_⟩
  · rcases decodeLoop_cases key (b.length + 1) b (by omega) with ⟨us, h1, h2⟩ | h1
    · unfold decodeSingle at h
      rw [h1] at h
      injection h with h
      rwa [← h]
    · unfold decodeSingle at h
      rw [h1] at h
      cases h
  · rcases decodeLoop_cases key (b.length + 1) b (by omega) with ⟨us, h1, h2⟩ | h1
    · exact absurd h2 (h us)
    · exact h1

/-- **C25** for a page cut in the values of the key: the decoder reads past its end. -/
theorem C25_cut_page (key : CoreKey) (n : Nat) (h0 : 0 < n) (hn : n < 2 ^ 64) (rest : List UInt8)
    (h : rest.length < 8 * n) :
    decodeSingle key (leBytes 8 n ++ key.toList ++ rest) = .error .outOfBounds := by
  have hlen : (leBytes 8 n ++ key.toList ++ rest).length = 24 + rest.length := by
    simp only [List.length_append, leBytes_length, Vector.length_toList]
  have htake : ofLeBytes ((leBytes 8 n ++ key.toList ++ rest).take 8) = n := by
    simp only [List.append_assoc]
    rw [List.take_left' (leBytes_length _ _), ofLeBytes_leBytes _ _ (by omega)]
  have hkey : ((leBytes 8 n ++ key.toList ++ rest).drop 8).take 16 = key.toList := by
    simp only [List.append_assoc]
    rw [List.drop_left' (leBytes_length _ _), List.take_left' (by simp)]
  have hdrop : (leBytes 8 n ++ key.toList ++ rest).drop 24 = rest := List.drop_left' (by simp)
  unfold decodeSingle decodeLoop
  rw [if_neg (by omega), if_neg (by omega)]
  simp only [htake, hkey, hdrop]
  rw [if_neg (by omega), if_neg (by omega), if_pos trivial]
  rcases readValues_cases n rest with ⟨-, h2⟩ | ⟨vs, r, h1, h2, -⟩
  · exact h2
  · have := congrArg List.length h2
    rw [List.length_append, length_flatMap_indexBytes] at this
    omega

/-- Pages of both kinds: the values follow a part of another key; a page cut after the first of two values. -/
example : decodeSingle (Vector.replicate 16 1)
      (leBytes 8 1 ++ List.replicate 16 2 ++ indexBytes 5 ++ leBytes 8 2 ++ List.replicate 16 1 ++ indexBytes 7 ++
        indexBytes 8 ++ [3]) = .ok [7, 8] ∧
    decodeSingle (Vector.replicate 16 1) (leBytes 8 2 ++ (Vector.replicate 16 1 : CoreKey).toList ++ indexBytes 7)
      = .error .outOfBounds :=
  ⟨by decide +kernel, C25_cut_page _ 2 (by decide) (by decide) _ (by decide)⟩

end Verif.Tethys
