import Verif.Cli.ArgsProps
import Verif.Cli.NumberLemmas
import Mathlib.Tactic.Linarith
import Mathlib.Tactic.NormNum
import Mathlib.Tactic.Positivity

/-!
# C85: the number given with `-r`
-/

namespace Verif.Cli

/-- **C85**: a number from 0 to `2^32 - 1` that is an integer is read exactly, however it is written. -/
theorem C85_exact (underflow : ℚ → Bool) (l : Literal) (h : l.Ok) (hs : l.sign ≠ some true) (n : ℕ) (hn : n < 2 ^ 32) (hv : l.value = n) :
    entriesOf underflow l.text = .count (UInt32.ofNat n) := by
  rw [entriesOf_literal underflow l h, hv]
  simp only [hs, decide_false]
  refine entries_between underflow n n hn le_rfl ?_ ?_
  · have : (1 : ℚ) / 2 ^ 20 ≤ 1 := by norm_num
    linarith
  · rcases Nat.eq_zero_or_pos n with rfl | hp
    · exact Or.inl (by norm_num)
    · right
      have h1 : (1 : ℚ) ≤ n := by exact_mod_cast hp
      have h2 : (1 : ℚ) / 2 ^ 1022 ≤ 1 := by
        rw [div_le_one (by positivity)]
        exact one_le_pow₀ (by norm_num)
      exact le_trans h2 h1

/-- The literal with the digits of a number -/
def plain (n : ℕ) : Literal := ⟨[], none, Nat.toDigits 10 n, none, none⟩

theorem plain_ok (n : ℕ) : (plain n).Ok where
  blanks := by simp [plain]
  whole := fun c hc => Nat.isDigit_of_mem_toDigits (by norm_num) (by norm_num) hc
  fraction := by simp [plain]
  nonempty := by simp [plain]
  exponent := by simp [plain]

theorem plain_value (n : ℕ) : (plain n).value = n := by
  simp [plain, Literal.value, Nat.ofDigitChars_ten_toDigits]

/-- **C85**: the usual way to write a number -/
theorem C85_integer (underflow : ℚ → Bool) (n : ℕ) (hn : n < 2 ^ 32) :
    entriesOf underflow (Nat.toDigits 10 n) = .count (UInt32.ofNat n) := by
  have h := C85_exact underflow (plain n) (plain_ok n) (by simp [plain]) n hn (plain_value n)
  simpa [plain, Literal.text, signText] using h

/-- **C85**: other numbers are rounded down, if they are not very close to the next integer. -/
theorem C85_fraction (underflow : ℚ → Bool) (l : Literal) (h : l.Ok) (hs : l.sign ≠ some true) (n : ℕ) (hn : n < 2 ^ 32)
    (h1 : (n : ℚ) ≤ l.value) (h2 : l.value ≤ n + 1 - 1 / 2 ^ 20) (hnormal : l.value = 0 ∨ 1 / 2 ^ 1022 ≤ l.value) :
    entriesOf underflow l.text = .count (UInt32.ofNat n) := by
  rw [entriesOf_literal underflow l h]
  simp only [hs, decide_false]
  exact entries_between underflow _ n hn h1 h2 hnormal

/-- **C85 is violated**: a negative number is not refused, the behaviour is undefined. -/
theorem C85_negative_violated (underflow : ℚ → Bool) (l : Literal) (h : l.Ok) (hs : l.sign = some true) (h1 : 1 ≤ l.value)
    (h2 : l.value ≤ 2 ^ 1023) : entriesOf underflow l.text = .undefined := by
  have hx0 : (0 : ℚ) ≤ l.value := by linarith
  rw [entriesOf_literal underflow l h]
  have hlow : (1 : ℚ) ≤ Fp.rnd 53 l.value := by
    have := Fp.rnd_mono 53 (by norm_num) h1
    have e := Fp.rnd_nat 53 1 (by norm_num) (by norm_num)
    norm_num at e
    rwa [e] at this
  have hbig : ¬ (2 : ℚ) ^ 1024 ≤ Fp.rnd 53 l.value := fun hb => absurd (rnd_large hb hx0) (not_lt.mpr h2)
  have htiny : ¬ (0 < l.value ∧ l.value < 1 / 2 ^ 1022 ∧ underflow l.value = true) := by
    rintro ⟨-, h', -⟩
    have h3 : (1 : ℚ) / 2 ^ 1022 ≤ 1 := by
      rw [div_le_one (by positivity)]
      exact one_le_pow₀ (by norm_num)
    exact absurd (lt_of_lt_of_le h' h3) (not_lt.mpr h1)
  unfold entries
  simp only [hs, decide_true, if_neg hbig, if_neg htiny, if_true, if_neg (not_lt.mpr hlow)]

/-- **C85 is violated**: a number that is too large is not refused, the behaviour is undefined. -/
theorem C85_large_violated (underflow : ℚ → Bool) (l : Literal) (h : l.Ok) (hs : l.sign ≠ some true) (h1 : 2 ^ 32 ≤ l.value)
    (h2 : l.value ≤ 2 ^ 1023) : entriesOf underflow l.text = .undefined := by
  have hx0 : (0 : ℚ) ≤ l.value := le_trans (by positivity) h1
  rw [entriesOf_literal underflow l h]
  have hlow : (2 : ℚ) ^ 32 ≤ Fp.rnd 53 l.value := by
    have := Fp.rnd_mono 53 (by norm_num) h1
    have e := Fp.rnd_nat 53 (2 ^ 32) (by norm_num) (by norm_num)
    norm_num at e this
    rw [e] at this
    norm_num
    exact this
  have hbig : ¬ (2 : ℚ) ^ 1024 ≤ Fp.rnd 53 l.value := fun hb => absurd (rnd_large hb hx0) (not_lt.mpr h2)
  have htiny : ¬ (0 < l.value ∧ l.value < 1 / 2 ^ 1022 ∧ underflow l.value = true) := by
    rintro ⟨-, h', -⟩
    have h3 : (1 : ℚ) / 2 ^ 1022 ≤ 1 := by
      rw [div_le_one (by positivity)]
      exact one_le_pow₀ (by norm_num)
    have h4 : (1 : ℚ) ≤ 2 ^ 32 := by norm_num
    exact absurd (lt_of_lt_of_le h' h3) (not_lt.mpr (le_trans h4 h1))
  have hf : ¬ ⌊Fp.rnd 53 l.value⌋ < 2 ^ 32 := by
    rw [not_lt, Int.le_floor]
    exact_mod_cast hlow
  unfold entries
  simp only [hs, decide_false, if_neg hbig, if_neg htiny, Bool.false_eq_true, if_false, if_neg hf]

/-- **C85 is violated**: what follows the number is ignored, so `10k` and `1,000` are taken for 10 and 1. -/
theorem C85_garbage_violated (underflow : ℚ → Bool) (n : ℕ) (hn : n < 2 ^ 32) (c : Char) (rest : List Char) (hd : c.isDigit = false)
    (hc : c ∉ ['.', 'e', 'E', 'x', 'X']) : entriesOf underflow (Nat.toDigits 10 n ++ c :: rest) = .count (UInt32.ofNat n) := by
  simp only [List.mem_cons, List.not_mem_nil, or_false, not_or] at hc
  obtain ⟨c1, c2, c3, c4, c5⟩ := hc
  have hdig : ∀ c ∈ Nat.toDigits 10 n, c.isDigit := fun c hc => Nat.isDigit_of_mem_toDigits (by norm_num) (by norm_num) hc
  have hne : Nat.toDigits 10 n ≠ [] := Nat.toDigits_ne_nil
  have hnum : Nat.ofDigitChars 10 (Nat.toDigits 10 n) 0 = n := Nat.ofDigitChars_ten_toDigits
  generalize Nat.toDigits 10 n = w at *
  obtain ⟨a, w', rfl⟩ : ∃ a w', w = a :: w' := by
    cases w with
    | nil => exact absurd rfl hne
    | cons a w' => exact ⟨a, w', rfl⟩
  have ha : a.isDigit := hdig a (by simp)
  have hne' : ∀ d : Char, d.isDigit = false → a ≠ d := fun d hd => ne_of_isDigit ha hd
  have hdrop : ((a :: w') ++ c :: rest).dropWhile isSpace = (a :: w') ++ c :: rest := by
    rw [List.cons_append]
    refine List.dropWhile_cons_of_neg ?_
    simp [isSpace, hne' ' ' (by decide), hne' '\t' (by decide), hne' '\n' (by decide), hne' '\x0b' (by decide), hne' '\x0c' (by decide),
      hne' '\r' (by decide)]
  have hsign : sign ((a :: w') ++ c :: rest) = (false, (a :: w') ++ c :: rest) := by
    have := sign_text none ((a :: w') ++ c :: rest) (by
      intro d l h
      simp only [List.cons_append, List.cons.injEq] at h
      rw [← h.1]
      exact ⟨hne' _ (by decide), hne' _ (by decide)⟩)
    simpa [signText] using this
  have hdigits := digits_append (a :: w') (c :: rest) hdig (by
    intro d l h
    simp only [List.cons.injEq] at h
    rw [← h.1]
    exact hd)
  have hm : mantissa decVal 10 ((a :: w') ++ c :: rest) = some (n, 0, c :: rest) := by
    unfold mantissa
    simp only [hdigits]
    split
    · rename_i r hr
      simp only [List.cons.injEq] at hr
      exact absurd hr.1 c1
    · rw [numeral_digits, hnum]
      simp
  have hx : hexPart ((a :: w') ++ c :: rest) = none := by
    unfold hexPart
    split
    · rename_i x r hr
      cases w' with
      | nil =>
        simp only [List.cons_append, List.nil_append, List.cons.injEq] at hr
        rw [← hr.2.1]
        exact if_neg (by rintro (h | h); exact c4 h; exact c5 h)
      | cons b w'' =>
        simp only [List.cons_append, List.cons.injEq] at hr
        rw [← hr.2.1]
        have hb := hdig b (by simp)
        exact if_neg (by rintro (h | h) <;> exact ne_of_isDigit hb (by decide) h)
    · rfl
  have hexp : exponent 'e' 'E' (c :: rest) = 0 := by simp [exponent, c2, c3]
  have hmag : magnitude ((a :: w') ++ c :: rest) = some (.finite n) := by
    unfold magnitude
    simp only [hx, hm, hexp]
    simp
  unfold entriesOf
  simp only [hdrop, hsign, hmag]
  have h1 := C85_integer underflow n hn
  have h2 := entriesOf_literal underflow (plain n) (plain_ok n)
  rw [plain_value] at h2
  simpa [plain, Literal.text, signText, h1] using h2.symm

/-- **C85**: a text that does not begin like a number is refused (with an exception that nobody catches). -/
theorem C85_word (underflow : ℚ → Bool) (c : Char) (rest : List Char) (hs : isSpace c = false) (hd : c.isDigit = false)
    (hc : c ∉ ['.', '+', '-', 'i', 'I', 'n', 'N']) (hl : c.toLower ≠ 'i' ∧ c.toLower ≠ 'n') : entriesOf underflow (c :: rest) = .exception := by
  simp only [List.mem_cons, List.not_mem_nil, or_false, not_or] at hc
  obtain ⟨c1, c2, c3, c4, c5, c6, c7⟩ := hc
  have hdrop : (c :: rest).dropWhile isSpace = c :: rest := List.dropWhile_cons_of_neg (by simp [hs])
  have hsign : sign (c :: rest) = (false, c :: rest) := by
    have := sign_text none (c :: rest) (by
      intro d l h
      simp only [List.cons.injEq] at h
      rw [← h.1]
      exact ⟨c3, c2⟩)
    simpa [signText] using this
  have hdigits : digits decVal (c :: rest) = ([], c :: rest) := by simp [digits, decVal, hd]
  have hm : mantissa decVal 10 (c :: rest) = none := by
    unfold mantissa
    simp only [hdigits]
    split
    · rename_i r hr
      simp only [List.cons.injEq] at hr
      exact absurd hr.1 c1
    · simp
  have hx : hexPart (c :: rest) = none := by
    unfold hexPart
    split
    · rename_i x r hr
      simp only [List.cons.injEq] at hr
      rw [hr.1] at hd
      exact absurd hd (by decide)
    · rfl
  have hmag : magnitude (c :: rest) = none := by
    unfold magnitude
    simp only [hx, hm, List.take_succ_cons, List.map_cons, List.cons.injEq, hl.1, hl.2, false_and, if_false]
  unfold entriesOf
  simp only [hdrop, hsign, hmag]

/-- **C85**: integers may be given to the base 16, with small or capital letters. -/
theorem C85_hexadecimal (underflow : ℚ → Bool) (n : ℕ) (hn : n < 2 ^ 32) :
    entriesOf underflow ('0' :: 'x' :: Nat.toDigits 16 n) = .count (UInt32.ofNat n) ∧
    entriesOf underflow ('0' :: 'X' :: (Nat.toDigits 16 n).map Char.toUpper) = .count (UInt32.ofNat n) := by
  have key : ∀ (x : Char) (f : Char → Char), x = 'x' ∨ x = 'X' → (∀ d, d < 16 → hexVal (f (Nat.digitChar d)) = some d) →
      entriesOf underflow ('0' :: x :: (Nat.toDigits 16 n).map f) = .count (UInt32.ofNat n) := by
    intro x f hx hf
    obtain ⟨h1, h2⟩ := hex_digits f hf n
    have hne : (Nat.toDigits 16 n).map f ≠ [] := by simp
    generalize (Nat.toDigits 16 n).map f = w at *
    have hdrop : ('0' :: x :: w).dropWhile isSpace = '0' :: x :: w := List.dropWhile_cons_of_neg (by decide)
    have hsign : sign ('0' :: x :: w) = (false, '0' :: x :: w) := rfl
    have hw : w.filterMap hexVal ≠ [] := by
      obtain ⟨c, hc⟩ := List.exists_mem_of_ne_nil _ hne
      obtain ⟨d, hd⟩ := Option.isSome_iff_exists.mp (h1 c hc)
      exact List.ne_nil_of_mem (List.mem_filterMap.mpr ⟨c, hc, hd⟩)
    have hm : mantissa hexVal 16 w = some (n, 0, []) := by
      unfold mantissa
      simp only [digits_all hexVal w h1, if_neg hw, h2]
    have hmag : magnitude ('0' :: x :: w) = some (.finite n) := by
      unfold magnitude
      simp [hexPart, hx, hm, exponent]
    unfold entriesOf
    simp only [hdrop, hsign, hmag]
    have h3 := C85_integer underflow n hn
    have h4 := entriesOf_literal underflow (plain n) (plain_ok n)
    rw [plain_value] at h4
    simpa [plain, Literal.text, signText, h3] using h4.symm
  refine ⟨?_, key 'X' Char.toUpper (Or.inr rfl) (by decide)⟩
  have := key 'x' id (Or.inl rfl) (by decide)
  simpa using this

/-- **C85 is violated**: an infinite number and `nan` are not refused, the behaviour is undefined. -/
theorem C85_infinite_violated (underflow : ℚ → Bool) (s : List Char) (hs : s = ['i', 'n', 'f'] ∨ s = ['n', 'a', 'n']) :
    entriesOf underflow s = .undefined ∧ entriesOf underflow ('-' :: s) = .undefined := by
  rcases hs with rfl | rfl <;> exact ⟨rfl, rfl⟩

/-- **C85**: the clients with the option `-r` and a number generate as many documents. -/
theorem C85_client (sc : Scheme) (underflow : ℚ → Bool) (loads : Arg → Bool) (l : Literal) (h : l.Ok) (hs : l.sign ≠ some true) (n : ℕ)
    (h0 : 0 < n) (hn : n < 2 ^ 32) (hv : l.value = n) :
    clientMain sc (stodOf underflow) loads [['-', 'r'], l.text] =
      .ok ([.openDb (clientDefault sc), .random (UInt32.ofNat n)], 0) := by
  have h1 : stodOf underflow l.text = some (UInt32.ofNat n) := by
    unfold stodOf
    rw [C85_exact underflow l h hs n hn hv]
  have h2 := (C66_client_partial sc (stodOf underflow) loads [.random l.text false] [] (by
    intro w hw
    simp only [List.mem_singleton] at hw
    subst hw
    simp [Want.forClient, Want.gluable, h1])).2
  have h3 : (0 : UInt32) < UInt32.ofNat n := by
    rw [UInt32.lt_iff_toNat_lt]
    rw [UInt32.toNat_ofNat', Nat.mod_eq_of_lt hn]; exact h0
  simpa [Want.args, Want.write, ArgSpec.db, ArgSpec.files, ArgSpec.count, ArgSpec.words, h1, h3] using h2

/-! ## Concrete cases -/

/-- ` +1.50e3` -/
def exampleLiteral : Literal := ⟨[' '], some false, ['1'], some ['5', '0'], some ('e', none, ['3'])⟩

example : exampleLiteral.Ok ∧ exampleLiteral.sign ≠ some true ∧ exampleLiteral.value = (1500 : ℕ) ∧
    exampleLiteral.text = " +1.50e3".toList := by
  refine ⟨⟨by decide, by decide, by decide, by decide, by rintro c s d h; cases h; decide⟩, by decide, ?_, by decide +kernel⟩
  have h1 : Nat.ofDigitChars 10 ['1', '5', '0'] 0 = 150 := by decide
  have h3 : Nat.ofDigitChars 10 ['3'] 0 = 3 := by decide
  norm_num [exampleLiteral, Literal.value, h1, h3]

example : entriesOf (fun _ => true) "4294967295".toList = .count 4294967295 := by
  have h := C85_integer (fun _ => true) 4294967295 (by norm_num)
  rwa [show Nat.toDigits 10 4294967295 = "4294967295".toList by decide +kernel] at h

/-- `2.75` is taken for 2 -/
example : entriesOf (fun _ => true) "2.75".toList = .count 2 := by
  have h := C85_fraction (fun _ => true) ⟨[], none, ['2'], some ['7', '5'], none⟩ ⟨by decide, by decide, by decide, by decide, by rintro c s d h; cases h⟩
    (by decide) 2 (by norm_num)
  have h1 : Nat.ofDigitChars 10 ['2', '7', '5'] 0 = 275 := by decide
  have hv : (⟨[], none, ['2'], some ['7', '5'], none⟩ : Literal).value = 275 / 100 := by norm_num [Literal.value, h1]
  rw [hv] at h
  refine h (by norm_num) (by norm_num) (Or.inr ?_)
  have h3 : (1 : ℚ) / 2 ^ 1022 ≤ 1 := by
    rw [div_le_one (by positivity)]
    exact one_le_pow₀ (by norm_num)
  exact le_trans h3 (by norm_num)

/-- `-5` -/
example : entriesOf (fun _ => true) "-5".toList = .undefined := by
  have h1 : Nat.ofDigitChars 10 ['5'] 0 = 5 := by decide
  have hv : (⟨[], some true, ['5'], none, none⟩ : Literal).value = 5 := by norm_num [Literal.value, h1]
  refine C85_negative_violated (fun _ => true) ⟨[], some true, ['5'], none, none⟩ ⟨by decide, by decide, by decide, by decide, by rintro c s d h; cases h⟩ rfl ?_ ?_
  · rw [hv]; norm_num
  · rw [hv]
    exact le_trans (by norm_num : (5 : ℚ) ≤ 2 ^ 3) (pow_le_pow_right₀ (by norm_num) (by norm_num))

/-- `5e9` -/
example : entriesOf (fun _ => true) "5e9".toList = .undefined := by
  have h1 : Nat.ofDigitChars 10 ['5'] 0 = 5 := by decide
  have h2 : Nat.ofDigitChars 10 ['9'] 0 = 9 := by decide
  have hv : (⟨[], none, ['5'], none, some ('e', none, ['9'])⟩ : Literal).value = 5000000000 := by norm_num [Literal.value, h1, h2]
  refine C85_large_violated (fun _ => true) ⟨[], none, ['5'], none, some ('e', none, ['9'])⟩
    ⟨by decide, by decide, by decide, by decide, by rintro c s d h; cases h; decide⟩ (by decide) ?_ ?_
  · rw [hv]; norm_num
  · rw [hv]
    exact le_trans (by norm_num : (5000000000 : ℚ) ≤ 2 ^ 33) (pow_le_pow_right₀ (by norm_num) (by norm_num))

/-- `0xff` and `0XFF` -/
example : entriesOf (fun _ => true) "0xff".toList = .count 255 ∧ entriesOf (fun _ => true) "0XFF".toList = .count 255 := by
  have h := C85_hexadecimal (fun _ => true) 255 (by norm_num)
  rw [show Nat.toDigits 16 255 = ['f', 'f'] by decide +kernel] at h
  exact ⟨by simpa using h.1, by simpa using h.2⟩

/-- `10k` and `1,000` -/
example : entriesOf (fun _ => true) "10k".toList = .count 10 ∧ entriesOf (fun _ => true) "1,000".toList = .count 1 := by
  have h1 := C85_garbage_violated (fun _ => true) 10 (by norm_num) 'k' [] (by decide) (by decide)
  have h2 := C85_garbage_violated (fun _ => true) 1 (by norm_num) ',' ['0', '0', '0'] (by decide) (by decide)
  rw [show Nat.toDigits 10 10 = ['1', '0'] by decide +kernel] at h1
  rw [show Nat.toDigits 10 1 = ['1'] by decide +kernel] at h2
  exact ⟨by simpa using h1, by simpa using h2⟩

/-- `many` -/
example : entriesOf (fun _ => true) "many".toList = .exception := by
  have := C85_word (fun _ => true) 'm' ['a', 'n', 'y'] (by decide) (by decide) (by decide) (by decide)
  simpa using this

end Verif.Cli
