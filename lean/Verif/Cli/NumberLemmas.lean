import Verif.Cli.Number
import Verif.Fp.Lemmas
import Mathlib.Tactic.Linarith
import Mathlib.Tactic.NormNum
import Mathlib.Tactic.Positivity

/-!
# Numbers as they are written, and how they are read (lemmas for C85)
-/

namespace Verif.Cli

/-! ## Numbers as they are written -/

/-- A decimal number: blanks, an optional sign, digits, an optional fraction, an optional exponent with an optional sign -/
structure Literal where
  blanks : List Char
  sign : Option Bool
  whole : List Char
  fraction : Option (List Char)
  exponent : Option (Char × Option Bool × List Char)

/-- The sign as it is written -/
def signText : Option Bool → List Char
  | none => []
  | some true => ['-']
  | some false => ['+']

/-- The text -/
def Literal.text (l : Literal) : List Char :=
  l.blanks ++ signText l.sign ++ l.whole ++ (match l.fraction with | none => [] | some f => '.' :: f) ++
    (match l.exponent with | none => [] | some (c, s, d) => c :: signText s ++ d)

/-- It is well-formed: there are digits before or after the point, and after the letter of the exponent. -/
structure Literal.Ok (l : Literal) : Prop where
  blanks : ∀ c ∈ l.blanks, c ∈ [' ', '\t', '\n', '\r']
  whole : ∀ c ∈ l.whole, c.isDigit
  fraction : ∀ f, l.fraction = some f → ∀ c ∈ f, c.isDigit
  nonempty : l.whole ++ l.fraction.getD [] ≠ []
  exponent : ∀ c s d, l.exponent = some (c, s, d) → (c = 'e' ∨ c = 'E') ∧ d ≠ [] ∧ ∀ c ∈ d, c.isDigit

/-- Its value without the sign -/
def Literal.value (l : Literal) : ℚ :=
  (Nat.ofDigitChars 10 (l.whole ++ l.fraction.getD []) 0 : ℚ) *
    10 ^ ((match l.exponent with
      | none => 0
      | some (_, some true, d) => -(Nat.ofDigitChars 10 d 0 : ℤ)
      | some (_, _, d) => Nat.ofDigitChars 10 d 0) - ((l.fraction.getD []).length : ℤ))

/-! ## Reading -/

theorem digits_append (cs rest : List Char) (h : ∀ c ∈ cs, c.isDigit) (hr : ∀ c l, rest = c :: l → c.isDigit = false) :
    digits decVal (cs ++ rest) = (cs.map (fun c => c.toNat - 48), rest) := by
  induction cs with
  | nil =>
    cases rest with
    | nil => rfl
    | cons c l => simp [digits, decVal, hr c l rfl]
  | cons c cs ih =>
    have h1 := h c (by simp)
    have ih := ih (fun c hc => h c (List.mem_cons_of_mem _ hc))
    simp [digits, decVal, h1, ih]

theorem numeral_digits (cs : List Char) : numeral 10 (cs.map (fun c => c.toNat - 48)) = Nat.ofDigitChars 10 cs 0 := by
  rw [Nat.ofDigitChars_eq_foldl, numeral, List.foldl_map]
  rfl

theorem ne_of_isDigit {c d : Char} (h : c.isDigit) (hd : d.isDigit = false) : c ≠ d := by
  rintro rfl
  rw [h] at hd
  cases hd

/-- The text of the exponent -/
def expText : Option (Char × Option Bool × List Char) → List Char
  | none => []
  | some (c, s, d) => c :: signText s ++ d

/-- The value of the exponent -/
def expValue : Option (Char × Option Bool × List Char) → ℤ
  | none => 0
  | some (_, some true, d) => -(Nat.ofDigitChars 10 d 0 : ℤ)
  | some (_, _, d) => Nat.ofDigitChars 10 d 0

theorem sign_text (s : Option Bool) (body : List Char) (h : ∀ c l, body = c :: l → c ≠ '-' ∧ c ≠ '+') :
    sign (signText s ++ body) = (decide (s = some true), body) := by
  match s with
  | some true => rfl
  | some false => rfl
  | none =>
    cases body with
    | nil => rfl
    | cons c l =>
      obtain ⟨h1, h2⟩ := h c l rfl
      simp only [signText, List.nil_append]
      unfold sign
      split
      · rename_i e; cases e; exact absurd rfl h1
      · rename_i e; cases e; exact absurd rfl h2
      · simp

theorem exponent_text (e : Option (Char × Option Bool × List Char))
    (h : ∀ c s d, e = some (c, s, d) → (c = 'e' ∨ c = 'E') ∧ d ≠ [] ∧ ∀ c ∈ d, c.isDigit) : exponent 'e' 'E' (expText e) = expValue e := by
  match e with
  | none => rfl
  | some (c, s, d) =>
    obtain ⟨hc, hd, hdd⟩ := h c s d rfl
    have hs : sign (signText s ++ d) = (decide (s = some true), d) := sign_text s d (by
      rintro c l rfl
      have := hdd c (by simp)
      exact ⟨ne_of_isDigit this (by decide), ne_of_isDigit this (by decide)⟩)
    have hdig : digits decVal d = (d.map (fun c => c.toNat - 48), []) := by
      have := digits_append d [] hdd (fun c l h => by cases h)
      rwa [List.append_nil] at this
    unfold exponent expText
    simp only [List.cons_append, if_pos hc, hs, hdig, numeral_digits, List.map_eq_nil_iff, if_neg hd]
    match s with
    | none => simp [expValue]
    | some true => simp [expValue]
    | some false => simp [expValue]

/-- The text of the fraction -/
def fracText : Option (List Char) → List Char
  | none => []
  | some f => '.' :: f

theorem expText_head (e : Option (Char × Option Bool × List Char))
    (h : ∀ c s d, e = some (c, s, d) → (c = 'e' ∨ c = 'E') ∧ d ≠ [] ∧ ∀ c ∈ d, c.isDigit) (c : Char) (l : List Char)
    (hc : expText e = c :: l) : c = 'e' ∨ c = 'E' := by
  match e with
  | none => cases hc
  | some (c', s, d) =>
    have := (h c' s d rfl).1
    simp only [expText, List.cons_append, List.cons.injEq] at hc
    rw [← hc.1]
    exact this

theorem mantissa_text (w : List Char) (f : Option (List Char)) (e : Option (Char × Option Bool × List Char)) (hw : ∀ c ∈ w, c.isDigit)
    (hf : ∀ g, f = some g → ∀ c ∈ g, c.isDigit) (hn : w ++ f.getD [] ≠ [])
    (he : ∀ c s d, e = some (c, s, d) → (c = 'e' ∨ c = 'E') ∧ d ≠ [] ∧ ∀ c ∈ d, c.isDigit) :
    mantissa decVal 10 (w ++ (fracText f ++ expText e)) =
      some (Nat.ofDigitChars 10 (w ++ f.getD []) 0, (f.getD []).length, expText e) := by
  have hnd : ∀ c l, expText e = c :: l → c.isDigit = false := by
    intro c l h
    rcases expText_head e he c l h with rfl | rfl <;> decide
  match f with
  | none =>
    have h1 : digits decVal (w ++ (fracText none ++ expText e)) = (w.map (fun c => c.toNat - 48), expText e) :=
      digits_append w _ hw (by simpa [fracText] using hnd)
    have hw0 : w ≠ [] := by simpa using hn
    unfold mantissa
    simp only [h1]
    split
    · rename_i r hr
      rcases expText_head e he _ _ hr with h | h <;> exact absurd h (by decide)
    · simp [hw0, numeral_digits]
  | some g =>
    have h1 : digits decVal (w ++ (fracText (some g) ++ expText e)) = (w.map (fun c => c.toNat - 48), '.' :: (g ++ expText e)) :=
      digits_append w _ hw (by
        intro c l h
        simp only [fracText, List.cons_append, List.cons.injEq] at h
        rw [← h.1]
        decide)
    have h2 := digits_append g (expText e) (hf g rfl) hnd
    have hn' : ¬ (w = [] ∧ g = []) := by
      rintro ⟨rfl, rfl⟩
      exact hn rfl
    unfold mantissa
    simp only [h1, h2, List.map_eq_nil_iff, if_neg hn', List.length_map, ← List.map_append, numeral_digits, Option.getD_some]

theorem magnitude_text (w : List Char) (f : Option (List Char)) (e : Option (Char × Option Bool × List Char)) (hw : ∀ c ∈ w, c.isDigit)
    (hf : ∀ g, f = some g → ∀ c ∈ g, c.isDigit) (hn : w ++ f.getD [] ≠ [])
    (he : ∀ c s d, e = some (c, s, d) → (c = 'e' ∨ c = 'E') ∧ d ≠ [] ∧ ∀ c ∈ d, c.isDigit) :
    magnitude (w ++ (fracText f ++ expText e)) =
      some (.finite ((Nat.ofDigitChars 10 (w ++ f.getD []) 0 : ℚ) * 10 ^ (expValue e - ((f.getD []).length : ℤ)))) := by
  have hm := mantissa_text w f e hw hf hn he
  have hx : ∀ (x : Char) (r : List Char), w ++ (fracText f ++ expText e) = '0' :: x :: r → ¬ (x = 'x' ∨ x = 'X') := by
    intro x r h
    have key : x.isDigit ∨ x = '.' ∨ x = 'e' ∨ x = 'E' := by
      have htail : ∀ l : List Char, fracText f ++ expText e = x :: l → x = '.' ∨ x = 'e' ∨ x = 'E' := by
        intro l hl
        match f with
        | none =>
          rcases expText_head e he x l hl with h | h
          · exact Or.inr (Or.inl h)
          · exact Or.inr (Or.inr h)
        | some g =>
          simp only [fracText, List.cons_append, List.cons.injEq] at hl
          exact Or.inl hl.1.symm
      match w with
      | [] =>
        exfalso
        rw [List.nil_append] at h
        match f with
        | none =>
          rcases expText_head e he '0' _ h with h | h <;> exact absurd h (by decide)
        | some g =>
          simp only [fracText, List.cons_append, List.cons.injEq] at h
          exact absurd h.1 (by decide)
      | [a] =>
        simp only [List.cons_append, List.nil_append, List.cons.injEq] at h
        exact Or.inr (htail r h.2)
      | a :: b :: w' =>
        simp only [List.cons_append, List.cons.injEq] at h
        exact Or.inl (h.2.1 ▸ hw b (by simp))
    rintro (rfl | rfl) <;> rcases key with h | h | h | h <;> revert h <;> decide
  unfold magnitude
  generalize w ++ (fracText f ++ expText e) = s at *
  have hhex : hexPart s = none := by
    unfold hexPart
    split
    · rename_i x r
      exact if_neg (hx x r rfl)
    · rfl
  rw [hhex]
  simp only [hm, exponent_text e he]

/-- What is read from a well-formed number -/
theorem entriesOf_literal (underflow : ℚ → Bool) (l : Literal) (h : l.Ok) :
    entriesOf underflow l.text = entries underflow (l.sign = some true) (.finite l.value) := by
  obtain ⟨hb, hw, hf, hn, he⟩ := h
  obtain ⟨b, s, w, f, e⟩ := l
  dsimp only at hb hw hf hn he
  have htext : (⟨b, s, w, f, e⟩ : Literal).text = b ++ (signText s ++ (w ++ (fracText f ++ expText e))) := by
    unfold Literal.text
    match f, e with
    | none, none => simp [fracText, expText]
    | none, some (_, _, _) => simp [fracText, expText]
    | some _, none => simp [fracText, expText]
    | some _, some (_, _, _) => simp [fracText, expText]
  have hbody : ∀ c l, w ++ (fracText f ++ expText e) = c :: l → c.isDigit ∨ c = '.' := by
    intro c l h
    match w with
    | [] =>
      match f with
      | none => exact absurd rfl hn
      | some g =>
        simp only [fracText, List.cons_append, List.nil_append, List.cons.injEq] at h
        exact Or.inr h.1.symm
    | a :: w' =>
      simp only [List.cons_append, List.cons.injEq] at h
      exact Or.inl (h.1 ▸ hw a (by simp))
  have hsign := sign_text s (w ++ (fracText f ++ expText e)) (by
    intro c l h
    rcases hbody c l h with h | rfl
    · exact ⟨ne_of_isDigit h (by decide), ne_of_isDigit h (by decide)⟩
    · decide)
  have hne : w ++ (fracText f ++ expText e) ≠ [] := by
    match w, f with
    | [], none => exact absurd rfl hn
    | [], some g => simp [fracText]
    | a :: w', _ => simp
  have hdrop : ∀ b : List Char, (∀ c ∈ b, c ∈ [' ', '\t', '\n', '\r']) →
      (b ++ (signText s ++ (w ++ (fracText f ++ expText e)))).dropWhile isSpace = signText s ++ (w ++ (fracText f ++ expText e)) := by
    intro b hb
    induction b with
    | nil =>
      rw [List.nil_append]
      match s with
      | some true => rfl
      | some false => rfl
      | none =>
        simp only [signText, List.nil_append]
        cases hs : w ++ (fracText f ++ expText e) with
        | nil => exact absurd hs hne
        | cons c l =>
          refine List.dropWhile_cons_of_neg ?_
          rcases hbody c l hs with h | rfl
          · have hne' : ∀ d : Char, d.isDigit = false → c ≠ d := fun d hd => ne_of_isDigit h hd
            simp [isSpace, hne' ' ' (by decide), hne' '\t' (by decide), hne' '\n' (by decide), hne' '\x0b' (by decide), hne' '\x0c' (by decide),
              hne' '\r' (by decide)]
          · decide
    | cons c b ih =>
      rw [List.cons_append, List.dropWhile_cons_of_pos, ih (fun c hc => hb c (List.mem_cons_of_mem _ hc))]
      have := hb c (by simp)
      simp only [List.mem_cons, List.not_mem_nil, or_false] at this
      rcases this with rfl | rfl | rfl | rfl <;> decide
  unfold entriesOf
  rw [htext, hdrop b hb, hsign]
  simp only [magnitude_text w f e hw hf hn he]
  congr 2

/-! ## Numbers that fit -/

theorem rnd_large {x : ℚ} (h : (2 : ℚ) ^ 1024 ≤ Fp.rnd 53 x) (hx : 0 ≤ x) : (2 : ℚ) ^ 1023 < x := by
  have h1 := Fp.rnd_error 53 (by norm_num) hx
  rw [abs_le] at h1
  by_contra hlt
  push Not at hlt
  have h3 : (2 : ℚ) ^ 1024 = 2 * 2 ^ 1023 := by rw [← pow_succ']
  have h5 : (0 : ℚ) < 2 ^ 1023 := by positivity
  rw [h3] at h
  clear h3
  generalize (2 : ℚ) ^ 1023 = P at *
  have h4 : x * (1 / 2 ^ 53) ≤ P * (1 / 2 ^ 53) := mul_le_mul_of_nonneg_right hlt (by positivity)
  have h6 : P * (1 / 2 ^ 53) ≤ P * (1 / 2) := mul_le_mul_of_nonneg_left (by norm_num) h5.le
  linarith [h1.2]

/-- What is read from a number without minus between two integers -/
theorem entries_between (underflow : ℚ → Bool) (x : ℚ) (n : ℕ) (hn : n < 2 ^ 32) (h1 : (n : ℚ) ≤ x) (h2 : x ≤ n + 1 - 1 / 2 ^ 20)
    (hnormal : x = 0 ∨ 1 / 2 ^ 1022 ≤ x) : entries underflow false (.finite x) = .count (UInt32.ofNat n) := by
  have hn0 : (0 : ℚ) ≤ n := Nat.cast_nonneg n
  have hx0 : 0 ≤ x := le_trans hn0 h1
  have hnq : (n : ℚ) + 1 ≤ 2 ^ 32 := by exact_mod_cast hn
  have hlow : (n : ℚ) ≤ Fp.rnd 53 x := by
    have := Fp.rnd_mono 53 (by norm_num) h1
    rwa [Fp.rnd_nat 53 n (by norm_num) (by omega)] at this
  have hup : Fp.rnd 53 x < n + 1 := by
    have he := Fp.rnd_error 53 (by norm_num) hx0
    rw [abs_le] at he
    have h3 : x * (1 / 2 ^ 53) ≤ 2 ^ 32 * (1 / 2 ^ 53) := by
      apply mul_le_mul_of_nonneg_right _ (by positivity)
      have : (0 : ℚ) < 1 / 2 ^ 20 := by positivity
      linarith
    have h4 : (2 : ℚ) ^ 32 * (1 / 2 ^ 53) < 1 / 2 ^ 20 := by norm_num
    linarith [he.2]
  have hfloor : ⌊Fp.rnd 53 x⌋ = n := by
    rw [Int.floor_eq_iff]
    exact ⟨by exact_mod_cast hlow, by exact_mod_cast hup⟩
  have hbig : ¬ (2 : ℚ) ^ 1024 ≤ Fp.rnd 53 x := by
    intro h
    have h5 : (2 : ℚ) ^ 32 ≤ 2 ^ 1024 := pow_le_pow_right₀ (by norm_num) (by norm_num)
    exact absurd (le_trans hnq (le_trans h5 h)) (not_le.mpr hup)
  have htiny : ¬ (0 < x ∧ x < 1 / 2 ^ 1022 ∧ underflow x = true) := by
    rintro ⟨h, h', -⟩
    rcases hnormal with e | e
    · rw [e] at h; exact lt_irrefl _ h
    · exact absurd h' (not_lt.mpr e)
  unfold entries
  simp only [if_neg hbig, if_neg htiny, Bool.false_eq_true, if_false, hfloor]
  rw [if_pos (by exact_mod_cast hn)]
  simp

/-! ## Hexadecimal numbers -/

theorem digits_all (val : Char → Option Nat) (l : List Char) (h : ∀ c ∈ l, (val c).isSome) : digits val l = (l.filterMap val, []) := by
  induction l with
  | nil => rfl
  | cons c l ih =>
    obtain ⟨d, hd⟩ := Option.isSome_iff_exists.mp (h c (by simp))
    simp [digits, hd, ih (fun c hc => h c (List.mem_cons_of_mem _ hc))]

theorem numeral_append (b : Nat) (l : List Nat) (d : Nat) : numeral b (l ++ [d]) = b * numeral b l + d := by
  simp [numeral, List.foldl_append]

/-- The digits of a number to the base 16, in small or in capital letters -/
theorem hex_digits (f : Char → Char) (hf : ∀ d, d < 16 → hexVal (f (Nat.digitChar d)) = some d) (n : ℕ) :
    (∀ c ∈ (Nat.toDigits 16 n).map f, (hexVal c).isSome) ∧ numeral 16 (((Nat.toDigits 16 n).map f).filterMap hexVal) = n := by
  induction n using Nat.strongRecOn with
  | ind n ih =>
    by_cases h : n < 16
    · rw [Nat.toDigits_of_lt_base h]
      simp [hf n h, numeral]
    · have h' : 16 ≤ n := Nat.not_lt.mp h
      obtain ⟨h1, h2⟩ := ih (n / 16) (by omega)
      have hd := hf (n % 16) (Nat.mod_lt _ (by norm_num))
      rw [Nat.toDigits_of_base_le (by norm_num) h', List.map_append, List.filterMap_append]
      constructor
      · intro c hc
        rcases List.mem_append.mp hc with hc | hc
        · exact h1 c hc
        · simp only [List.map_cons, List.map_nil, List.mem_singleton] at hc
          subst hc
          simp [hd]
      · simp only [List.map_cons, List.map_nil, List.filterMap_cons, List.filterMap_nil, hd]
        rw [numeral_append, h2]
        omega

end Verif.Cli
