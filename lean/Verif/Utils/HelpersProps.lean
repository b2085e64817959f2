import Verif.Utils.Helpers
import Verif.Janus.Lemmas
import Mathlib.Data.List.Basic
import Mathlib.Data.Nat.Bitwise

/-!
# C63: the helper functions of `utils`
-/

namespace Verif.Util

open Verif.Janus (Str hexDigit hexFixed)

/-! ## Specification -/

namespace Spec

/-- The value of a hexadecimal digit -/
def digitValue (c : UInt8) : Option Nat :=
  if 48 ≤ c.toNat ∧ c.toNat ≤ 57 then some (c.toNat - 48)
  else if 97 ≤ c.toNat ∧ c.toNat ≤ 102 then some (c.toNat - 87)
  else none

/-- The number written in hexadecimal -/
def number : Str → Option Nat
  | s => s.foldl (fun a c => match a, digitValue c with
    | some n, some d => some (16 * n + d)
    | _, _ => none) (some 0)

/-- The bytes written in hexadecimal, two digits each -/
def bytes : Str → Option (List UInt8)
  | [] => some []
  | [_] => none
  | a :: b :: s => match digitValue a, digitValue b, bytes s with
    | some x, some y, some l => some (UInt8.ofNat (16 * x + y) :: l)
    | _, _, _ => none

mutual
/-- All the paths of a tree -/
def paths (p : Path) : Tree → List Path
  | .other => [p]
  | .link _ => [p]
  | .dir _ _ es => p :: pathsList p es

@[inherit_doc paths]
def pathsList (p : Path) : List (Name × Tree) → List Path
  | [] => []
  | (n, t) :: es => paths (p ++ [n]) t ++ pathsList p es
end

mutual
/-- The names in each directory are distinct. -/
def Names : Tree → Prop
  | .other => True
  | .link _ => True
  | .dir _ _ es => NamesList es

@[inherit_doc Names]
def NamesList : List (Name × Tree) → Prop
  | [] => True
  | (n, t) :: es => Names t ∧ (∀ e ∈ es, e.1 ≠ n) ∧ NamesList es
end

mutual
/-- Everything can be removed: the directories are readable and on the device `dev`, and the system does not refuse. -/
def Removable (dev : Nat) (ok : Path → Bool) (p : Path) : Tree → Prop
  | .other => ok p = true
  | .link _ => ok p = true
  | .dir d readable es => d = dev ∧ readable = true ∧ ok p = true ∧ RemovableList dev ok p es

@[inherit_doc Removable]
def RemovableList (dev : Nat) (ok : Path → Bool) (p : Path) : List (Name × Tree) → Prop
  | [] => True
  | (n, t) :: es => Removable dev ok (p ++ [n]) t ∧ RemovableList dev ok p es
end

/-- With each path, its parents exist. -/
def Closed (S : List Path) : Prop := ∀ p q, p ++ q ∈ S → p ≠ [] → p ∈ S

end Spec

open Spec

/-! ## Text -/

theorem digitValue_hexDigit (d : Nat) (h : d < 16) : digitValue (hexDigit d) = some d := by
  have : ∀ d : Fin 16, digitValue (hexDigit d.val) = some d.val := by decide
  exact this ⟨d, h⟩

theorem number_hexFixed (k : Nat) : ∀ n, n < 16 ^ k → number (hexFixed k n) = some n := by
  induction k with
  | zero => intro n h; simp at h; subst h; rfl
  | succ k ih =>
    intro n h
    have h1 : n / 16 < 16 ^ k := by
      rw [Nat.div_lt_iff_lt_mul (by decide)]
      rwa [Nat.pow_succ] at h
    have := ih _ h1
    unfold number at this ⊢
    unfold hexFixed
    rw [List.foldl_append, this]
    simp only [List.foldl_cons, List.foldl_nil, digitValue_hexDigit _ (Nat.mod_lt n (by decide : 0 < 16))]
    congr 1
    omega

theorem bytes_hexString (s : List UInt8) : bytes (hexString s) = some s := by
  induction s with
  | nil => rfl
  | cons c s ih =>
    have hc : c.toNat < 256 := c.toNat_lt
    have e : hexString (c :: s) = hexDigit (c.toNat / 16 % 16) :: hexDigit (c.toNat % 16) :: hexString s := by
      simp [hexString, hexFixed]
    rw [e]
    unfold bytes
    rw [digitValue_hexDigit _ (Nat.mod_lt _ (by decide)), digitValue_hexDigit _ (Nat.mod_lt _ (by decide)), ih]
    simp only
    rw [show 16 * (c.toNat / 16 % 16) + c.toNat % 16 = c.toNat by omega]
    simp

/-- **C63** (text): the text of a string, of a 64-bit and of a 32-bit number in hexadecimal can be read back; the text of an array of
bytes is that of the string. -/
theorem C63_hex (s : List UInt8) (a : UInt64) (b : UInt32) :
    bytes (hexString s) = some s ∧ number (hex64 a) = some a.toNat ∧ number (hex32 b) = some b.toNat ∧
    hexArray 1 (s.map UInt8.toNat) = hexString s := by
  refine ⟨bytes_hexString s, number_hexFixed 16 _ a.toNat_lt, number_hexFixed 8 _ b.toNat_lt, ?_⟩
  unfold hexArray hexString
  rw [List.flatMap_map]
  apply List.flatMap_congr
  intro c _
  rw [Nat.mod_eq_of_lt c.toNat_lt]

example : hexString [0, 171] = [48, 48, 97, 98] ∧ bytes [48, 48, 97, 98] = some [0, 171] ∧ bytes [48, 120] = none := by decide

/-- **C63** (violation): for arrays of elements of more than one byte, only the low byte of each element is printed: arrays that are
different in the other bytes have the same text (the values of Pluto in the log, rocksdb_store.hpp L58). -/
theorem C63_array_violated (k : Nat) (hk : 2 ≤ k) (a : List Nat) (ha : a ≠ []) :
    ∃ b, b ≠ a.map (· % 256 ^ k) ∧ (∀ x ∈ b, x < 256 ^ k) ∧ hexArray k b = hexArray k a := by
  obtain ⟨x, l, rfl⟩ : ∃ x l, a = x :: l := by
    cases a with
    | nil => exact absurd rfl ha
    | cons x l => exact ⟨x, l, rfl⟩
  have h2 : 256 ^ 2 ≤ 256 ^ k := Nat.pow_le_pow_right (by decide) hk
  have hpos : 0 < 256 ^ k := by omega
  have hdvd : (256 : Nat) ∣ 256 ^ k := dvd_pow_self 256 (by omega)
  have hmod : ∀ y, y % 256 ^ k % 256 = y % 256 := fun y => Nat.mod_mod_of_dvd y hdvd
  -- change the second byte of the first element
  have key : ∃ y, y < 256 ^ k ∧ y ≠ x % 256 ^ k ∧ y % 256 = x % 256 := by
    have hx : x % 256 < 256 := Nat.mod_lt _ (by decide)
    by_cases h : x % 256 ^ k = x % 256
    · exact ⟨x % 256 + 256, by omega, by omega, by omega⟩
    · exact ⟨x % 256, by omega, fun e => h e.symm, by omega⟩
  obtain ⟨y, hy1, hy2, hy3⟩ := key
  refine ⟨y :: l.map (· % 256 ^ k), ?_, ?_, ?_⟩
  · intro e
    simp at e
    exact hy2 e
  · intro z hz
    rcases List.mem_cons.mp hz with rfl | hz
    · exact hy1
    · obtain ⟨w, -, rfl⟩ := List.mem_map.mp hz
      exact Nat.mod_lt _ hpos
  · unfold hexArray
    rw [List.flatMap_cons, List.flatMap_cons, hy3, List.flatMap_map]
    congr 1
    apply List.flatMap_congr
    intro z _
    rw [hmod]

example : hexArray 8 [5, 256] = hexArray 8 [261, 0] := by decide

/-- **C63** (output): `print_hex` appends the text of `hex_string`. -/
theorem C63_print (out : Stream) (s : List UInt8) : (printHex out s).text = out.text ++ hexString s := by
  unfold printHex hexString
  induction s generalizing out with
  | nil => simp
  | cons c s ih => rw [List.foldl_cons, ih]; simp

/-- **C63** (violation): after `print_hex` the stream prints every later number in base 16: ten becomes "a". -/
theorem C63_print_violated (out : Stream) (s : List UInt8) (hs : s ≠ []) :
    ((printHex out s).number 10).text = (printHex out s).text ++ [97] := by
  have h : (printHex out s).hex = true := by
    unfold printHex
    obtain ⟨c, l, rfl⟩ : ∃ c l, s = c :: l := by
      cases s with
      | nil => exact absurd rfl hs
      | cons c l => exact ⟨c, l, rfl⟩
    rw [List.foldl_cons]
    generalize ho : (⟨out.text ++ hexFixed 2 c.toNat, true, 48⟩ : Stream) = o
    have : o.hex = true := by rw [← ho]
    clear ho
    induction l generalizing o with
    | nil => exact this
    | cons d l ih => rw [List.foldl_cons]; exact ih (by simp) _ rfl
  unfold Stream.number
  rw [h]
  rfl

example : ((printHex ⟨[], false, 32⟩ [1]).number 10).text = [48, 49, 97] ∧ ((⟨[], false, 32⟩ : Stream).number 10).text = [49, 48] := by
  decide

/-! ## Alignment -/

theorem isAligned_pow (x : BitVec 64) (k : Nat) (hk : k < 64) :
    isAligned x (BitVec.ofNat 64 (2 ^ k)) = true ↔ 2 ^ k ∣ x.toNat := by
  have hlt : 2 ^ k < 2 ^ 64 := Nat.pow_lt_pow_right (by decide) hk
  have hsub : (BitVec.ofNat 64 (2 ^ k) - 1).toNat = 2 ^ k - 1 := by
    rw [BitVec.toNat_sub_of_le]
    · rw [BitVec.toNat_ofNat, Nat.mod_eq_of_lt hlt]; rfl
    · rw [BitVec.le_def, BitVec.toNat_ofNat, Nat.mod_eq_of_lt hlt]
      exact Nat.one_le_two_pow
  unfold isAligned
  rw [beq_iff_eq, ← BitVec.toNat_inj, BitVec.toNat_and, hsub, Nat.and_two_pow_sub_one_eq_mod]
  exact (Nat.dvd_iff_mod_eq_zero).symm

/-- **C63** (alignment): for a power of two `is_aligned` is divisibility; a buffer aligned for `async_io_page_size` is aligned for the
pages of the system and of the device. -/
theorem C63_aligned_partial (x : BitVec 64) (i j : Nat) (hi : i < 64) (hj : j < 64) :
    (isAligned x (BitVec.ofNat 64 (2 ^ i)) = true ↔ 2 ^ i ∣ x.toNat) ∧
    (isAligned x (asyncPageSize (BitVec.ofNat 64 (2 ^ i)) (BitVec.ofNat 64 (2 ^ j))) = true ↔
      2 ^ i ∣ x.toNat ∧ 2 ^ j ∣ x.toNat) := by
  refine ⟨isAligned_pow x i hi, ?_⟩
  have h1 : 2 ^ i < 2 ^ 64 := Nat.pow_lt_pow_right (by decide) hi
  have h2 : 2 ^ j < 2 ^ 64 := Nat.pow_lt_pow_right (by decide) hj
  have hcmp : (BitVec.ofNat 64 (2 ^ i) < BitVec.ofNat 64 (2 ^ j)) ↔ i < j := by
    rw [BitVec.lt_def, BitVec.toNat_ofNat, BitVec.toNat_ofNat, Nat.mod_eq_of_lt h1, Nat.mod_eq_of_lt h2]
    exact Nat.pow_lt_pow_iff_right (by decide)
  unfold asyncPageSize
  by_cases h : i < j
  · rw [if_pos (hcmp.mpr h), isAligned_pow x j hj]
    exact ⟨fun hd => ⟨Nat.dvd_trans (Nat.pow_dvd_pow 2 (by omega)) hd, hd⟩, fun hd => hd.2⟩
  · rw [if_neg (fun e => h (hcmp.mp e)), isAligned_pow x i hi]
    exact ⟨fun hd => ⟨hd, Nat.dvd_trans (Nat.pow_dvd_pow 2 (by omega)) hd⟩, fun hd => hd.1⟩

example : isAligned 8192 4096 = true ∧ isAligned 8200 4096 = false ∧ isAligned 8192 (asyncPageSize 4096 8192) = true := by decide

/-- **C63** (violation): for other sizes it is not (a device with blocks of 6144 bytes), and nothing but 0 is aligned to 0. -/
theorem C63_aligned_violated :
    (isAligned 8192 6144 = true ∧ ¬ 6144 ∣ 8192) ∧ (isAligned 6144 6144 = false ∧ 6144 ∣ 6144) ∧
    ∀ x, isAligned x 0 = true ↔ x = 0 := by
  refine ⟨by decide, by decide, fun x => ?_⟩
  unfold isAligned
  have : (0 : BitVec 64) - 1 = BitVec.allOnes 64 := by decide
  rw [this, BitVec.and_allOnes, beq_iff_eq]

/-- **C63** (violation): when `fstatvfs` fails, the alignment demanded can be any number from the page size of the system on, whatever was
in memory. -/
theorem C63_page_violated (os g : BitVec 64) (h : os ≤ g) : asyncPageSize os (devicePageSize none g) = g := by
  unfold asyncPageSize devicePageSize
  by_cases hl : os < g
  · exact if_pos hl
  · have : os = g := by
      rw [BitVec.le_def] at h
      rw [BitVec.lt_def] at hl
      exact BitVec.eq_of_toNat_eq (by omega)
    rw [this]
    simp

example : asyncPageSize 4096 (devicePageSize none 6144) = 6144 ∧ asyncPageSize 4096 (devicePageSize (some 512) 6144) = 4096 := by
  decide

/-! ## Removal -/

theorem prefix_append_name {p q : Path} {n : Name} (h : p ++ [n] <+: q) : p <+: q := by
  obtain ⟨r, rfl⟩ := h
  exact ⟨[n] ++ r, by simp⟩

mutual
theorem paths_below (p : Path) (t : Tree) : ∀ q ∈ paths p t, p <+: q := by
  cases t with
  | other => intro q hq; simp [paths] at hq; rw [hq]; exact List.prefix_rfl
  | link _ => intro q hq; simp [paths] at hq; rw [hq]; exact List.prefix_rfl
  | dir d r es =>
    intro q hq
    unfold paths at hq
    rcases List.mem_cons.mp hq with rfl | hq
    · exact List.prefix_rfl
    · obtain ⟨e, -, he⟩ := pathsList_below p es q hq
      exact prefix_append_name he

theorem pathsList_below (p : Path) (es : List (Name × Tree)) : ∀ q ∈ pathsList p es, ∃ e ∈ es, p ++ [e.1] <+: q := by
  cases es with
  | nil => intro q hq; simp [pathsList] at hq
  | cons e es =>
    obtain ⟨n, t⟩ := e
    intro q hq
    unfold pathsList at hq
    rcases List.mem_append.mp hq with hq | hq
    · exact ⟨(n, t), List.mem_cons_self, paths_below _ t q hq⟩
    · obtain ⟨e, he, h⟩ := pathsList_below p es q hq
      exact ⟨e, List.mem_cons_of_mem _ he, h⟩
end

theorem self_mem_paths (p : Path) (t : Tree) : p ∈ paths p t := by
  cases t <;> simp [paths]

/-- The names of the next component -/
theorem name_eq {p q : Path} {n n' : Name} (h : p ++ [n] <+: q) (h' : p ++ [n'] <+: q) : n = n' := by
  obtain ⟨r, rfl⟩ := h
  obtain ⟨r', hr⟩ := h'
  rw [List.append_assoc, List.append_assoc] at hr
  have := List.append_cancel_left hr
  simp at this
  exact this.1.symm

/-- The paths of `S` under `p` are those of the tree. -/
def Holds (S : List Path) (p : Path) (t : Tree) : Prop := ∀ q, p <+: q → (q ∈ S ↔ q ∈ paths p t)

/-- The paths of `S` strictly under `p` are those of the entries. -/
def HoldsList (S : List Path) (p : Path) (es : List (Name × Tree)) : Prop :=
  ∀ q n, p ++ [n] <+: q → (q ∈ S ↔ q ∈ pathsList p es)

def below (p : Path) (q : Path) : Bool := p.isPrefixOf q

theorem below_iff {p q : Path} : below p q = true ↔ p <+: q := List.isPrefixOf_iff_prefix

theorem removeLoop_leaf (ok : Path → Bool) (p : Path) (S : List Path) (l : List (Path × Info)) (i : Info)
    (hi : i = .other ∨ i = .link ∨ i = .post) (hS : ∀ q, p <+: q → (q ∈ S ↔ q = p)) :
    (ok p = true → removeLoop ok ((p, i) :: l) S = removeLoop ok l (S.filter (fun q => !below p q))) ∧
    (ok p ≠ true → (removeLoop ok ((p, i) :: l) S).1 = .throws) := by
  have hp : p ∈ S := (hS p List.prefix_rfl).mpr rfl
  have hstep : ∀ r, remove ok S p = r → removeLoop ok ((p, i) :: l) S = match r with
      | none => (.throws, S)
      | some S' => removeLoop ok l S' := by
    intro r hr
    rcases hi with rfl | rfl | rfl <;> (conv => lhs; unfold removeLoop) <;> simp only [hr] <;> cases r <;> rfl
  constructor
  · intro hok
    have hr : remove ok S p = some (S.filter (fun q => q ≠ p)) := by
      unfold remove
      rw [if_pos]
      exact ⟨hp, hok, fun q hq hpq => (hS q hpq).mp hq⟩
    rw [hstep _ hr]
    simp only
    congr 1
    apply List.filter_congr
    intro q hq
    rw [Bool.eq_iff_iff]
    simp only [decide_eq_true_eq, Bool.not_eq_true']
    constructor
    · intro hne
      rw [Bool.eq_false_iff]
      intro hb
      exact hne ((hS q (below_iff.mp hb)).mp hq)
    · rintro hb rfl
      rw [Bool.eq_false_iff] at hb
      exact hb (below_iff.mpr List.prefix_rfl)
  · intro hok
    have hr : remove ok S p = none := by
      unfold remove
      rw [if_neg]
      rintro ⟨-, h, -⟩
      exact hok h
    rw [hstep _ hr]

mutual
theorem walk_spec (dev : Nat) (ok : Path → Bool) (p : Path) (t : Tree) (S : List Path) (l : List (Path × Info)) (hn : Names t)
    (hS : Holds S p t) :
    (Removable dev ok p t →
      removeLoop ok (walk dev p t ++ l) S = removeLoop ok l (S.filter (fun q => !below p q))) ∧
    (¬ Removable dev ok p t → (removeLoop ok (walk dev p t ++ l) S).1 = .throws) := by
  cases t with
  | other =>
    unfold walk Removable
    exact removeLoop_leaf ok p S l .other (.inl rfl) (fun q hq => by rw [hS q hq]; simp [paths])
  | link _ =>
    unfold walk Removable
    exact removeLoop_leaf ok p S l .link (.inr (.inl rfl)) (fun q hq => by rw [hS q hq]; simp [paths])
  | dir d readable es =>
    unfold walk Removable
    by_cases hd : d = dev
    · rw [if_neg (fun h => h hd)]
      cases readable with
      | false =>
        rw [if_neg (by decide)]
        refine ⟨fun h => absurd h.2.1 (by decide), fun _ => ?_⟩
        simp [removeLoop]
      | true =>
        rw [if_pos rfl]
        have hL : HoldsList S p es := by
          intro q n hq
          rw [hS q (prefix_append_name hq)]
          unfold paths
          rw [List.mem_cons]
          constructor
          · rintro (rfl | h)
            · obtain ⟨r, hr⟩ := hq
              simp at hr
            · exact h
          · exact .inr
        have hlist := walkList_spec dev ok p es S ((p, .post) :: l) hn hL
        have e : (p, Info.pre) :: (walkList dev p es ++ [(p, .post)]) ++ l =
            (p, Info.pre) :: (walkList dev p es ++ ((p, .post) :: l)) := by simp
        rw [e]
        have hpre : ∀ k, removeLoop ok ((p, Info.pre) :: k) S = removeLoop ok k S := fun k => by
          conv => lhs; unfold removeLoop
        rw [hpre]
        by_cases hrem : RemovableList dev ok p es
        · rw [hlist.1 hrem]
          generalize hS1 : S.filter (fun q => es.all (fun e => !below (p ++ [e.1]) q)) = S1
          have hmem1 : ∀ q, q ∈ S1 ↔ q ∈ S ∧ ∀ e ∈ es, ¬ p ++ [e.1] <+: q := by
            intro q
            rw [← hS1, List.mem_filter, List.all_eq_true]
            refine and_congr_right fun _ => ?_
            constructor
            · intro h e he hb
              have := h e he
              rw [below_iff.mpr hb] at this
              cases this
            · intro h e he
              rw [Bool.not_eq_true', Bool.eq_false_iff]
              exact fun hb => h e he (below_iff.mp hb)
          have honly : ∀ q, p <+: q → (q ∈ S1 ↔ q = p) := by
            intro q hq
            rw [hmem1, hS q hq]
            unfold paths
            rw [List.mem_cons]
            constructor
            · rintro ⟨rfl | h, hno⟩
              · rfl
              · obtain ⟨e, he, hb⟩ := pathsList_below p es q h
                exact absurd hb (hno e he)
            · rintro rfl
              refine ⟨.inl rfl, ?_⟩
              rintro e - ⟨r, hr⟩
              simp at hr
          have hleaf := removeLoop_leaf ok p S1 l .post (.inr (.inr rfl)) honly
          constructor
          · intro h
            rw [hleaf.1 h.2.2.1, ← hS1, List.filter_filter]
            congr 1
            apply List.filter_congr
            intro q hq
            rw [Bool.eq_iff_iff, Bool.and_eq_true, Bool.not_eq_true', Bool.eq_false_iff]
            constructor
            · rintro ⟨h1, -⟩; exact h1
            · intro h1
              refine ⟨h1, List.all_eq_true.mpr fun e he => ?_⟩
              rw [Bool.not_eq_true', Bool.eq_false_iff]
              exact fun hb => h1 (below_iff.mpr (prefix_append_name (below_iff.mp hb)))
          · intro h
            exact hleaf.2 (fun hok => h ⟨hd, rfl, hok, hrem⟩)
        · exact ⟨fun h => absurd h.2.2.2 hrem, fun _ => hlist.2 hrem⟩
    · rw [if_pos hd]
      refine ⟨fun h => absurd h.1 hd, fun _ => ?_⟩
      simp [removeLoop]

theorem walkList_spec (dev : Nat) (ok : Path → Bool) (p : Path) (es : List (Name × Tree)) (S : List Path)
    (l : List (Path × Info)) (hn : NamesList es) (hS : HoldsList S p es) :
    (RemovableList dev ok p es → removeLoop ok (walkList dev p es ++ l) S =
      removeLoop ok l (S.filter (fun q => es.all (fun e => !below (p ++ [e.1]) q)))) ∧
    (¬ RemovableList dev ok p es → (removeLoop ok (walkList dev p es ++ l) S).1 = .throws) := by
  cases es with
  | nil =>
    refine ⟨fun _ => ?_, fun h => absurd trivial h⟩
    unfold walkList
    congr 1
    exact (List.filter_eq_self.mpr (fun _ _ => rfl)).symm
  | cons e es =>
    obtain ⟨n, t⟩ := e
    unfold NamesList at hn
    obtain ⟨hn1, hn2, hn3⟩ := hn
    have hsep : ∀ q, p ++ [n] <+: q → q ∉ pathsList p es := by
      intro q hq hmem
      obtain ⟨e, he, hb⟩ := pathsList_below p es q hmem
      exact hn2 e he (name_eq hb hq)
    have h1 : Holds S (p ++ [n]) t := by
      intro q hq
      rw [hS q n hq]
      unfold pathsList
      rw [List.mem_append]
      exact ⟨fun h => h.resolve_right (hsep q hq), .inl⟩
    have ht := walk_spec dev ok (p ++ [n]) t S (walkList dev p es ++ l) hn1 h1
    unfold walkList RemovableList
    rw [List.append_assoc]
    by_cases hr : Removable dev ok (p ++ [n]) t
    · rw [ht.1 hr]
      have h2 : HoldsList (S.filter (fun q => !below (p ++ [n]) q)) p es := by
        intro q n' hq
        rw [List.mem_filter, hS q n' hq, Bool.not_eq_true', Bool.eq_false_iff,
          show pathsList p ((n, t) :: es) = paths (p ++ [n]) t ++ pathsList p es by conv => lhs; unfold pathsList,
          List.mem_append]
        constructor
        · rintro ⟨h | h, hb⟩
          · exact absurd (below_iff.mpr (paths_below _ t q h)) hb
          · exact h
        · intro h
          refine ⟨.inr h, fun hb => hsep q (below_iff.mp hb) h⟩
      have hl := walkList_spec dev ok p es _ l hn3 h2
      constructor
      · intro h
        rw [hl.1 h.2, List.filter_filter]
        congr 1
        apply List.filter_congr
        intro q _
        rw [List.all_cons, Bool.and_comm]
      · intro h
        exact hl.2 (fun h' => h ⟨hr, h'⟩)
    · exact ⟨fun h => absurd h.1 hr, fun _ => ht.2 hr⟩
end

mutual
theorem walk_below (dev : Nat) (p : Path) (t : Tree) : ∀ x ∈ walk dev p t, p <+: x.1 := by
  cases t with
  | other => intro x hx; simp [walk] at hx; rw [hx]; exact List.prefix_rfl
  | link _ => intro x hx; simp [walk] at hx; rw [hx]; exact List.prefix_rfl
  | dir d r es =>
    intro x hx
    unfold walk at hx
    by_cases hd : d = dev
    · rw [if_neg (fun h => h hd)] at hx
      cases r with
      | true =>
        rw [if_pos rfl] at hx
        rcases List.mem_cons.mp hx with rfl | hx
        · exact List.prefix_rfl
        · rcases List.mem_append.mp hx with hx | hx
          · exact walkList_below dev p es x hx
          · simp at hx; rw [hx]; exact List.prefix_rfl
      | false =>
        rw [if_neg (by decide)] at hx
        simp at hx
        rcases hx with rfl | rfl <;> exact List.prefix_rfl
    · rw [if_pos hd] at hx
      simp at hx
      rcases hx with rfl | rfl <;> exact List.prefix_rfl

theorem walkList_below (dev : Nat) (p : Path) (es : List (Name × Tree)) : ∀ x ∈ walkList dev p es, p <+: x.1 := by
  cases es with
  | nil => intro x hx; simp [walkList] at hx
  | cons e es =>
    obtain ⟨n, t⟩ := e
    intro x hx
    unfold walkList at hx
    rcases List.mem_append.mp hx with hx | hx
    · exact prefix_append_name (walk_below dev _ t x hx)
    · exact walkList_below dev p es x hx
end

/-- What the loop does to the paths, in any case -/
theorem removeLoop_safe (ok : Path → Bool) (p : Path) (l : List (Path × Info)) (hl : ∀ x ∈ l, p <+: x.1) : ∀ S : List Path,
    (∀ q ∈ (removeLoop ok l S).2, q ∈ S) ∧ (∀ q ∈ S, ¬ p <+: q → q ∈ (removeLoop ok l S).2) ∧
    (Closed S → Closed (removeLoop ok l S).2) := by
  induction l with
  | nil => intro S; exact ⟨fun q h => h, fun q h _ => h, fun h => h⟩
  | cons x l ih =>
    intro S
    obtain ⟨r, i⟩ := x
    have ih' := ih (fun x hx => hl x (List.mem_cons_of_mem _ hx))
    have hr : p <+: r := hl (r, i) List.mem_cons_self
    have hrm : (∀ q ∈ (match remove ok S r with | none => (Outcome.throws, S) | some S' => removeLoop ok l S').2, q ∈ S) ∧
        (∀ q ∈ S, ¬ p <+: q → q ∈ (match remove ok S r with | none => (Outcome.throws, S) | some S' => removeLoop ok l S').2) ∧
        (Closed S → Closed (match remove ok S r with | none => (Outcome.throws, S) | some S' => removeLoop ok l S').2) := by
      cases h : remove ok S r with
      | none => exact ⟨fun q h => h, fun q h _ => h, fun h => h⟩
      | some S' =>
        unfold remove at h
        by_cases hc : r ∈ S ∧ ok r = true ∧ ∀ q ∈ S, r <+: q → q = r
        · rw [if_pos hc] at h
          injection h with h
          subst h
          obtain ⟨a, b, c⟩ := ih' (S.filter (fun q => q ≠ r))
          refine ⟨fun q hq => List.mem_of_mem_filter (a q hq), fun q hq hnp => b q ?_ hnp, fun hcl => c ?_⟩
          · rw [List.mem_filter]
            refine ⟨hq, ?_⟩
            rw [decide_eq_true_eq]
            rintro rfl
            exact hnp hr
          · intro u v huv hne
            rw [List.mem_filter, decide_eq_true_eq] at huv ⊢
            refine ⟨hcl u v huv.1 hne, ?_⟩
            rintro rfl
            exact huv.2 (hc.2.2 _ huv.1 ⟨v, rfl⟩)
        · rw [if_neg hc] at h; cases h
    cases i with
    | pre =>
      have : removeLoop ok ((r, Info.pre) :: l) S = removeLoop ok l S := by conv => lhs; unfold removeLoop
      rw [this]
      exact ih' S
    | unreadable =>
      have : removeLoop ok ((r, Info.unreadable) :: l) S = (.throws, S) := by conv => lhs; unfold removeLoop
      rw [this]
      exact ⟨fun q h => h, fun q h _ => h, fun h => h⟩
    | mount =>
      have : removeLoop ok ((r, Info.mount) :: l) S = (.throws, S) := by conv => lhs; unfold removeLoop
      rw [this]
      exact ⟨fun q h => h, fun q h _ => h, fun h => h⟩
    | post => unfold removeLoop; exact hrm
    | other => unfold removeLoop; exact hrm
    | link => unfold removeLoop; exact hrm

theorem removable_device (ok : Path → Bool) (p : Path) (t : Tree) : Removable (deviceOf t) ok p t ↔ ∃ dev, Removable dev ok p t := by
  constructor
  · exact fun h => ⟨_, h⟩
  · rintro ⟨dev, h⟩
    cases t with
    | other => exact h
    | link _ => exact h
    | dir d readable es =>
      obtain ⟨rfl, h2⟩ := h
      exact ⟨rfl, h2⟩

/-- **C63** (removal): for a path that `stat` finds, `remove_directory` returns exactly if everything under it can be removed and is on one device, and then
nothing is left under the path. Whatever happens, nothing outside the path is removed (in particular not the targets of symbolic links
in it), nothing is created, and the directories of what is left are left. -/
theorem C63_remove_partial (ok : Path → Bool) (p : Path) (t : Tree) (S : List Path) (hn : Names t)
    (hS : ∀ q, p <+: q → (q ∈ S ↔ q ∈ paths p t)) :
    ((removeDirectory ok true p t S).1 = .done ↔ ∃ dev, Removable dev ok p t) ∧
    ((removeDirectory ok true p t S).1 = .done → ∀ q, q ∈ (removeDirectory ok true p t S).2 ↔ q ∈ S ∧ ¬ p <+: q) ∧
    (∀ q, ¬ p <+: q → (q ∈ (removeDirectory ok true p t S).2 ↔ q ∈ S)) ∧
    (∀ q ∈ (removeDirectory ok true p t S).2, q ∈ S) ∧
    (Closed S → Closed (removeDirectory ok true p t S).2) := by
  have hspec := walk_spec (deviceOf t) ok p t S [] hn hS
  rw [List.append_nil] at hspec
  have hsafe := removeLoop_safe ok p (walk (deviceOf t) p t) (walk_below _ p t) S
  rw [← removable_device]
  unfold removeDirectory
  rw [if_pos rfl]
  by_cases h : Removable (deviceOf t) ok p t
  · rw [hspec.1 h] at hsafe ⊢
    have hmem : ∀ q, q ∈ S.filter (fun q => !below p q) ↔ q ∈ S ∧ ¬ p <+: q := by
      intro q
      rw [List.mem_filter, Bool.not_eq_true', Bool.eq_false_iff]
      exact and_congr_right fun _ => not_congr below_iff
    refine ⟨⟨fun _ => h, fun _ => rfl⟩, fun _ => hmem, fun q hq => ?_, fun q hq => ((hmem q).mp hq).1, hsafe.2.2⟩
    exact ⟨fun hm => ((hmem q).mp hm).1, fun hm => (hmem q).mpr ⟨hm, hq⟩⟩
  · have ht := hspec.2 h
    refine ⟨⟨fun e => ?_, fun e => absurd e h⟩, fun e => ?_, fun q hq => ⟨hsafe.1 q, fun hm => hsafe.2.1 q hm hq⟩, hsafe.1,
      hsafe.2.2⟩
    · rw [ht] at e; cases e
    · rw [ht] at e; cases e

/-- **C63** (violation): a symbolic link whose target does not exist is not found by `stat`; the function returns `true` and the link is
still there. -/
theorem C63_dangling_violated (ok : Path → Bool) (p target : Path) (S : List Path) (h : p ∈ S) :
    (removeDirectory ok false p (.link target) S).1 = .done ∧ p ∈ (removeDirectory ok false p (.link target) S).2 := by
  exact ⟨rfl, h⟩

/-! ## Examples -/

namespace Toy

def n (x : UInt8) : Name := [x]

/-- `/a` with a file `b`, a link `c` to `/z` and a directory `d` with a file; beside it `/z` with a file -/
def tree : Tree := .dir 1 true [(n 98, .other), (n 99, .link [n 122]), (n 100, .dir 1 true [(n 98, .other)])]

def world : List Path := [[n 122], [n 122, n 1], [n 97], [n 97, n 98], [n 97, n 99], [n 97, n 100], [n 97, n 100, n 98]]

theorem holds : ∀ q, [n 97] <+: q → (q ∈ world ↔ q ∈ paths [n 97] tree) := by
  rintro q ⟨r, rfl⟩
  constructor
  · intro h
    simp [world, n] at h
    simp [paths, pathsList, tree, n]
    rcases h with h | h | h | h | h <;> simp [h]
  · intro h
    simp [paths, pathsList, tree, n] at h
    simp [world, n]
    rcases h with h | h | h | h | h <;> simp [h]

/-- Everything is removed except `/z` and its file. -/
example : removeDirectory (fun _ => true) true [n 97] tree world = (.done, [[n 122], [n 122, n 1]]) := by decide

example : ∃ dev, Removable dev (fun _ => true) [n 97] tree :=
  (C63_remove_partial (fun _ => true) [n 97] tree world (by simp [Names, NamesList, tree, n]) holds).1.mp (by decide)

/-- If the file in `d` cannot be removed, `d` and `a` are left. -/
example : removeDirectory (fun q => q ≠ [n 97, n 100, n 98]) true [n 97] tree world =
    (.throws, [[n 122], [n 122, n 1], [n 97], [n 97, n 100], [n 97, n 100, n 98]]) := by decide

/-- A mount point stops the removal. -/
example : (removeDirectory (fun _ => true) true [n 97] (.dir 1 true [(n 98, .dir 2 true [])]) [[n 97], [n 97, n 98]]).1 =
    .throws := by decide

end Toy

end Verif.Util
