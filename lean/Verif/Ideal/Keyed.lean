import Verif.Ideal.Dist
import Mathlib.Logic.Function.Basic
import Mathlib.Algebra.BigOperators.Field
import Mathlib.Algebra.Order.BigOperators.Group.Finset
import Mathlib.Tactic.Ring

/-!
# Functions with keys

The pseudorandom functions of the schemes are one function of the library, with different keys. Here this function is chosen at random,
as a function of the key and of the input. With different keys, it gives independent functions.
-/

namespace Verif.Ideal

/-! ## Products -/

section Prod

variable {Ω₁ Ω₂ : Type*} [Fintype Ω₁] [Fintype Ω₂]

/-- The probability on a product is the mean of those for each first component. -/
theorem prob_prod_eq (p : Ω₁ × Ω₂ → Prop) : prob p = (∑ a : Ω₁, prob (fun x => p (a, x))) / Fintype.card Ω₁ := by
  unfold prob
  rw [card_prod_eq, Fintype.card_prod, ← Finset.sum_div, div_div]
  push_cast
  rw [mul_comm (Fintype.card Ω₂ : ℚ)]

theorem prob_const [Nonempty Ω₂] (q : Prop) [Decidable q] : prob (fun _ : Ω₂ => q) = if q then 1 else 0 := by
  by_cases h : q
  · simp only [h, if_true]; exact prob_true
  · simp only [h, if_false]; exact prob_false

/-- An event about the first component only. -/
theorem prob_fst_eq [Nonempty Ω₂] (p : Ω₁ → Prop) : prob (fun x : Ω₁ × Ω₂ => p x.1) = prob p := by
  classical
  rw [prob_prod_eq]
  simp only [prob_const]
  unfold prob
  congr 1
  rw [Finset.sum_boole, card_filter_eq]

theorem prob_comm (p : Ω₁ × Ω₂ → Prop) : prob p = prob (fun x : Ω₂ × Ω₁ => p (x.2, x.1)) := by
  unfold prob
  rw [Fintype.card_prod, Fintype.card_prod, Nat.mul_comm]
  congr 2
  exact Nat.card_congr ((Equiv.prodComm Ω₁ Ω₂).subtypeEquiv (fun _ => Iff.rfl))

/-- An event about the second component only. -/
theorem prob_snd_eq [Nonempty Ω₁] (p : Ω₂ → Prop) : prob (fun x : Ω₁ × Ω₂ => p x.2) = prob p := by
  rw [prob_comm]
  exact prob_fst_eq p

/-- If two events differ in probability by at most `b` whatever the common first component is, they differ by at most `b`. -/
theorem prob_prod_dist {Ω₃ : Type*} [Fintype Ω₃] (p : Ω₁ × Ω₂ → Prop) (q : Ω₁ × Ω₃ → Prop) (b : ℚ) (hb : 0 ≤ b)
    (h : ∀ a, |prob (fun x => p (a, x)) - prob (fun x => q (a, x))| ≤ b) : |prob p - prob q| ≤ b := by
  rw [prob_prod_eq, prob_prod_eq, ← sub_div, ← Finset.sum_sub_distrib]
  rcases Nat.eq_zero_or_pos (Fintype.card Ω₁) with h1 | h1
  · rw [h1]; simpa using hb
  have h1' : (0 : ℚ) < Fintype.card Ω₁ := by exact_mod_cast h1
  rw [abs_div, abs_of_pos h1', div_le_iff₀ h1']
  refine le_trans (Finset.abs_sum_le_sum_abs _ _) (le_trans (Finset.sum_le_sum (fun a _ => h a)) ?_)
  rw [Finset.sum_const, nsmul_eq_mul, Finset.card_univ, mul_comm]

end Prod

/-! ## Exchange of values -/

section Swap

variable {A B C : Type*}

open Classical in
/-- The values of `F` on the range of `ι` are exchanged with those of `f`. -/
noncomputable def exchange (ι : B → A) (x : (A → C) × (B → C)) : (A → C) × (B → C) :=
  (fun a => if h : ∃ b, ι b = a then x.2 h.choose else x.1 a, fun b => x.1 (ι b))

theorem exchange_at {ι : B → A} (hι : Function.Injective ι) (x : (A → C) × (B → C)) (b : B) : (exchange ι x).1 (ι b) = x.2 b := by
  unfold exchange
  have h : ∃ b', ι b' = ι b := ⟨b, rfl⟩
  simp only [h, dif_pos]
  rw [hι h.choose_spec]

theorem exchange_out (ι : B → A) (x : (A → C) × (B → C)) (a : A) (ha : ∀ b, ι b ≠ a) : (exchange ι x).1 a = x.1 a := by
  unfold exchange
  have h : ¬ ∃ b', ι b' = a := fun ⟨b, hb⟩ => ha b hb
  simp only [h, dif_neg, not_false_eq_true]

theorem exchange_exchange {ι : B → A} (hι : Function.Injective ι) (x : (A → C) × (B → C)) : exchange ι (exchange ι x) = x := by
  refine Prod.ext (funext fun a => ?_) (funext fun b => ?_)
  · by_cases h : ∃ b, ι b = a
    · obtain ⟨b, rfl⟩ := h
      rw [exchange_at hι]
      rfl
    · rw [exchange_out ι _ a (fun b hb => h ⟨b, hb⟩), exchange_out ι _ a (fun b hb => h ⟨b, hb⟩)]
  · exact exchange_at hι x b

variable [Fintype A] [DecidableEq A] [Fintype B] [DecidableEq B] [Fintype C] [Nonempty C]

/-- A random function, on some of its points, is a random function. -/
theorem prob_reindex {ι : B → A} (hι : Function.Injective ι) (p : (B → C) → Prop) :
    prob (fun F : A → C => p (fun b => F (ι b))) = prob p := by
  rw [← prob_fst_eq (Ω₂ := B → C) (fun F : A → C => p (fun b => F (ι b))), ← prob_snd_eq (Ω₁ := A → C) p]
  have hb : Function.Bijective (exchange (C := C) ι) := Function.Involutive.bijective (fun x => exchange_exchange hι x)
  rw [← prob_bijective hb (fun x : (A → C) × (B → C) => p x.2)]
  rfl

end Swap

/-! ## Derived keys -/

section Keys

variable {L I K R : Type*}

/-- The key with the label `l`: the function with the master key, at the input given by the label -/
def derived (input : L → I) (m : K × (K × I → K)) (l : L) : K := m.2 (m.1, input l)

/-- The functions with the derived keys -/
def families (input : L → I) (m : K × (K × I → K)) : L × I → K := fun y => m.2 (derived input m y.1, y.2)

/-- The bound for keys: two of them are equal, or one is equal to the master key. -/
def keyBound (l k : Nat) : ℚ := (l.choose 2 : ℚ) / k + l / k

/-- Two keys are equal, or one is equal to the master key. -/
def Clash (input : L → I) (m : K × (K × I → K)) : Prop :=
  (∃ a b, a ≠ b ∧ derived input m a = derived input m b) ∨ ∃ a, derived input m a = m.1

/-- The points of the function that are used with the derived keys -/
def point (input : L → I) (m : K × (K × I → K)) (y : L × I) : K × I := (derived input m y.1, y.2)

theorem point_injective {input : L → I} {m : K × (K × I → K)} (h : ¬ Clash input m) : Function.Injective (point input m) := by
  rintro ⟨l, i⟩ ⟨l', i'⟩ he
  obtain ⟨h1, rfl⟩ := Prod.mk.inj he
  by_cases hl : l = l'
  · rw [hl]
  · exact absurd (Or.inl ⟨l, l', hl, h1⟩) h

open Classical in
/-- Exchange of the functions with the derived keys and of independent functions, unless keys clash -/
noncomputable def swapKeys (input : L → I) (x : (K × (K × I → K)) × (L × I → K)) : (K × (K × I → K)) × (L × I → K) :=
  if Clash input x.1 then x else
    ((x.1.1, (exchange (point input x.1) (x.1.2, x.2)).1), (exchange (point input x.1) (x.1.2, x.2)).2)

theorem derived_swap {input : L → I} (x : (K × (K × I → K)) × (L × I → K)) (h : ¬ Clash input x.1) (l : L) :
    derived input (x.1.1, (exchange (point input x.1) (x.1.2, x.2)).1) l = derived input x.1 l := by
  unfold derived
  exact exchange_out _ _ _ (fun y he => h (Or.inr ⟨y.1, (Prod.mk.inj he).1⟩))

theorem swapKeys_bijective (input : L → I) : Function.Bijective (swapKeys (K := K) input) := by
  apply Function.Involutive.bijective
  intro x
  by_cases h : Clash input x.1
  · have e : swapKeys input x = x := if_pos h
    rw [e, e]
  · have e : swapKeys input x = ((x.1.1, (exchange (point input x.1) (x.1.2, x.2)).1), (exchange (point input x.1) (x.1.2, x.2)).2) :=
      if_neg h
    have hd : derived input (swapKeys input x).1 = derived input x.1 := by
      funext l; rw [e]; exact derived_swap x h l
    have hm : (swapKeys input x).1.1 = x.1.1 := by rw [e]
    have hp : point input (swapKeys input x).1 = point input x.1 := by
      funext y; unfold point; rw [hd]
    have h' : ¬ Clash input (swapKeys input x).1 := by
      unfold Clash at h ⊢
      rw [hd, hm]; exact h
    have e' : swapKeys input (swapKeys input x) = (((swapKeys input x).1.1,
        (exchange (point input (swapKeys input x).1) ((swapKeys input x).1.2, (swapKeys input x).2)).1),
        (exchange (point input (swapKeys input x).1) ((swapKeys input x).1.2, (swapKeys input x).2)).2) := if_neg h'
    have e'' : ((swapKeys input x).1.2, (swapKeys input x).2) = exchange (point input x.1) (x.1.2, x.2) := by rw [e]
    rw [e', hp, e'', exchange_exchange (point_injective h), hm]

variable [Fintype L] [DecidableEq L] [Fintype I] [DecidableEq I] [Fintype K] [DecidableEq K]

omit [DecidableEq L] in
theorem prob_clash (input : L → I) (hi : Function.Injective input) :
    prob (Clash (K := K) input) ≤ keyBound (Fintype.card L) (Fintype.card K) := by
  unfold Clash keyBound
  refine prob_prod_le _ _ (by positivity) (fun m => prob_or_le ?_ ?_)
  · refine le_trans (prob_mono (q := fun F : K × I → K => ∃ a ∈ Finset.univ.image (fun l => (m, input l)),
      ∃ b ∈ Finset.univ.image (fun l => (m, input l)), a ≠ b ∧ F a = F b) ?_)
      (collision_le _ (Fintype.card L) (le_trans Finset.card_image_le (by simp)))
    rintro F ⟨a, b, hab, he⟩
    exact ⟨_, Finset.mem_image_of_mem _ (Finset.mem_univ a), _, Finset.mem_image_of_mem _ (Finset.mem_univ b),
      fun e => hab (hi (Prod.mk.inj e).2), he⟩
  · refine le_trans (prob_mono (q := fun F : K × I → K => ∃ a ∈ Finset.univ.image (fun l => (m, input l)), F a ∈ ({m} : Finset K)) ?_)
      (le_trans (hit_le _ {m} (Fintype.card L) (le_trans Finset.card_image_le (by simp))) ?_)
    · rintro F ⟨a, ha⟩
      exact ⟨_, Finset.mem_image_of_mem _ (Finset.mem_univ a), Finset.mem_singleton.mpr ha⟩
    · rw [Finset.card_singleton]
      push_cast
      rw [mul_one_div]

variable [Nonempty K] [Fintype R]

/-- The functions with derived keys are as good as independent functions: no event, that may also depend on other random
choices, has a probability that differs by more than `keyBound`. -/
theorem prob_families (input : L → I) (hi : Function.Injective input) (E : (L × I → K) → R → Prop) :
    |prob (fun x : (K × (K × I → K)) × R => E (families input x.1) x.2) - prob (fun x : (L × I → K) × R => E x.1 x.2)| ≤
      keyBound (Fintype.card L) (Fintype.card K) := by
  have h0 : (0 : ℚ) ≤ keyBound (Fintype.card L) (Fintype.card K) := by unfold keyBound; positivity
  rw [prob_comm (fun x : (K × (K × I → K)) × R => E (families input x.1) x.2), prob_comm (fun x : (L × I → K) × R => E x.1 x.2)]
  refine prob_prod_dist (Ω₁ := R) (Ω₂ := K × (K × I → K)) (Ω₃ := L × I → K) _ _ _ h0 (fun r => ?_)
  simp only
  rw [← prob_fst_eq (Ω₂ := L × I → K) (fun m : K × (K × I → K) => E (families input m) r),
    ← prob_snd_eq (Ω₁ := K × (K × I → K)) (fun f : L × I → K => E f r)]
  refine le_trans (prob_dist_le (swapKeys_bijective input) (fun x => families input x.1) (fun x => x.2)
    (fun x => Clash input x.1) ?_ (fun f => E f r)) (prob_first_le (prob_clash input hi))
  intro x h
  have e : swapKeys input x = ((x.1.1, (exchange (point input x.1) (x.1.2, x.2)).1), (exchange (point input x.1) (x.1.2, x.2)).2) :=
    if_neg h
  funext y
  rw [e]
  unfold families
  simp only [derived_swap x h]
  exact exchange_at (point_injective h) _ y

end Keys

/-! ## Random keys -/

section Random

variable {L I K C R : Type*}

/-- The functions with the keys of `m`, which are chosen at random -/
def withKeys (m : (L → K) × (K × I → C)) : L × I → C := fun y => m.2 (m.1 y.1, y.2)

/-- The bound for random keys: two of them are equal. -/
def randomBound (l k : Nat) : ℚ := (l.choose 2 : ℚ) / k

open Classical in
/-- Exchange of the functions with the keys and of independent functions, unless two keys are equal -/
noncomputable def swapRandom (x : ((L → K) × (K × I → C)) × (L × I → C)) : ((L → K) × (K × I → C)) × (L × I → C) :=
  if Function.Injective x.1.1 then
    ((x.1.1, (exchange (fun y : L × I => (x.1.1 y.1, y.2)) (x.1.2, x.2)).1), (exchange (fun y : L × I => (x.1.1 y.1, y.2)) (x.1.2, x.2)).2)
  else x

theorem pairs_injective {k : L → K} (h : Function.Injective k) : Function.Injective (fun y : L × I => (k y.1, y.2)) := by
  rintro ⟨l, i⟩ ⟨l', i'⟩ he
  obtain ⟨h1, h2⟩ := Prod.mk.inj he
  exact Prod.ext (h h1) h2

theorem swapRandom_bijective : Function.Bijective (swapRandom (L := L) (I := I) (K := K) (C := C)) := by
  apply Function.Involutive.bijective
  rintro ⟨⟨k, F⟩, f⟩
  by_cases h : Function.Injective k
  · have e : ∀ (F : K × I → C) (f : L × I → C), swapRandom ((k, F), f) = ((k, (exchange (fun y : L × I => (k y.1, y.2)) (F, f)).1),
        (exchange (fun y : L × I => (k y.1, y.2)) (F, f)).2) := fun F f => if_pos h
    rw [e, e]
    show ((k, (exchange _ (exchange _ (F, f))).1), (exchange _ (exchange _ (F, f))).2) = ((k, F), f)
    rw [exchange_exchange (pairs_injective h)]
  · have e : swapRandom ((k, F), f) = ((k, F), f) := if_neg h
    rw [e, e]

variable [Fintype L] [DecidableEq L] [Fintype I] [DecidableEq I] [Fintype K] [DecidableEq K] [Fintype C] [Nonempty C] [Nonempty K]
  [Fintype R]

/-- The functions with random keys are as good as independent functions. -/
theorem prob_withKeys (E : (L × I → C) → R → Prop) :
    |prob (fun x : ((L → K) × (K × I → C)) × R => E (withKeys x.1) x.2) - prob (fun x : (L × I → C) × R => E x.1 x.2)| ≤
      randomBound (Fintype.card L) (Fintype.card K) := by
  have h0 : (0 : ℚ) ≤ randomBound (Fintype.card L) (Fintype.card K) := by unfold randomBound; positivity
  rw [prob_comm (fun x : ((L → K) × (K × I → C)) × R => E (withKeys x.1) x.2), prob_comm (fun x : (L × I → C) × R => E x.1 x.2)]
  refine prob_prod_dist (Ω₁ := R) (Ω₂ := (L → K) × (K × I → C)) (Ω₃ := L × I → C) _ _ _ h0 (fun r => ?_)
  simp only
  rw [← prob_fst_eq (Ω₂ := L × I → C) (fun m : (L → K) × (K × I → C) => E (withKeys m) r),
    ← prob_snd_eq (Ω₁ := (L → K) × (K × I → C)) (fun f : L × I → C => E f r)]
  refine le_trans (prob_dist_le swapRandom_bijective (fun x => withKeys x.1) (fun x => x.2)
    (fun x => ¬ Function.Injective x.1.1) ?_ (fun f => E f r)) ?_
  · intro x h
    have h := not_not.mp h
    funext y
    have e : swapRandom x = ((x.1.1, (exchange (fun y : L × I => (x.1.1 y.1, y.2)) (x.1.2, x.2)).1),
      (exchange (fun y : L × I => (x.1.1 y.1, y.2)) (x.1.2, x.2)).2) := if_pos h
    rw [e]
    exact exchange_at (pairs_injective h) _ y
  · refine prob_first_le (Ω := (L → K) × (K × I → C)) (p := fun m => ¬ Function.Injective m.1)
      (prob_first_le (Ω := L → K) (p := fun k => ¬ Function.Injective k) ?_)
    refine le_trans (prob_mono (q := fun k : L → K => ∃ a ∈ Finset.univ, ∃ b ∈ Finset.univ, a ≠ b ∧ k a = k b) ?_)
      (collision_le Finset.univ (Fintype.card L) (le_of_eq Finset.card_univ))
    intro k hk
    unfold Function.Injective at hk
    push Not at hk
    obtain ⟨a, b, he, hne⟩ := hk
    exact ⟨a, Finset.mem_univ _, b, Finset.mem_univ _, hne, he⟩

end Random

/-! ## Composition -/

theorem dist_transfer {a a' b b' k h : ℚ} (ha : |a - a'| ≤ k) (hb : |b - b'| ≤ k) (hab : |a' - b'| ≤ h) : |a - b| ≤ h + 2 * k := by
  rw [abs_le] at *
  constructor <;> linarith [ha.1, ha.2, hb.1, hb.2, hab.1, hab.2]

theorem le_transfer {a a' k h : ℚ} (ha : |a - a'| ≤ k) (hb : a' ≤ h) : a ≤ h + k := by
  rw [abs_le] at ha
  linarith [ha.2]

section Overlay

variable {A B C : Type*}

open Classical in
/-- The function `f` on the range of `ι`, `F` elsewhere -/
noncomputable def overlay (ι : B → A) (f : B → C) (F : A → C) : A → C := fun a => if h : ∃ b, ι b = a then f h.choose else F a

theorem overlay_at {ι : B → A} (hι : Function.Injective ι) (f : B → C) (F : A → C) (b : B) : overlay ι f F (ι b) = f b :=
  exchange_at hι (F, f) b

theorem overlay_out (ι : B → A) (f : B → C) (F : A → C) (a : A) (ha : ∀ b, ι b ≠ a) : overlay ι f F a = F a :=
  exchange_out ι (F, f) a ha

variable [Fintype A] [DecidableEq A] [Fintype B] [DecidableEq B] [Fintype C] [Nonempty C]

/-- Some of the values of a random function can be chosen apart. -/
theorem prob_overlay {ι : B → A} (hι : Function.Injective ι) (p : (A → C) → Prop) :
    prob p = prob (fun x : (A → C) × (B → C) => p (overlay ι x.2 x.1)) := by
  rw [← prob_fst_eq (Ω₂ := B → C) p]
  have hb : Function.Bijective (exchange (C := C) ι) := Function.Involutive.bijective (fun x => exchange_exchange hι x)
  rw [← prob_bijective hb (fun x : (A → C) × (B → C) => p x.1)]
  rfl

end Overlay

end Verif.Ideal
