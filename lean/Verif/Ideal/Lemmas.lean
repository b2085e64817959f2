import Verif.Ideal.Prob

/-!
# Collisions along chains of random functions
-/

namespace Verif.Ideal

section

variable {Ω : Type*} [Fintype Ω]

theorem prob_or_le {p q : Ω → Prop} {a b : ℚ} (hp : prob p ≤ a) (hq : prob q ≤ b) :
    prob (fun ω => p ω ∨ q ω) ≤ a + b := le_trans (prob_or p q) (add_le_add hp hq)

variable {Ω₂ : Type*} [Fintype Ω₂]

theorem prob_first_le {p : Ω → Prop} {b : ℚ} (h : prob p ≤ b) :
    prob (fun x : Ω × Ω₂ => p x.1) ≤ b := le_trans (prob_fst_le p) h

theorem choose_two_mono {a b : Nat} (h : a ≤ b) (c : Nat) :
    (a.choose 2 : ℚ) / c ≤ (b.choose 2 : ℚ) / c := by
  refine div_le_div_of_nonneg_right ?_ (by positivity)
  exact_mod_cast Nat.choose_le_choose 2 h

theorem mul_mono {a b : Nat} (h : a ≤ b) (x : ℚ) (hx : 0 ≤ x) : (a : ℚ) * x ≤ b * x :=
  mul_le_mul_of_nonneg_right (by exact_mod_cast h) hx

end

section

variable {D C : Type*} [Fintype D] [DecidableEq D] [Fintype C]

/-- The birthday bound with a bound on the number of points. -/
theorem collision_le (S : Finset D) (n : Nat) (h : S.card ≤ n) :
    prob (fun f : D → C => ∃ a ∈ S, ∃ b ∈ S, a ≠ b ∧ f a = f b) ≤
      (n.choose 2 : ℚ) / Fintype.card C :=
  le_trans (prob_collision_le S) (choose_two_mono h _)

/-- The bound on hits with a bound on the number of points. -/
theorem hit_le (S : Finset D) (B : Finset C) (n : Nat) (h : S.card ≤ n) :
    prob (fun f : D → C => ∃ a ∈ S, f a ∈ B) ≤ n * (B.card / Fintype.card C) :=
  le_trans (prob_hit_le S B) (mul_mono h _ (by positivity))

end

section

variable {X C : Type*} [DecidableEq X]

/-- A function on the finite set `U`, continued by `g` outside of it. -/
def extend {U : Finset X} (g : X → C) (f : U → C) : X → C := fun x => if h : x ∈ U then f ⟨x, h⟩ else g x

/-- Collisions of a function on `S` are collisions of its values on `U`. -/
theorem extend_collision {U S : Finset X} (hS : S ⊆ U) (g : X → C) (f : U → C)
    (h : ∃ a ∈ S, ∃ b ∈ S, a ≠ b ∧ extend g f a = extend g f b) :
    ∃ a ∈ S.subtype (· ∈ U), ∃ b ∈ S.subtype (· ∈ U), a ≠ b ∧ f a = f b := by
  obtain ⟨a, ha, b, hb, hab, h⟩ := h
  refine ⟨⟨a, hS ha⟩, by simpa using ha, ⟨b, hS hb⟩, by simpa using hb, ?_, ?_⟩
  · intro h; exact hab (congrArg Subtype.val h)
  · simpa [extend, hS ha, hS hb] using h

theorem card_subtype_le (U S : Finset X) : (S.subtype (· ∈ U)).card ≤ S.card := by
  rw [Finset.card_subtype]; exact Finset.card_filter_le _ _

variable {Ω₁ Ω₂ : Type*} [Fintype Ω₁] [Fintype Ω₂] [Fintype C]

/-- Birthday bound for a function that is random on `U`. -/
theorem extend_collision_le {U S : Finset X} (hS : S ⊆ U) (g : X → C) :
    prob (fun f : U → C => ∃ a ∈ S, ∃ b ∈ S, a ≠ b ∧ extend g f a = extend g f b) ≤
      (S.card.choose 2 : ℚ) / Fintype.card C := by
  refine le_trans (prob_mono (fun f h => extend_collision hS g f h)) ?_
  exact le_trans (prob_collision_le _) (choose_two_mono (card_subtype_le U S) _)

/-- Birthday bound for the first function, which is random on `U`. -/
theorem extend_le {U S : Finset X} (hS : S ⊆ U) (g : X → C) :
    prob (fun ω : (U → C) × Ω₂ => ∃ a ∈ S, ∃ b ∈ S, a ≠ b ∧ extend g ω.1 a = extend g ω.1 b) ≤
      (S.card.choose 2 : ℚ) / Fintype.card C := by
  refine le_trans (prob_mono (fun ω h => extend_collision hS g ω.1 h)) ?_
  refine prob_first_le (p := fun f : U → C => ∃ a ∈ S.subtype (· ∈ U), ∃ b ∈ S.subtype (· ∈ U), a ≠ b ∧ f a = f b) ?_
  exact le_trans (prob_collision_le _) (choose_two_mono (card_subtype_le U S) _)

end

section

variable {Ω₁ Ω₂ Ω₃ Ω₄ D C : Type*} [Fintype Ω₁] [Fintype Ω₂] [Fintype Ω₃] [Fintype Ω₄] [Fintype D] [DecidableEq D]
  [Fintype C]

/-- Birthday bound for the first function. -/
theorem collision_le₁ (S : Finset D) (n : Nat) (h : S.card ≤ n) :
    prob (fun ω : (D → C) × Ω₂ => ∃ a ∈ S, ∃ b ∈ S, a ≠ b ∧ ω.1 a = ω.1 b) ≤
      (n.choose 2 : ℚ) / Fintype.card C :=
  prob_first_le (p := fun f : D → C => ∃ a ∈ S, ∃ b ∈ S, a ≠ b ∧ f a = f b) (collision_le S n h)

/-- Birthday bound for the second function, at points that depend on the first. -/
theorem collision_le₂ (S : Ω₁ → Finset D) (n : Nat) (h : ∀ x, (S x).card ≤ n) :
    prob (fun ω : Ω₁ × (D → C) × Ω₃ => ∃ a ∈ S ω.1, ∃ b ∈ S ω.1, a ≠ b ∧ ω.2.1 a = ω.2.1 b) ≤
      (n.choose 2 : ℚ) / Fintype.card C :=
  prob_prod_le _ _ (by positivity) (fun x => collision_le₁ (S x) n (h x))

/-- Birthday bound for the third function, at points that depend on the others. -/
theorem collision_le₃ (S : Ω₁ → Ω₂ → Finset D) (n : Nat) (h : ∀ x y, (S x y).card ≤ n) :
    prob (fun ω : Ω₁ × Ω₂ × (D → C) × Ω₄ =>
      ∃ a ∈ S ω.1 ω.2.1, ∃ b ∈ S ω.1 ω.2.1, a ≠ b ∧ ω.2.2.1 a = ω.2.2.1 b) ≤
      (n.choose 2 : ℚ) / Fintype.card C :=
  prob_prod_le _ _ (by positivity) (fun x => collision_le₂ (S x) n (h x))

/-- Birthday bound for the last of two functions. -/
theorem collision_last₂ (S : Ω₁ → Finset D) (n : Nat) (h : ∀ x, (S x).card ≤ n) :
    prob (fun ω : Ω₁ × (D → C) => ∃ a ∈ S ω.1, ∃ b ∈ S ω.1, a ≠ b ∧ ω.2 a = ω.2 b) ≤
      (n.choose 2 : ℚ) / Fintype.card C :=
  prob_prod_le _ _ (by positivity) (fun x => collision_le (S x) n (h x))

/-- Birthday bound for the last of three functions. -/
theorem collision_last₃ (S : Ω₁ → Ω₂ → Finset D) (n : Nat) (h : ∀ x y, (S x y).card ≤ n) :
    prob (fun ω : Ω₁ × Ω₂ × (D → C) =>
      ∃ a ∈ S ω.1 ω.2.1, ∃ b ∈ S ω.1 ω.2.1, a ≠ b ∧ ω.2.2 a = ω.2.2 b) ≤
      (n.choose 2 : ℚ) / Fintype.card C :=
  prob_prod_le _ _ (by positivity) (fun x => collision_last₂ (S x) n (h x))

/-- Birthday bound for the last of four functions. -/
theorem collision_last₄ (S : Ω₁ → Ω₂ → Ω₃ → Finset D) (n : Nat) (h : ∀ x y z, (S x y z).card ≤ n) :
    prob (fun ω : Ω₁ × Ω₂ × Ω₃ × (D → C) =>
      ∃ a ∈ S ω.1 ω.2.1 ω.2.2.1, ∃ b ∈ S ω.1 ω.2.1 ω.2.2.1, a ≠ b ∧ ω.2.2.2 a = ω.2.2.2 b) ≤
      (n.choose 2 : ℚ) / Fintype.card C :=
  prob_prod_le _ _ (by positivity) (fun x => collision_last₃ (S x) n (h x))

/-- The second function takes a value in `B`. -/
theorem hit_le₂ (S : Ω₁ → Finset D) (B : Finset C) (n : Nat) (h : ∀ x, (S x).card ≤ n) :
    prob (fun ω : Ω₁ × (D → C) × Ω₃ => ∃ a ∈ S ω.1, ω.2.1 a ∈ B) ≤ n * (B.card / Fintype.card C) :=
  prob_prod_le _ _ (by positivity) (fun x =>
    prob_first_le (p := fun f : D → C => ∃ a ∈ S x, f a ∈ B) (hit_le (S x) B n (h x)))

end

/-- There are `256 ^ n` arrays of `n` bytes. -/
instance {n : Nat} : Fintype (Vector UInt8 n) :=
  Fintype.ofEquiv (Fin n → Fin 256)
    { toFun := fun f => Vector.ofFn (fun i => ⟨⟨f i⟩⟩)
      invFun := fun v i => v[i].toBitVec.toFin
      left_inv := fun f => by funext i; simp
      right_inv := fun v => by ext i hi; simp }

theorem card_bytes (n : Nat) : Fintype.card (Vector UInt8 n) = 256 ^ n := by
  rw [Fintype.ofEquiv_card]; simp

end Verif.Ideal
