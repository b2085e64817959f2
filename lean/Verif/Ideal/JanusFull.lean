import Verif.Ideal.JanusAdaptive
import Mathlib.Logic.Equiv.Fintype

/-!
# What the Janus server learns from searches: C82

Besides the functions of `Verif.Ideal.JanusAdaptive`, the keys of puncturable encryption, the keyword tokens and the tags are chosen
at random (`/repo/lib/janus/janus_client.cpp` L44-71, L104-106, L145-147, L168-170: pseudorandom functions of strings that end with the keyword).
Then a search reveals the earlier operations on its keyword, but not the keyword.
-/

namespace Verif.Ideal.Janus

open Verif Verif.Janus Verif.Janus.Spec Verif.Leak Verif.Ideal.Diana

variable {PK KS CT Rand : Type}

/-! ## Specification of leakage -/

/-- An operation without its keyword -/
inductive Act (Rand : Type) where
  | insert (i : Index) (r : Rand)
  | remove (i : Index)
  | search
deriving DecidableEq

/-- Forget the keyword. -/
def act : Op Rand → Act Rand
  | .insert _ i r => .insert i r
  | .remove _ i => .remove i
  | .search _ => .search

/-- The operations on `w`, with their positions from `n` on -/
def opsOn (w : Str) : Nat → List (Op Rand) → List (Nat × Act Rand)
  | _, [] => []
  | n, o :: H => if Op.kw o = w then (n, act o) :: opsOn w (n + 1) H else opsOn w (n + 1) H

/-- What the server may learn from an operation: from an update, only its kind; from a search, the earlier operations on its keyword. -/
def jleakOf (past : List (Op Rand)) : Op Rand → Kind ⊕ List (Nat × Act Rand)
  | .insert _ _ _ => .inl .insertion
  | .remove _ _ => .inl .removal
  | .search w => .inr (opsOn w 0 past)

/-- What the server may learn from the operations after `past` -/
def jleakFrom : List (Op Rand) → List (Op Rand) → List (Kind ⊕ List (Nat × Act Rand))
  | _, [] => []
  | past, o :: H => jleakOf past o :: jleakFrom (past ++ [o]) H

/-- What the server may learn from a history -/
def jleak (H : List (Op Rand)) : List (Kind ⊕ List (Nat × Act Rand)) := jleakFrom [] H

/-- The rules for the strategy: the same leakage, keywords of the dictionary, and at most `n` operations. -/
def LRules (D : Finset Str) (n : Nat) (P : List (Op Rand × Op Rand)) : Prop :=
  jleak (P.map Prod.fst) = jleak (P.map Prod.snd) ∧ (∀ p ∈ P, Op.kw p.1 ∈ D ∧ Op.kw p.2 ∈ D) ∧ P.length ≤ n

/-! ## Leakage by positions -/

theorem mem_opsOn (w : Str) (H : List (Op Rand)) : ∀ (n t : Nat) (x : Act Rand),
    (t, x) ∈ opsOn w n H ↔ ∃ o k, H[k]? = some o ∧ t = n + k ∧ Op.kw o = w ∧ act o = x := by
  induction H with
  | nil => intro n t x; simp [opsOn]
  | cons y H ih =>
    intro n t x
    have hrec := ih (n + 1) t x
    have hsplit : (∃ o k, (y :: H)[k]? = some o ∧ t = n + k ∧ Op.kw o = w ∧ act o = x) ↔
        (t = n ∧ Op.kw y = w ∧ act y = x) ∨ ∃ o k, H[k]? = some o ∧ t = n + 1 + k ∧ Op.kw o = w ∧ act o = x := by
      constructor
      · rintro ⟨o, k, h1, h2, h3, h4⟩
        cases k with
        | zero =>
          simp only [List.getElem?_cons_zero, Option.some.injEq] at h1
          subst h1
          exact Or.inl ⟨by omega, h3, h4⟩
        | succ k => exact Or.inr ⟨o, k, by simpa using h1, by omega, h3, h4⟩
      · rintro (⟨h1, h2, h3⟩ | ⟨o, k, h1, h2, h3, h4⟩)
        · exact ⟨y, 0, rfl, by omega, h2, h3⟩
        · exact ⟨o, k + 1, by simpa using h1, by omega, h3, h4⟩
    have hcons : opsOn w n (y :: H) = if Op.kw y = w then (n, act y) :: opsOn w (n + 1) H else opsOn w (n + 1) H := rfl
    rw [hsplit, ← hrec, hcons]
    split
    · rename_i hw
      simp only [List.mem_cons, Prod.mk.injEq, hw, true_and]
      constructor
      · rintro (⟨h1, h2⟩ | h)
        · exact Or.inl ⟨h1, h2.symm⟩
        · exact Or.inr h
      · rintro (⟨h1, h2⟩ | h)
        · exact Or.inl ⟨h1, h2.symm⟩
        · exact Or.inr h
    · rename_i hw
      simp [hw]

theorem jleakFrom_getElem (H : List (Op Rand)) : ∀ (past : List (Op Rand)) (t : Nat),
    (jleakFrom past H)[t]? = (H[t]?).map (jleakOf (past ++ H.take t)) := by
  induction H with
  | nil => intro past t; simp [jleakFrom]
  | cons o H ih =>
    intro past t
    cases t with
    | zero => simp [jleakFrom]
    | succ t => simp [jleakFrom, ih]

theorem jleak_getElem (H : List (Op Rand)) (t : Nat) : (jleak H)[t]? = (H[t]?).map (jleakOf (H.take t)) := by
  unfold jleak
  rw [jleakFrom_getElem]
  simp

/-- The leakage of single operations of histories with the same leakage -/
theorem jleak_at {H H' : List (Op Rand)} (h : jleak H = jleak H') {t : Nat} {a b : Op Rand} (ha : H[t]? = some a) (hb : H'[t]? = some b) :
    jleakOf (H.take t) a = jleakOf (H'.take t) b := by
  have := congrArg (fun l => l[t]?) h
  simpa [jleak_getElem, ha, hb] using this

theorem jleak_kind {past past' : List (Op Rand)} {a b : Op Rand} (h : jleakOf past a = jleakOf past' b) : kind a = kind b := by
  cases a <;> cases b <;> simp [jleakOf, kind] at h ⊢

/-! ## Renaming keywords -/

/-- A relation that is a bijection between two sets is part of a permutation. -/
theorem exists_perm_of_rel {α : Type} [Finite α] (r : α → α → Prop) (h1 : ∀ a b b', r a b → r a b' → b = b')
    (h2 : ∀ a a' b, r a b → r a' b → a = a') : ∃ σ : Equiv.Perm α, ∀ a b, r a b → σ a = b := by
  classical
  have := Fintype.ofFinite α
  let f : {a // ∃ b, r a b} → {b // ∃ a, r a b} := fun a => ⟨a.2.choose, a.1, a.2.choose_spec⟩
  have hf : Function.Bijective f := by
    constructor
    · intro a a' h
      have h' : a.2.choose = a'.2.choose := congrArg Subtype.val h
      exact Subtype.ext (h2 _ _ _ a.2.choose_spec (h' ▸ a'.2.choose_spec))
    · rintro ⟨b, a, hab⟩
      exact ⟨⟨a, b, hab⟩, Subtype.ext (h1 a _ _ (Exists.choose_spec (⟨b, hab⟩ : ∃ b, r a b)) hab)⟩
  refine ⟨(Equiv.ofBijective f hf).extendSubtype, fun a b hab => ?_⟩
  rw [Equiv.extendSubtype_apply_of_mem _ a ⟨b, hab⟩]
  exact h1 a _ _ (Exists.choose_spec (⟨b, hab⟩ : ∃ b, r a b)) hab

/-- The same for a relation between elements of a finite set; other elements are not moved. -/
theorem exists_perm_on (D : Finset Str) (r : Str → Str → Prop) (hD : ∀ a b, r a b → a ∈ D ∧ b ∈ D)
    (h1 : ∀ a b b', r a b → r a b' → b = b') (h2 : ∀ a a' b, r a b → r a' b → a = a') :
    ∃ τ : Equiv.Perm Str, (∀ a b, r a b → τ a = b) ∧ (∀ a, τ a ∈ D ↔ a ∈ D) ∧ ∀ a, a ∉ D → τ a = a := by
  obtain ⟨σ, hσ⟩ := exists_perm_of_rel (α := {x // x ∈ D}) (fun a b => r a b)
    (fun a b b' h h' => Subtype.ext (h1 _ _ _ h h')) (fun a a' b h h' => Subtype.ext (h2 _ _ _ h h'))
  have hin : ∀ a (h : a ∈ D), Equiv.Perm.ofSubtype σ a = σ ⟨a, h⟩ := fun a h => Equiv.Perm.ofSubtype_apply_of_mem σ h
  have hout : ∀ a, a ∉ D → Equiv.Perm.ofSubtype σ a = a := fun a h => Equiv.Perm.ofSubtype_apply_of_not_mem σ h
  refine ⟨Equiv.Perm.ofSubtype σ, ?_, ?_, hout⟩
  · intro a b hab
    obtain ⟨ha, hb⟩ := hD a b hab
    rw [hin a ha, hσ ⟨a, ha⟩ ⟨b, hb⟩ hab]
  · intro a
    by_cases h : a ∈ D
    · rw [hin a h]
      exact ⟨fun _ => h, fun _ => (σ ⟨a, h⟩).2⟩
    · rw [hout a h]

/-- Rename the keyword of an operation. -/
def renameOp (τ : Str → Str) : Op Rand → Op Rand
  | .insert w i r => .insert (τ w) i r
  | .remove w i => .remove (τ w) i
  | .search w => .search (τ w)

theorem kw_renameOp (τ : Str → Str) (o : Op Rand) : Op.kw (renameOp τ o) = τ (Op.kw o) := by cases o <;> rfl

theorem kind_renameOp (τ : Str → Str) (o : Op Rand) : kind (renameOp τ o) = kind o := by cases o <;> rfl

theorem act_renameOp (τ : Str → Str) (o : Op Rand) : act (renameOp τ o) = act o := by cases o <;> rfl

theorem op_ext {a b : Op Rand} (h : Op.kw a = Op.kw b) (h' : act a = act b) : a = b := by
  cases a <;> cases b <;> simp_all [Op.kw, act]

theorem alike_of_positions (P : List (Op Rand × Op Rand))
    (h : ∀ (t : Nat) (a b : Op Rand), P[t]? = some (a, b) → kind a = kind b ∧ (kind a = none → a = b) ∧
      ∀ (s : Nat) (w : Str), t < s → (P[s]?).map Prod.fst = some (Op.search w) → (Op.kw a = w ∨ Op.kw b = w) → a = b) : Alike P := by
  induction P with
  | nil => trivial
  | cons p P ih =>
    obtain ⟨a, b⟩ := p
    obtain ⟨h1, h2, h3⟩ := h 0 a b rfl
    refine ⟨h1, h2, ?_, ih ?_⟩
    · intro w hw hk
      obtain ⟨q, hq, hqe⟩ := List.mem_map.mp hw
      obtain ⟨s, hs⟩ := List.mem_iff_getElem?.mp hq
      exact h3 (s + 1) w (by omega) (by simp [hs, hqe]) hk
    · intro t a b hab
      obtain ⟨g1, g2, g3⟩ := h (t + 1) a b (by simpa using hab)
      exact ⟨g1, g2, fun s w hs hw => g3 (s + 1) w (by omega) (by simpa using hw)⟩

/-- Histories with the same leakage are alike after renaming the keywords of one of them. -/
theorem exists_rename (D : Finset Str) (n : Nat) (P : List (Op Rand × Op Rand)) (hP : LRules D n P) :
    ∃ τ : Equiv.Perm Str, (∀ a, τ a ∈ D ↔ a ∈ D) ∧ (∀ a, a ∉ D → τ a = a) ∧ Alike (P.map (fun p => (renameOp τ p.1, p.2))) := by
  obtain ⟨hleak, hD, -⟩ := hP
  have hat : ∀ {t : Nat} {a b : Op Rand}, P[t]? = some (a, b) → (P.map Prod.fst)[t]? = some a ∧ (P.map Prod.snd)[t]? = some b := by
    intro t a b h
    simp [h]
  -- a search in both at the same position: the operations on the keyword before
  have hsee : ∀ {s : Nat} {u v : Str} {t : Nat} {a b : Op Rand}, P[s]? = some (Op.search u, Op.search v) → t < s → P[t]? = some (a, b) →
      ((Op.kw a = u → Op.kw b = v ∧ act a = act b) ∧ (Op.kw b = v → Op.kw a = u ∧ act a = act b)) := by
    intro s u v t a b hs hts ht
    obtain ⟨s1, s2⟩ := hat hs
    obtain ⟨t1, t2⟩ := hat ht
    have heq := jleak_at hleak s1 s2
    simp only [jleakOf, Sum.inr.injEq] at heq
    have m1 : ((P.map Prod.fst).take s)[t]? = some a := by rw [List.getElem?_take_of_lt hts, t1]
    have m2 : ((P.map Prod.snd).take s)[t]? = some b := by rw [List.getElem?_take_of_lt hts, t2]
    constructor
    · intro hk
      have := (mem_opsOn u _ 0 t (act a)).mpr ⟨a, t, m1, by omega, hk, rfl⟩
      rw [heq] at this
      obtain ⟨o, k, ho, hk', h3, h4⟩ := (mem_opsOn v _ 0 t (act a)).mp this
      obtain rfl : t = k := by omega
      rw [m2] at ho
      cases ho
      exact ⟨h3, h4.symm⟩
    · intro hk
      have := (mem_opsOn v _ 0 t (act b)).mpr ⟨b, t, m2, by omega, hk, rfl⟩
      rw [← heq] at this
      obtain ⟨o, k, ho, hk', h3, h4⟩ := (mem_opsOn u _ 0 t (act b)).mp this
      obtain rfl : t = k := by omega
      rw [m1] at ho
      cases ho
      exact ⟨h3, h4⟩
  have hkind : ∀ {t : Nat} {a b : Op Rand}, P[t]? = some (a, b) → kind a = kind b := fun h => jleak_kind (jleak_at hleak (hat h).1 (hat h).2)
  have hmem : ∀ {t : Nat} {a b : Op Rand}, P[t]? = some (a, b) → (a, b) ∈ P := fun h => List.mem_iff_getElem?.mpr ⟨_, h⟩
  obtain ⟨τ, hτ, hin, hout⟩ := exists_perm_on D (fun u v => ∃ t : Nat, P[t]? = some (Op.search u, Op.search v))
    (fun u v ⟨t, h⟩ => ⟨(hD _ (hmem h)).1, (hD _ (hmem h)).2⟩)
    (by
      rintro u v v' ⟨s, hs⟩ ⟨s', hs'⟩
      rcases Nat.lt_trichotomy s s' with hlt | rfl | hlt
      · exact ((hsee hs' hlt hs).1 rfl).1
      · rw [hs] at hs'; cases hs'; rfl
      · exact ((hsee hs hlt hs').1 rfl).1.symm)
    (by
      rintro u u' v ⟨s, hs⟩ ⟨s', hs'⟩
      rcases Nat.lt_trichotomy s s' with hlt | rfl | hlt
      · exact ((hsee hs' hlt hs).2 rfl).1
      · rw [hs] at hs'; cases hs'; rfl
      · exact ((hsee hs hlt hs').2 rfl).1.symm)
  refine ⟨τ, hin, hout, alike_of_positions _ ?_⟩
  intro t a' b hab
  rw [List.getElem?_map, Option.map_eq_some_iff] at hab
  obtain ⟨⟨a, b₀⟩, ht, he⟩ := hab
  simp only [Prod.mk.injEq] at he
  obtain ⟨rfl, rfl⟩ := he
  refine ⟨by rw [kind_renameOp]; exact hkind ht, ?_, ?_⟩
  · intro hnone
    rw [kind_renameOp] at hnone
    have hb := hkind ht
    cases a with
    | insert w i r => simp [kind] at hnone
    | remove w i => simp [kind] at hnone
    | search u =>
      cases b₀ with
      | insert w i r => simp [kind] at hb
      | remove w i => simp [kind] at hb
      | search v => simp only [renameOp, hτ u v ⟨t, ht⟩]
  · intro s w hts hs hk
    simp only [List.getElem?_map, Option.map_map] at hs
    rw [Option.map_eq_some_iff] at hs
    obtain ⟨⟨x, y⟩, hxy, hx⟩ := hs
    simp only [Function.comp] at hx
    cases x with
    | insert w i r => simp [renameOp] at hx
    | remove w i => simp [renameOp] at hx
    | search u =>
      have hy := hkind hxy
      cases y with
      | insert w i r => simp [kind] at hy
      | remove w i => simp [kind] at hy
      | search v =>
        simp only [renameOp, Op.search.injEq] at hx
        have huv := hτ u v ⟨s, hxy⟩
        have hwv : w = v := hx.symm.trans huv
        subst hwv
        obtain ⟨g1, g2⟩ := hsee hxy hts ht
        have hboth : Op.kw a = u ∧ Op.kw b₀ = w ∧ act a = act b₀ := by
          rcases hk with hk | hk
          · rw [kw_renameOp, ← hx] at hk
            have := τ.injective hk
            exact ⟨this, g1 this⟩
          · exact ⟨(g2 hk).1, hk, (g2 hk).2⟩
        refine op_ext ?_ ?_
        · rw [kw_renameOp, hboth.1, hx, hboth.2.1]
        · rw [act_renameOp]; exact hboth.2.2

/-! ## Renaming at the end of strings -/

/-- Rename what follows the first `k` characters. -/
def lift (k : Nat) (τ : Str → Str) (s : Str) : Str := if k ≤ s.length then s.take k ++ τ (s.drop k) else s

theorem lift_append (k : Nat) (τ : Str → Str) (p w : Str) (hp : p.length = k) : lift k τ (p ++ w) = p ++ τ w := by
  unfold lift
  rw [if_pos (by simp; omega), List.take_left' hp, List.drop_left' hp]

theorem lift_comp (k : Nat) (τ τ' : Str → Str) (h : ∀ w, τ' (τ w) = w) (s : Str) : lift k τ' (lift k τ s) = s := by
  by_cases hs : k ≤ s.length
  · have h1 : lift k τ s = s.take k ++ τ (s.drop k) := if_pos hs
    rw [h1, lift_append k τ' _ _ (by simp [hs]), h, List.take_append_drop]
  · have h1 : lift k τ s = s := if_neg hs
    rw [h1]; exact if_neg hs

theorem lift_injective (k : Nat) (τ : Equiv.Perm Str) : Function.Injective (lift k τ) :=
  Function.LeftInverse.injective (g := lift k τ.symm) (lift_comp k τ τ.symm (fun w => by simp))

/-- The strings that are a keyword of `D` after `k` characters -/
def ends (k : Nat) (D : Finset Str) : Finset Str :=
  ((Finset.univ : Finset (Vector UInt8 k)) ×ˢ D).image (fun x => x.1.toList ++ x.2)

theorem mem_ends (k : Nat) (D : Finset Str) (s : Str) : s ∈ ends k D ↔ k ≤ s.length ∧ s.drop k ∈ D := by
  unfold ends
  simp only [Finset.mem_image, Finset.mem_product, Finset.mem_univ, true_and, Prod.exists]
  constructor
  · rintro ⟨v, w, hw, rfl⟩
    have hv : v.toList.length = k := by simp
    exact ⟨by simp, by rwa [List.drop_left' hv]⟩
  · rintro ⟨h1, h2⟩
    refine ⟨⟨(s.take k).toArray, by simp [h1]⟩, s.drop k, h2, ?_⟩
    simp [Vector.toList]

theorem lift_mem_ends (k : Nat) (D : Finset Str) (τ : Str → Str) (hin : ∀ a, τ a ∈ D ↔ a ∈ D) (s : Str) :
    lift k τ s ∈ ends k D ↔ s ∈ ends k D := by
  rw [mem_ends, mem_ends]
  by_cases hs : k ≤ s.length
  · have h1 : lift k τ s = s.take k ++ τ (s.drop k) := if_pos hs
    have hk : (s.take k).length = k := by simp [hs]
    rw [h1, List.drop_left' hk, hin]
    simp [hs]
  · have h1 : lift k τ s = s := if_neg hs
    rw [h1]

theorem lift_outside (k : Nat) (D : Finset Str) (τ : Str → Str) (hout : ∀ a, a ∉ D → τ a = a) (s : Str) (hs : s ∉ ends k D) :
    lift k τ s = s := by
  by_cases h : k ≤ s.length
  · have h1 : lift k τ s = s.take k ++ τ (s.drop k) := if_pos h
    rw [h1, hout _ (fun hd => hs ((mem_ends k D s).mpr ⟨h, hd⟩)), List.take_append_drop]
  · exact if_neg h

/-- Values of a random function on `ends k D`, with keywords renamed -/
def renamed {X : Type} (k : Nat) (D : Finset Str) (τ : Str → Str) (hin : ∀ a, τ a ∈ D ↔ a ∈ D) (g : ends k D → X) : ends k D → X :=
  fun s => g ⟨lift k τ s, (lift_mem_ends k D τ hin s).mpr s.2⟩

theorem renamed_injective {X : Type} (k : Nat) (D : Finset Str) (τ : Equiv.Perm Str) (hin : ∀ a, τ a ∈ D ↔ a ∈ D) :
    Function.Injective (renamed (X := X) k D τ hin) := by
  intro g g' h
  funext s
  have hin' : ∀ a, τ.symm a ∈ D ↔ a ∈ D := fun a => by rw [← hin (τ.symm a)]; simp
  have := congrFun h ⟨lift k τ.symm s, (lift_mem_ends k D τ.symm hin' s).mpr s.2⟩
  have hs : lift k τ (lift k τ.symm s) = (s : Str) := lift_comp k τ.symm τ (fun w => by simp) s
  simpa only [renamed, hs] using this

theorem extend_renamed {X : Type} (k : Nat) (D : Finset Str) (τ : Str → Str) (hin : ∀ a, τ a ∈ D ↔ a ∈ D)
    (hout : ∀ a, a ∉ D → τ a = a) (r : Str → X) (g : ends k D → X) (s : Str) :
    extend r (renamed k D τ hin g) s = extend r g (lift k τ s) := by
  unfold extend
  by_cases hs : s ∈ ends k D
  · rw [dif_pos hs, dif_pos ((lift_mem_ends k D τ hin s).mpr hs)]
    rfl
  · rw [dif_neg hs, dif_neg (fun h => hs ((lift_mem_ends k D τ hin s).mp h)), lift_outside k D τ hout s hs]

/-! ## Renaming the commands of the Diana clients -/

/-- Rename the keyword of a command. -/
def renameCmd {V : Type} (f : Str → Str) : Cmd Str V → Cmd Str V
  | .insert w v => .insert (f w) v
  | .search w => .search (f w)

theorem inserted_rename {V : Type} (f : Str → Str) (hf : Function.Injective f) (w : Str) (H : List (Cmd Str V)) : ∀ n,
    insertedFrom (f w) n (H.map (renameCmd f)) = insertedFrom w n H := by
  induction H with
  | nil => intro n; rfl
  | cons x H ih =>
    intro n
    cases x with
    | insert v i => simp [insertedFrom, renameCmd, ih, hf.eq_iff]
    | search v => simp [insertedFrom, renameCmd, ih]

theorem leak_rename_from {V : Type} (f : Str → Str) (hf : Function.Injective f) (H : List (Cmd Str V)) : ∀ past,
    eachFrom leakOf (past.map (renameCmd f)) (H.map (renameCmd f)) = eachFrom leakOf past H := by
  induction H with
  | nil => intro past; rfl
  | cons x H ih =>
    intro past
    have := ih (past ++ [x])
    simp only [List.map_append, List.map_cons, List.map_nil] at this
    simp only [List.map_cons, eachFrom, this]
    congr 1
    cases x with
    | insert v i => rfl
    | search v => simp only [renameCmd, leakOf, Leak.inserted, inserted_rename f hf]

theorem leak_rename {V : Type} (f : Str → Str) (hf : Function.Injective f) (H : List (Cmd Str V)) :
    leak (H.map (renameCmd f)) = leak H := leak_rename_from f hf H []

/-- `c'` is `c` with renamed keywords. -/
structure Renames (τ : Str → Str) (c' c : Crypto PK KS CT Rand) : Prop where
  derive : ∀ s, c'.derive s = c.derive (lift 8 τ s)
  tag : ∀ s, c'.tagPrf s = c.tagPrf (lift 18 τ s)
  kw : ∀ s, c'.kwToken s = c.kwToken (lift 0 τ s)
  encrypt : c'.encrypt = c.encrypt
  incPuncture : c'.incPuncture = c.incPuncture
  initialKeyshare : c'.initialKeyshare = c.initialKeyshare

theorem lift_meta (τ : Str → Str) (w : Str) (e : Nat) : lift 8 τ (metaNat w e) = metaNat (τ w) e :=
  lift_append 8 τ _ w (by simp)

theorem lift_doc (τ : Str → Str) (w : Str) (i : Index) : lift 18 τ (keywordDocString w i) = keywordDocString (τ w) i :=
  lift_append 18 τ _ w (by simp)

theorem lift_zero (τ : Str → Str) (w : Str) : lift 0 τ w = τ w := by simp [lift]

theorem cells_rename (τ : Equiv.Perm Str) {E E' : Str → Cell} (h : ∀ w, E' (τ w) = E w) (o : Op Rand) (w : Str) :
    cellStep E' (renameOp τ o) (τ w) = cellStep E o w := by
  cases o <;> simp [cellStep, renameOp, h]

theorem parts_rename (τ : Equiv.Perm Str) {c' c : Crypto PK KS CT Rand} (hc : Renames τ c' c) (H : List (Op Rand)) :
    ∀ (E E' : Str → Cell), (∀ w, E' (τ w) = E w) →
      insCmds c E' (H.map (renameOp τ)) = (insCmds c' E H).map (renameCmd (lift 8 τ)) ∧
      delCmds c E' (H.map (renameOp τ)) = (delCmds c' E H).map (renameCmd (lift 8 τ)) ∧
      restOf c E' (H.map (renameOp τ)) = restOf c' E H := by
  induction H with
  | nil => intro E E' _; exact ⟨rfl, rfl, rfl⟩
  | cons o H ih =>
    intro E E' h
    obtain ⟨i1, i2, i3⟩ := ih (cellStep E o) (cellStep E' (renameOp τ o)) (fun w => cells_rename τ h o w)
    cases o with
    | insert w i r =>
      simp only [renameOp] at i1 i2 i3
      refine ⟨?_, ?_, ?_⟩
      · simp only [List.map_cons, renameOp, insCmds, i1, renameCmd, lift_meta, h, hc.derive, hc.encrypt, docTag, hc.tag, lift_doc]
      · simp only [List.map_cons, renameOp, delCmds, i2]
      · simp only [List.map_cons, renameOp, restOf, i3]
    | remove w i =>
      simp only [renameOp] at i1 i2 i3
      refine ⟨?_, ?_, ?_⟩
      · simp only [List.map_cons, renameOp, insCmds, i1]
      · simp only [List.map_cons, renameOp, delCmds, i2, renameCmd, lift_meta, h, hc.derive, hc.incPuncture, docTag, hc.tag, lift_doc]
      · simp only [List.map_cons, renameOp, restOf, i3]
    | search w =>
      simp only [renameOp] at i1 i2 i3
      refine ⟨?_, ?_, ?_⟩
      · simp only [List.map_cons, renameOp, insCmds, i1, renameCmd, lift_meta, h]
      · simp only [List.map_cons, renameOp, delCmds, i2, renameCmd, lift_meta, h]
      · simp only [List.map_cons, renameOp, restOf, i3, h, hc.kw, hc.derive, hc.initialKeyshare, lift_meta, lift_zero]

/-! ## The theorem -/

/-- Keys of puncturable encryption for meta keywords, keyword tokens, and tags (janus_client.cpp L44-71): functions on all strings
of the right length that end with a keyword of the dictionary -/
abbrev Functions (D : Finset Str) (PK : Type) := (ends 8 D → PK) × (ends 0 D → Vector UInt8 16) × (ends 18 D → Tag)

/-- All choices -/
abbrev WholeChoice (U D : Finset Str) (PK KS CT : Type) := FullChoice U KS CT × Functions D PK

/-- With the chosen functions -/
@[reducible] def chosen {D : Finset Str} (R : Fixed PK KS CT Rand) (g : Functions D PK) : Fixed PK KS CT Rand :=
  { R with rest := { R.rest with derive := extend R.rest.derive g.1, kwToken := extend R.rest.kwToken g.2.1,
                                 tagPrf := extend R.rest.tagPrf g.2.2 } }

/-- What the server sees of a history -/
def whole {U D : Finset Str} (R : Fixed PK KS CT Rand) (ω : WholeChoice U D PK KS CT) (ops : List (Op Rand)) : List (Sight KS CT) :=
  sights (chosen R ω.2) ω.1 ops

/-- For pairs with the same leakage, there is a permutation of the choices that turns the one view into the other. -/
theorem exists_perm_whole {U : Finset Str} (R : Fixed PK KS CT Rand) (D : Finset Str) (n : Nat) (hn : n < 2 ^ 32)
    (P : List (Op Rand × Op Rand)) (hP : LRules D n P) :
    ∃ π : WholeChoice U D PK KS CT → WholeChoice U D PK KS CT, Function.Injective π ∧ (∀ ω, (π ω).1.1.1 = ω.1.1.1) ∧
      ∀ ω, ¬ JBad R D n ω.1 → whole R (π ω) (P.map Prod.fst) = whole R ω (P.map Prod.snd) ∧
        ∀ x, Told (chosen R ω.2) D n ω.1 (P.map Prod.snd) x → tokensMasks (π ω).1 x = tokensMasks ω.1 x := by
  obtain ⟨τ, hin, hout, halike⟩ := exists_rename D n P hP
  obtain ⟨-, hD, hl⟩ := hP
  have h0 : Epochs noCells 0 := fun _ => Nat.le_refl _
  have hk : ∀ f : Op Rand × Op Rand → Op Rand, (∀ p ∈ P, Op.kw (f p) ∈ D) → ∀ o ∈ P.map f, Op.kw o ∈ D := by
    intro f hf o ho
    obtain ⟨p, hp, rfl⟩ := List.mem_map.mp ho
    exact hf p hp
  let ren : Functions D PK → Functions D PK := fun g => (renamed 8 D τ hin g.1, renamed 0 D τ hin g.2.1, renamed 18 D τ hin g.2.2)
  have hren : Function.Injective ren := by
    rintro ⟨a, b, c⟩ ⟨a', b', c'⟩ h
    simp only [ren, Prod.mk.injEq] at h
    rw [renamed_injective 8 D τ hin h.1, renamed_injective 0 D τ hin h.2.1, renamed_injective 18 D τ hin h.2.2]
  have hex : ∀ g : Functions D PK, ∃ (φ : (U → Diana.Token) → (Diana.Leaf × Pos → Diana.Leaf) → Secrets CT → Secrets CT)
      (χ : (U → Diana.Token) → (Diana.Leaf × Pos → Diana.Leaf) → Secrets KS → Secrets KS),
      (∀ h e, Function.Injective (φ h e)) ∧ (∀ h e, Function.Injective (χ h e)) ∧
      ∀ ω : FullChoice U KS CT, ¬ JBad R D n ω →
        sights (chosen R (ren g)) ((ω.1.1, φ ω.1.1 ω.2.1 ω.1.2.1, χ ω.1.1 ω.2.2 ω.1.2.2), ω.2) (P.map Prod.fst) =
          sights (chosen R g) ω (P.map Prod.snd) ∧
        ∀ x, Told (chosen R g) D n ω (P.map Prod.snd) x →
          tokensMasks (((ω.1.1, φ ω.1.1 ω.2.1 ω.1.2.1, χ ω.1.1 ω.2.2 ω.1.2.2), ω.2) : FullChoice U KS CT) x = tokensMasks ω x := by
    intro g
    have hc : Renames τ (chosen R (ren g)).rest (chosen R g).rest := by
      refine ⟨fun s => ?_, fun s => ?_, fun s => ?_, rfl, rfl, rfl⟩
      · have := extend_renamed 8 D τ hin hout R.rest.derive g.1 s
        simpa only [chosen, ren] using this
      · have := extend_renamed 18 D τ hin hout R.rest.tagPrf g.2.2 s
        simpa only [chosen, ren] using this
      · have := extend_renamed 0 D τ hin hout R.rest.kwToken g.2.1 s
        simpa only [chosen, ren] using this
    obtain ⟨q1, q2, q3⟩ := parts_rename τ hc (P.map Prod.fst) noCells noCells (fun _ => rfl)
    obtain ⟨p1, p2, p3⟩ := alike_parts (chosen R g).rest _ noCells noCells 0 halike (fun _ _ => rfl) h0 h0 (by simp; omega)
    have e1 : (P.map (fun p => (renameOp τ p.1, p.2))).map Prod.fst = (P.map Prod.fst).map (renameOp τ) := by simp [Function.comp_def]
    have e2 : (P.map (fun p => (renameOp τ p.1, p.2))).map Prod.snd = P.map Prod.snd := by simp [Function.comp_def]
    rw [e1, e2] at p1 p2 p3
    exact exists_rekey_janus (U := U) (chosen R g) (chosen R (ren g)).rest D n hn _ _ (hk Prod.fst (fun p hp => (hD p hp).1))
      (hk Prod.snd (fun p hp => (hD p hp).2)) (by simpa using hl) (by simpa using hl)
      (by rw [← leak_alike p1, q1, leak_rename _ (lift_injective 8 τ)])
      (by rw [← leak_alike p2, q2, leak_rename _ (lift_injective 8 τ)]) (by rw [← p3, q3])
  choose φ χ hφ hχ h using hex
  refine ⟨fun ω => (((ω.1.1.1, φ ω.2 ω.1.1.1 ω.1.2.1 ω.1.1.2.1, χ ω.2 ω.1.1.1 ω.1.2.2 ω.1.1.2.2), ω.1.2), ren ω.2), ?_, fun _ => rfl, ?_⟩
  · rintro ⟨⟨⟨h, ki, kd⟩, e, e'⟩, g⟩ ⟨⟨⟨h', ki', kd'⟩, f, f'⟩, g'⟩ he
    simp only [Prod.mk.injEq] at he
    obtain ⟨⟨⟨rfl, h1, h2⟩, rfl, rfl⟩, hg⟩ := he
    obtain rfl := hren hg
    rw [hφ g h e h1, hχ g h e' h2]
  · intro ω hω
    exact h ω.2 ω.1 hω

/-- **C82** (Janus): a strategy that sees what the server sees, and chooses pairs of operations with the same leakage, finds out which
component is executed with an advantage of at most twice the bound for the dictionary. Updates reveal only their kind until their
keyword is searched; a search reveals the earlier operations on the same keyword (positions, documents, randomness of encryption), but neither the
keyword nor anything about other keywords. -/
theorem C82_janus [Fintype PK] [Nonempty PK] [Fintype KS] [Fintype CT] {U : Finset Str} (R : Fixed PK KS CT Rand) (D : Finset Str)
    (n : Nat) (hn : n < 2 ^ 32) (hU : metaSet D n ⊆ U) (σ : List (Sight KS CT) → Option (Op Rand × Op Rand)) (steps : Nat)
    (E : List (Sight KS CT) → Prop) :
    |prob (fun ω : WholeChoice U D PK KS CT => E (whole R ω
          ((play (LRules D n) σ (fun P => whole R ω (P.map Prod.fst)) steps).map Prod.fst))) -
        prob (fun ω : WholeChoice U D PK KS CT => E (whole R ω
          ((play (LRules D n) σ (fun P => whole R ω (P.map Prod.snd)) steps).map Prod.snd)))| ≤
      2 * hidingBound (D.card * (n + 1)) (D.card * (n + 1) * n) := by
  classical
  have hex : ∀ P : List (Op Rand × Op Rand), ∃ π : WholeChoice U D PK KS CT → WholeChoice U D PK KS CT,
      LRules D n P → Function.Injective π ∧
        ∀ ω, ¬ JBad R D n ω.1 → whole R (π ω) (P.map Prod.fst) = whole R ω (P.map Prod.snd) := by
    intro P
    by_cases hP : LRules D n P
    · obtain ⟨π, hπ⟩ := exists_perm_whole (U := U) R D n hn P hP
      exact ⟨π, fun _ => ⟨hπ.1, fun ω hω => (hπ.2.2 ω hω).1⟩⟩
    · exact ⟨id, fun h => absurd h hP⟩
  choose π hπ using hex
  have hpre : ∀ (f : Op Rand × Op Rand → Op Rand) (ω : WholeChoice U D PK KS CT) P Q, Q <+: P →
      whole R ω (Q.map f) = (whole R ω (P.map f)).take Q.length := by
    intro f ω P Q h
    unfold whole
    rw [← sights_take, ← List.map_take, ← List.prefix_iff_eq_take.mp h]
  have : Nonempty CT := ⟨R.ins.zero⟩
  have : Nonempty KS := ⟨R.del.zero⟩
  exact le_trans (adaptive_dist (allowed := LRules D n) ⟨rfl, fun _ h => absurd h List.not_mem_nil, Nat.zero_le _⟩
    (fun (ω : WholeChoice U D PK KS CT) P => whole R ω (P.map Prod.fst))
    (fun ω P => whole R ω (P.map Prod.snd)) (hpre Prod.fst) (hpre Prod.snd) π (fun P hP => (hπ P hP).1)
    (fun ω => JBad R D n ω.1) (fun P hP => (hπ P hP).2) σ steps E)
    (prob_first_le (Ω₂ := Functions D PK) (prob_jbad_le R D n hU))

/-- Two histories with the same leakage, as pairs -/
theorem rules_zip {D : Finset Str} {n : Nat} {H H' : List (Op Rand)} (hleak : jleak H = jleak H') (hD : ∀ o ∈ H, Op.kw o ∈ D)
    (hD' : ∀ o ∈ H', Op.kw o ∈ D) (hl : H.length ≤ n) :
    ∃ P : List (Op Rand × Op Rand), H = P.map Prod.fst ∧ H' = P.map Prod.snd ∧ LRules D n P := by
  have hlen : H.length = H'.length := by
    have h : ∀ (L past : List (Op Rand)), (jleakFrom past L).length = L.length := by
      intro L
      induction L with
      | nil => intro past; rfl
      | cons o L ih => intro past; simp [jleakFrom, ih]
    have := congrArg List.length hleak
    rwa [jleak, jleak, h, h] at this
  have e1 : (H.zip H').map Prod.fst = H := List.map_fst_zip (by omega)
  have e2 : (H.zip H').map Prod.snd = H' := List.map_snd_zip (by omega)
  refine ⟨H.zip H', e1.symm, e2.symm, by rw [e1, e2, hleak], fun p hp => ?_, by simp; omega⟩
  exact ⟨hD _ (List.of_mem_zip hp).1, hD' _ (List.of_mem_zip hp).2⟩

/-- **C79** (Janus): an observer of the server distinguishes two histories with the same leakage with an advantage of at most twice the bound
for the dictionary. -/
theorem C79_janus [Fintype PK] [Nonempty PK] [Fintype KS] [Fintype CT] {U : Finset Str} (R : Fixed PK KS CT Rand) (D : Finset Str)
    (H H' : List (Op Rand)) (hleak : jleak H = jleak H') (hD : ∀ o ∈ H, Op.kw o ∈ D) (hD' : ∀ o ∈ H', Op.kw o ∈ D)
    (n : Nat) (hl : H.length ≤ n) (hn : n < 2 ^ 32) (hU : metaSet D n ⊆ U) (E : List (Sight KS CT) → Prop) :
    |prob (fun ω : WholeChoice U D PK KS CT => E (whole R ω H)) - prob (fun ω : WholeChoice U D PK KS CT => E (whole R ω H'))| ≤
      2 * hidingBound (D.card * (n + 1)) (D.card * (n + 1) * n) := by
  obtain ⟨P, rfl, rfl, hP⟩ := rules_zip hleak hD hD' hl
  obtain ⟨π, hπ, -, h⟩ := exists_perm_whole (U := U) R D n hn _ hP
  exact le_trans (prob_dist_le (Finite.injective_iff_bijective.mp hπ) (fun ω => whole R ω (P.map Prod.fst))
    (fun ω => whole R ω (P.map Prod.snd)) (fun ω => JBad R D n ω.1) (fun ω hω => (h ω hω).1) E)
    (prob_first_le (Ω₂ := Functions D PK) (prob_jbad_le R D n hU))

/-! ## An instance -/

/-- Two histories with the same leakage: the keyword "a" in the one plays the part of "b" in the other. -/
example (E : List (Sight Tag Tag) → Prop) :
    |prob (fun ω : WholeChoice (metaSet {[97], [98], [99]} 4) {[97], [98], [99]} Unit Tag Tag => E (whole sampleFixed ω
          [.insert [97] 5 (), .insert [99] 1 (), .remove [97] 5, .search [97]])) -
        prob (fun ω : WholeChoice (metaSet {[97], [98], [99]} 4) {[97], [98], [99]} Unit Tag Tag => E (whole sampleFixed ω
          [.insert [98] 5 (), .insert [97] 2 (), .remove [98] 5, .search [98]]))| ≤ 2 * hidingBound (3 * 5) (3 * 5 * 4) :=
  C79_janus sampleFixed {[97], [98], [99]} _ _ (by decide) (by decide) (by decide) 4 (by decide) (by decide)
    (Finset.Subset.refl _) E

/-- The same leakage: the keyword "a" in the one history plays the part of "b" in the other until it is searched; what is done with
other keywords is different. -/
example : LRules (Rand := Unit) {[97], [98], [99]} 5 [(.insert [97] 5 (), .insert [98] 5 ()), (.insert [99] 1 (), .insert [97] 2 ()),
    (.remove [97] 5, .remove [98] 5), (.search [97], .search [98]), (.insert [97] 6 (), .insert [97] 7 ())] := by
  refine ⟨by decide, by decide, by decide⟩

/-- A search for a keyword used before is not the same as one for a keyword not used. -/
example : ¬ LRules (Rand := Unit) {[97], [98]} 5 [(.search [97], .search [98]), (.search [97], .search [97])] := by
  intro h
  exact absurd h.1 (by decide)

/-- A strategy that looks at the update token of its first insertion to choose how it goes on -/
def sampleGame (seen : List (Sight Tag Tag)) : Option (Op Unit × Op Unit) :=
  match seen with
  | [] => some (.insert [97] 5 (), .insert [98] 5 ())
  | [(.insert t _, _)] => if t[0] = 0 then some (.search [97], .search [98]) else some (.remove [97] 5, .remove [99] 5)
  | [_, (.search _ _ _ _, _)] => some (.insert [97] 6 (), .insert [99] 7 ())
  | _ => none

/-- Its advantage is small. -/
example (E : List (Sight Tag Tag) → Prop) :
    |prob (fun ω : WholeChoice (metaSet {[97], [98], [99]} 3) {[97], [98], [99]} Unit Tag Tag => E (whole sampleFixed ω
          ((play (LRules {[97], [98], [99]} 3) sampleGame (fun P => whole sampleFixed ω (P.map Prod.fst)) 3).map Prod.fst))) -
        prob (fun ω : WholeChoice (metaSet {[97], [98], [99]} 3) {[97], [98], [99]} Unit Tag Tag => E (whole sampleFixed ω
          ((play (LRules {[97], [98], [99]} 3) sampleGame (fun P => whole sampleFixed ω (P.map Prod.snd)) 3).map Prod.snd)))| ≤
      2 * hidingBound (3 * 4) (3 * 4 * 3) :=
  C82_janus sampleFixed {[97], [98], [99]} 3 (by decide) (Finset.Subset.refl _) sampleGame 3 E

end Verif.Ideal.Janus
