import Verif.Tethys.Scheme
import Verif.Common.Bytes
import Mathlib.Data.List.Nodup
import Mathlib.Data.List.Pairwise

/-!
# The keys of the blocks

The hypotheses of the theorems on Tethys and Pluto are about the pseudo-random function and the hash
function only: the tokens of the keywords are distinct, and the hash function has no collision on the
byte strings it is applied to.  That the keys of all blocks are then distinct is proved here.
-/

namespace Verif.Tethys

/-- What is hashed for block `i` of the list with token `t`: the token and the eight bytes of `i`. -/
def Spec.blockInput (t : Token) (i : Nat) : List UInt8 :=
  t.toList ++ (List.range 8).map (fun k => UInt8.ofNat (i / 256 ^ k))

/-- What is hashed for an index, when `count x` keys are used for the list `x`. -/
def Spec.inputs {W : Type} (prf : W → Token) (count : W × List Index → Nat)
    (index : List (W × List Index)) : List (List UInt8) :=
  index.flatMap (fun x => (List.range (count x)).map (Spec.blockInput (prf x.1)))

theorem leBytes_eight (i : Nat) :
    leBytes 8 i = (List.range 8).map (fun k => UInt8.ofNat (i / 256 ^ k)) := by
  have h : ∀ x : Nat, UInt8.ofNat (x % 256) = UInt8.ofNat x := by
    intro x; apply UInt8.toNat_inj.mp; simp
  simp [leBytes, List.range_succ, Nat.div_div_eq_div_mul, h]

theorem deriveCoreKey_input (H : List UInt8 → CoreKey) (t : Token) (i : Nat) :
    deriveCoreKey H t i = H (Spec.blockInput t i) := by
  unfold deriveCoreKey Spec.blockInput
  rw [leBytes_eight]

theorem blockInput_inj {t u : Token} {i j : Nat} (hi : i < 2 ^ 64) (hj : j < 2 ^ 64)
    (h : Spec.blockInput t i = Spec.blockInput u j) : t = u ∧ i = j := by
  unfold Spec.blockInput at h
  rw [← leBytes_eight, ← leBytes_eight] at h
  obtain ⟨h1, h2⟩ := List.append_inj h (by simp)
  exact ⟨Vector.toList_inj.mp h1, leBytes_injective (by omega) (by omega) h2⟩

theorem inputs_nodup {W : Type} (prf : W → Token) (count : W × List Index → Nat)
    (index : List (W × List Index)) (ht : (index.map (fun x => prf x.1)).Nodup)
    (hc : ∀ x ∈ index, count x ≤ 2 ^ 64) : (Spec.inputs prf count index).Nodup := by
  unfold Spec.inputs
  rw [List.nodup_flatMap]
  constructor
  · intro x hx
    apply List.Nodup.map_on _ List.nodup_range
    intro i hi j hj h
    rw [List.mem_range] at hi hj
    have := hc x hx
    exact (blockInput_inj (by omega) (by omega) h).2
  · have hp := List.pairwise_map.mp ht
    refine List.Pairwise.imp_of_mem ?_ hp
    intro x y hx hy hxy a ha hb
    obtain ⟨i, hi, rfl⟩ := List.mem_map.mp ha
    obtain ⟨j, hj, h⟩ := List.mem_map.mp hb
    rw [List.mem_range] at hi hj
    have := hc x hx
    have := hc y hy
    exact hxy (blockInput_inj (by omega) (by omega) h).1.symm

theorem map_inputs {W : Type} (prf : W → Token) (H : List UInt8 → CoreKey)
    (count : W × List Index → Nat) (index : List (W × List Index)) :
    index.flatMap (fun x => (List.range (count x)).map (fun i => deriveCoreKey H (prf x.1) i)) =
      (Spec.inputs prf count index).map H := by
  unfold Spec.inputs
  rw [List.map_flatMap]
  congr 1
  funext x
  rw [List.map_map]
  apply List.map_congr_left
  intro i _
  exact deriveCoreKey_input H _ i

/-- Distinct tokens and no collision of the hash function: the keys of the blocks are distinct. -/
theorem keys_nodup {W : Type} (prf : W → Token) (H : List UInt8 → CoreKey)
    (count : W × List Index → Nat) (index : List (W × List Index))
    (ht : (index.map (fun x => prf x.1)).Nodup) (hc : ∀ x ∈ index, count x ≤ 2 ^ 64)
    (hH : ∀ a ∈ Spec.inputs prf count index, ∀ b ∈ Spec.inputs prf count index, H a = H b → a = b) :
    (index.flatMap (fun x => (List.range (count x)).map (fun i => deriveCoreKey H (prf x.1) i))).Nodup := by
  rw [map_inputs]
  exact List.Nodup.map_on (fun a ha b hb h => hH a ha b hb h) (inputs_nodup prf count index ht hc)

end Verif.Tethys
