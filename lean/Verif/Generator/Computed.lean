import Verif.Generator.RandLemmas
import Verif.Fp.SizeLemmas

/-!
# The numbers of groups and the thresholds of the generator

The values which `Params` leaves open, as lib/utils/db_generator.cpp L118-155 computes them.
-/

namespace Verif.Generator

open Verif.Fp

/-- The fraction given to `optimal_num_group` (L118-127) -/
def RandId.fraction : RandId → ℚ
  | .r2 => zeroPointNine
  | _ => 1

/-- The constant in `r_threshold_2`, ... (L141-155) -/
def RandId.factor : RandId → ℚ
  | .r2 => onePointFour
  | _ => onePointTwo

/-- `n_groups_2`, ... (L118-127) for `step` threads; `none` is undefined behaviour -/
def groupsOf (p entries step : ℕ) (r : RandId) : Option ℕ := numGroups p r.fraction entries step r.size.toNat

/-- The parameters computed by a thread (L118-155), `p` bits in a `long double` -/
def Params.computed (p : ℕ) (entries : UInt64) (threads : UInt32) : Params where
  entries := entries
  nGroups r := UInt64.ofNat ((groupsOf p entries.toNat threads.toNat r).getD 0)
  below r ind := decide (draw ind.toNat <
    threshold p r.factor (UInt64.ofNat ((groupsOf p entries.toNat threads.toNat r).getD 0)).toNat r.size.toNat
      threads.toNat entries.toNat)
  below_groups := by
    intro r ind h e
    rw [e] at h
    have h := of_decide_eq_true h
    have e0 : (0 : UInt64).toNat = 0 := rfl
    rw [e0, threshold_zero] at h
    exact absurd (draw_nonneg ind.toNat) (not_le.mpr h)

/-! ## Lemmas -/

theorem stepRand_small (P : Params) (r : RandId) (tid : UInt32) (ind : UInt64) (c : UInt32)
    (table t : List UInt64) (ins : List String) (h : stepRand P r tid ind c table = .ok (t, ins)) :
    ∀ kw ∈ ins, ∃ (r : RandId) (g : ℕ), g < 65536 ∧ kw = s!"{r.base}{tid.toNat}_{g}" := by
  unfold stepRand at h
  split at h
  · split at h
    · cases h
    · dsimp only at h
      split at h
      · cases h
      split at h
      · cases h
        intro kw hk
        rw [List.mem_singleton] at hk
        exact ⟨r, _, UInt16.toNat_lt _, hk⟩
      · cases h
        simp
  · cases h
    simp

theorem stepRands_small (P : Params) (tid : UInt32) (ind : UInt64) (groups : GroupId → GroupState) (rs : List RandId) :
    ∀ (tables t : RandId → List UInt64) (ins : List String), stepRands P tid ind groups rs tables = .ok (t, ins) →
    ∀ kw ∈ ins, ∃ (r : RandId) (g : ℕ), g < 65536 ∧ kw = s!"{r.base}{tid.toNat}_{g}" := by
  induction rs with
  | nil =>
    intro tables t ins h
    cases h
    simp
  | cons r rs ih =>
    intro tables t ins h
    unfold stepRands at h
    split at h
    · cases h
    rename_i t1 ins1 h1
    split at h
    · cases h
    rename_i t2 ins2 h2
    cases h
    intro kw hk
    rcases List.mem_append.mp hk with hk | hk
    · exact stepRand_small P r tid ind _ _ _ _ h1 kw hk
    · exact ih _ _ _ h2 kw hk

/-- A thread reports no random group with a number above 65535. -/
theorem loop_small (P : Params) (tid n : UInt32) (rnd : Nat → UInt64) (hn : 0 < n.toNat)
    (hfit : P.entries.toNat + n.toNat ≤ 2 ^ 64) (r0 : RandId) (t0 g : Nat) (hg : 65536 ≤ g) (s : St) (L : List Action)
    (h : Loop P tid n.toUInt64 rnd s L) (k : Nat) (hinv : Inv P tid n k s) :
    s!"{r0.base}{t0}_{g}" ∉ (callbacks L).map (·.1) := by
  induction h generalizing k with
  | done s h => simp [callbacks]
  | iter s s' acts rest h hi _ ih =>
    have hlt := UInt64.lt_iff_toNat_lt.mp h
    have hle : k ≤ k * n.toNat := Nat.le_mul_of_pos_right k hn
    have hc := hinv.counter
    obtain ⟨s1, acts1, e1, hinv1, -⟩ := iter_ok P tid n k s (rnd s.draws) hinv h hfit (by omega)
    obtain ⟨ins, f1, f2⟩ := iter_callbacks P tid n k s s' _ acts hinv (by omega) hi
    rw [hi] at e1
    obtain ⟨rfl, rfl⟩ := Prod.mk.inj (Except.ok.inj e1)
    have g1 := ih (k + 1) hinv1
    rw [callbacks_append, List.map_append, List.mem_append, f2, List.map_map]
    rw [show (fun x : String × UInt64 => x.1) ∘ (fun kw => (kw, rnd s.draws)) = id from rfl, List.map_id,
      List.mem_append]
    rintro ((hm | hm) | hm)
    · exact List.count_eq_zero.mp (count_keywords_rand r0 t0 g _ _ _) hm
    · obtain ⟨r, g', hl, e⟩ := stepRands_small P tid _ _ _ _ _ _ f1 _ hm
      have := (rand_keyword_inj r0 r e).2.2
      omega
    · exact g1 hm

end Verif.Generator
