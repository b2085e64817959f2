import Verif.Sophos.Props
import Verif.Sophos.HidingLemmas
import Verif.Leak.Core

/-!
# C62: what the messages of Sophos reveal

The messages that the client sends in a history of insertions and searches depend only on the leakage of the history
(`Leak.leak`), up to a permutation of the keys (`C62_sophos_hiding`); in particular insertions made after all the searches
reveal their number only, even for keywords searched before (`C62_sophos_forward`).
-/

namespace Verif.Sophos

open Verif Leak

variable {Kw Seed ST DK : Type} [DecidableEq Kw]

/-- The messages that the client sends (`insertion_request`, `search_request`, sophos_client.cpp L83-169) -/
def transcript (c : Crypto Kw Seed ST DK) (garbage : ST × DK) : Map Kw UInt32 → List (Cmd Kw Index) →
    List (Msg Token Index (SearchReq ST DK))
  | _, [] => []
  | m, .insert w i :: H =>
    let (r, m') := insertionRequest c m w i
    .update r.token r.index :: transcript c garbage m' H
  | m, .search w :: H => .search (searchRequest c garbage m w) :: transcript c garbage m H

/-- The secret functions: the first search token and the derivation key of each keyword, and the pseudo-random function that gives
tokens and masks -/
abbrev Secret (Seed ST DK : Type) := (Seed → ST) × (Seed → DK) × (DK → ST → Bool → Token)

/-- The cryptography with other secret functions -/
def withSecret (c : Crypto Kw Seed ST DK) (k : Secret Seed ST DK) : Crypto Kw Seed ST DK :=
  { c with gen := k.1, dkey := k.2.1, prf := k.2.2 }

namespace Spec

/-- The point at which the pseudo-random function is evaluated for the insertion number `a` for `w` -/
def point (c : Crypto Kw Seed ST DK) (w : Kw) (a : Nat) : DK × ST := (c.dkey (c.hash w), c.inv^[a] (c.gen (c.hash w)))

/-- The points of the insertions of a history are distinct. -/
def PointsDistinct (c : Crypto Kw Seed ST DK) (H : List (Cmd Kw Index)) : Prop :=
  ∀ m n w a v b, SlotAt H m w a → SlotAt H n v b → point c w a = point c v b → m = n

/-- The point of an insertion for a keyword that is not searched afterwards -/
def Hidden (c : Crypto Kw Seed ST DK) (H : List (Cmd Kw Index)) (x : DK × ST) : Prop :=
  ∃ m w a, HiddenAt H m w a ∧ x = point c w a

/-- The keywords searched have different seeds. -/
def SeedsDistinct (c : Crypto Kw Seed ST DK) (H : List (Cmd Kw Index)) : Prop :=
  ∀ (m n : Nat) (w v : Kw), H[m]? = some (.search w) → H[n]? = some (.search v) → c.hash w = c.hash v → w = v

/-- Fewer than `2 ^ 32` insertions for each keyword -/
def CountsFit (H : List (Cmd Kw Index)) : Prop := ∀ w, count w H < 2 ^ 32

end Spec

/-! ## The messages in the form of `Leak.Core` -/

/-- The secret functions in the form of `Leak.Keys` -/
def secretEquiv : Secret Seed ST DK ≃ Keys Seed (ST × DK) (DK × ST) Token Token where
  toFun k := (fun s => (k.1 s, k.2.1 s), fun x => (k.2.2 x.1 x.2 false, k.2.2 x.1 x.2 true))
  invFun k := (fun s => (k.1 s).1, fun s => (k.1 s).2, fun d s b => if b then (k.2 (d, s)).2 else (k.2 (d, s)).1)
  left_inv k := by
    obtain ⟨g, d, F⟩ := k
    simp only [Prod.mk.injEq, true_and]
    funext x y b
    cases b <;> rfl
  right_inv k := by
    obtain ⟨g, F⟩ := k
    rfl

theorem count_snoc_insert (w v : Kw) (i : Index) (past : List (Cmd Kw Index)) :
    count w (past ++ [.insert v i]) = if v = w then count w past + 1 else count w past := by
  unfold count inserted
  rw [insertedFrom_append]
  by_cases h : v = w <;> simp [insertedFrom, h]

theorem count_snoc_search (w v : Kw) (past : List (Cmd Kw Index)) :
    count w (past ++ [.search v]) = count w past := by
  unfold count inserted
  rw [insertedFrom_append]
  simp [insertedFrom]

theorem count_append_le (w : Kw) (past H : List (Cmd Kw Index)) : count w past ≤ count w (past ++ H) := by
  unfold count inserted
  rw [insertedFrom_append, List.length_append]
  omega

theorem transcript_eq (c : Crypto Kw Seed ST DK) (garbage : ST × DK) (H : List (Cmd Kw Index)) :
    ∀ (past : List (Cmd Kw Index)) (m : Map Kw UInt32), (∀ w, m w = Counter.counterOf (count w past)) →
      Spec.CountsFit (past ++ H) →
      transcript c garbage m H = eachFrom (msgOf c.hash (fun x a => (x.2, c.inv^[a] x.1)) mask
        (fun x n => ⟨c.inv^[n - 1] x.1, x.2, UInt32.ofNat n⟩) ⟨garbage.1, garbage.2, 0⟩
        (secretEquiv (c.gen, c.dkey, c.prf))) past H := by
  induction H with
  | nil => intro past m _ _; rfl
  | cons o H ih =>
    intro past m hm hfit
    have hfit' : Spec.CountsFit ((past ++ [o]) ++ H) := by
      rw [List.append_assoc]; exact hfit
    cases o with
    | insert w i =>
      have hlt : count w past < 2 ^ 32 := Nat.lt_of_le_of_lt (count_append_le w past _) (hfit w)
      unfold transcript eachFrom insertionRequest
      rw [Counter.getAndIncrement_spec m w _ (hm w)]
      simp only
      rw [requestFor_spec, Nat.mod_eq_of_lt hlt]
      congr 1
      apply ih _ _ _ hfit'
      intro v
      rw [count_snoc_insert]
      by_cases hv : w = v
      · subst hv
        simp [Counter.counterOf]
      · rw [if_neg hv, Map.put_of_ne _ _ (Ne.symm hv), hm v]
    | search w =>
      have hlt : count w past < 2 ^ 32 := Nat.lt_of_le_of_lt (count_append_le w past _) (hfit w)
      unfold transcript eachFrom
      congr 1
      · unfold msgOf searchRequest Counter.get
        rw [hm w]
        unfold Counter.counterOf
        by_cases h0 : count w past = 0
        · simp [h0]
        · rw [if_neg h0]
          dsimp only
          rw [if_neg h0]
          have h1 : (UInt32.ofNat (count w past - 1)).toNat = count w past - 1 := by
            rw [UInt32.toNat_ofNat']
            exact Nat.mod_eq_of_lt (by omega)
          have h2 : UInt32.ofNat (count w past - 1) + 1 = UInt32.ofNat (count w past) := by
            conv => rhs; rw [show count w past = (count w past - 1) + 1 by omega]
            simp [UInt32.ofNat_add]
          rw [h1, h2]
          rfl
      · apply ih _ _ _ hfit'
        intro v
        rw [count_snoc_search]
        exact hm v

/-! ## C62 -/

/-- The permutation of `C62_sophos_hiding`, with what it does to tokens and derivation keys: they are permuted among the keywords that are
searched. -/
theorem exists_rekey (c : Crypto Kw Seed ST DK) (garbage : ST × DK) (H H' : List (Cmd Kw Index))
    (hleak : leak H = leak H') (hfit : Spec.CountsFit H) (hfit' : Spec.CountsFit H') (hs : Spec.SeedsDistinct c H)
    (hs' : Spec.SeedsDistinct c H') :
    ∃ φ : Secret Seed ST DK → Secret Seed ST DK, Function.Bijective φ ∧
      ((∀ (n : Nat) (w w' : Kw), H[n]? = some (.search w) → H'[n]? = some (.search w') → w = w') →
        ∀ k, (φ k).1 = k.1 ∧ (φ k).2.1 = k.2.1) ∧
      (∃ σ : Equiv.Perm Seed,
        (∀ s, (∀ (n : Nat) (w : Kw), H[n]? = some (.search w) ∨ H'[n]? = some (.search w) → c.hash w ≠ s) → σ s = s) ∧
        ∀ k, (φ k).1 = k.1 ∘ σ ∧ (φ k).2.1 = k.2.1 ∘ σ) ∧
      ∀ k, Spec.PointsDistinct (withSecret c (φ k)) H → Spec.PointsDistinct (withSecret c k) H' →
        transcript (withSecret c (φ k)) garbage Map.empty H = transcript (withSecret c k) garbage Map.empty H' ∧
        ∀ d s, ¬ Spec.Hidden (withSecret c (φ k)) H (d, s) → ¬ Spec.Hidden (withSecret c k) H' (d, s) →
          ∀ b, (φ k).2.2 d s b = k.2.2 d s b := by
  have hg1 : ∀ (i j : Index) (x : Token), mask i (changeMask i j x) = mask j x := by
    intro i j x
    unfold mask changeMask
    rw [xorMask_shiftMask, xorMask_eq, xorMask_eq (x := j), BitVec.xor_comm i, BitVec.xor_assoc, ← BitVec.xor_assoc i,
      BitVec.xor_self, BitVec.zero_xor, BitVec.xor_comm]
  have hg2 : ∀ (i : Index) (x : Token), changeMask i i x = x := by
    intro i x
    unfold changeMask
    rw [BitVec.xor_self]
    exact shiftMask_zero x
  let ψ := rekey (T := Token) (X := Token) changeMask c.hash c.hash
    (fun (x : ST × DK) a => ((x.2, c.inv^[a] x.1) : DK × ST)) H H'
  refine ⟨fun k => secretEquiv.symm (ψ (secretEquiv k)), ?_, ?_, ⟨permOf (seedPairs c.hash c.hash H H'), rekey_moves c.hash H H', fun k => ⟨rfl, rfl⟩⟩, ?_⟩
  · exact secretEquiv.symm.bijective.comp ((rekey_bijective changeMask_bijective _ _ _ _ _).comp secretEquiv.bijective)
  · intro hsame k
    have := rekey_material (T := Token) (X := Token) (g := changeMask) (hash := c.hash)
      (pt := fun (x : ST × DK) a => ((x.2, c.inv^[a] x.1) : DK × ST)) hsame (secretEquiv k)
    exact ⟨funext fun s => congrArg Prod.fst (congrFun this s), funext fun s => congrArg Prod.snd (congrFun this s)⟩
  · intro k hd hd'
    have hspec := rekey_spec (mask := mask) hg1 hg2 (pt := fun (x : ST × DK) a => ((x.2, c.inv^[a] x.1) : DK × ST))
      (fun (x : ST × DK) n => (⟨c.inv^[n - 1] x.1, x.2, UInt32.ofNat n⟩ : SearchReq ST DK)) ⟨garbage.1, garbage.2, 0⟩ hleak
      hs hs' (secretEquiv k) hd hd'
    have hround : secretEquiv (secretEquiv.symm (ψ (secretEquiv k))) = ψ (secretEquiv k) := secretEquiv.apply_symm_apply _
    constructor
    · rw [transcript_eq _ _ H [] Map.empty (fun w => rfl) hfit, transcript_eq _ _ H' [] Map.empty (fun w => rfl) hfit']
      exact hspec.1
    · intro d s hx hx' b
      have := hspec.2 (d, s) hx hx'
      change (if b then ((ψ (secretEquiv k)).2 (d, s)).2 else ((ψ (secretEquiv k)).2 (d, s)).1) = _
      rw [show (ψ (secretEquiv k)).2 (d, s) = _ from this]
      cases b <;> rfl

/-- **C62** (Sophos): for two histories with the same leakage, there is a permutation of the secret functions such that the messages
of the first history are those of the second; the pseudo-random function is unchanged except at the points of insertions for
keywords not searched afterwards, and nothing else is changed if both histories search the same keywords. -/
theorem C62_sophos_hiding (c : Crypto Kw Seed ST DK) (garbage : ST × DK) (H H' : List (Cmd Kw Index))
    (hleak : leak H = leak H') (hfit : Spec.CountsFit H) (hfit' : Spec.CountsFit H') (hs : Spec.SeedsDistinct c H)
    (hs' : Spec.SeedsDistinct c H') :
    ∃ φ : Secret Seed ST DK → Secret Seed ST DK, Function.Bijective φ ∧
      ((∀ (n : Nat) (w w' : Kw), H[n]? = some (.search w) → H'[n]? = some (.search w') → w = w') →
        ∀ k, (φ k).1 = k.1 ∧ (φ k).2.1 = k.2.1) ∧
      ∀ k, Spec.PointsDistinct (withSecret c (φ k)) H → Spec.PointsDistinct (withSecret c k) H' →
        transcript (withSecret c (φ k)) garbage Map.empty H = transcript (withSecret c k) garbage Map.empty H' ∧
        ∀ d s, ¬ Spec.Hidden (withSecret c (φ k)) H (d, s) → ¬ Spec.Hidden (withSecret c k) H' (d, s) →
          ∀ b, (φ k).2.2 d s b = k.2.2 d s b := by
  obtain ⟨φ, h1, h2, -, h3⟩ := exists_rekey c garbage H H' hleak hfit hfit' hs hs'
  exact ⟨φ, h1, h2, h3⟩

/-- **C62** (Sophos, forward privacy): after any history `P`, insertions `X` and `Y` of the same number give the same messages, up to
a permutation of the pseudo-random function alone; the values that the server computes in the searches of `P` are
unchanged. -/
theorem C62_sophos_forward (c : Crypto Kw Seed ST DK) (garbage : ST × DK) (P : List (Cmd Kw Index)) (X Y : List (Kw × Index))
    (hlen : X.length = Y.length) (hfit : Spec.CountsFit (P ++ X.map (fun e => .insert e.1 e.2)))
    (hfit' : Spec.CountsFit (P ++ Y.map (fun e => .insert e.1 e.2))) (hs : Spec.SeedsDistinct c P) :
    ∃ φ : Secret Seed ST DK → Secret Seed ST DK, Function.Bijective φ ∧ ∀ k, (φ k).1 = k.1 ∧ (φ k).2.1 = k.2.1 ∧
      (Spec.PointsDistinct (withSecret c k) (P ++ X.map (fun e => .insert e.1 e.2)) →
        Spec.PointsDistinct (withSecret c k) (P ++ Y.map (fun e => .insert e.1 e.2)) →
        transcript (withSecret c (φ k)) garbage Map.empty (P ++ X.map (fun e => .insert e.1 e.2)) =
          transcript (withSecret c k) garbage Map.empty (P ++ Y.map (fun e => .insert e.1 e.2)) ∧
        ∀ (n : Nat) (w : Kw) (a : Nat), P[n]? = some (.search w) → a < count w (P.take n) → ∀ b,
          (φ k).2.2 (k.2.1 (c.hash w)) (c.inv^[a] (k.1 (c.hash w))) b =
            k.2.2 (k.2.1 (c.hash w)) (c.inv^[a] (k.1 (c.hash w))) b) := by
  have hseeds : ∀ Z : List (Kw × Index), Spec.SeedsDistinct c (P ++ Z.map (fun e => .insert e.1 e.2)) :=
    fun Z m n w v h1 h2 => hs m n w v (search_append_inserts.mp h1) (search_append_inserts.mp h2)
  obtain ⟨φ, hb, hmat, hφ⟩ := C62_sophos_hiding c garbage _ _ (leak_append_inserts P X Y hlen) hfit hfit' (hseeds X)
    (hseeds Y)
  refine ⟨φ, hb, fun k => ?_⟩
  have hk := hmat (fun n w w' h1 h2 => by
    rw [search_append_inserts] at h1 h2
    rw [h1] at h2
    cases h2
    rfl) k
  refine ⟨hk.1, hk.2, fun hd hd' => ?_⟩
  have hpoint : ∀ w a, Spec.point (withSecret c (φ k)) w a = Spec.point (withSecret c k) w a := by
    intro w a
    unfold Spec.point withSecret
    rw [hk.1, hk.2]
  have hd1 : Spec.PointsDistinct (withSecret c (φ k)) (P ++ X.map (fun e => .insert e.1 e.2)) := by
    intro m n w a v b h1 h2 e
    rw [hpoint, hpoint] at e
    exact hd m n w a v b h1 h2 e
  obtain ⟨h1, h2⟩ := hφ k hd1 hd'
  refine ⟨h1, ?_⟩
  intro n w a hn ha b
  have hlt : n < P.length := (List.getElem?_eq_some_iff.mp hn).1
  -- the point is that of an insertion revealed by the search in position `n`, in both histories
  have hshown : ∀ (Z : List (Kw × Index)) (k' : Secret Seed ST DK),
      Spec.PointsDistinct (withSecret c k') (P ++ Z.map (fun e => .insert e.1 e.2)) →
      ¬ Spec.Hidden (withSecret c k') (P ++ Z.map (fun e => .insert e.1 e.2)) (Spec.point (withSecret c k') w a) := by
    rintro Z k' hdz ⟨m, v, b', ⟨hslot, hno⟩, he⟩
    obtain ⟨m', hm', hs'⟩ := slot_of_count (P ++ Z.map (fun e => Cmd.insert e.1 e.2)) w n a (by
      rw [List.take_append_of_le_length (by omega)]; exact ha)
    have heq := hdz m' m w a v b' hs' hslot he
    subst heq
    obtain ⟨i, hi, -⟩ := hs'
    obtain ⟨j, hj, -⟩ := hslot
    rw [hi] at hj
    cases hj
    exact hno n hm' (search_append_inserts.mpr hn)
  have hx := hshown X (φ k) hd1
  rw [hpoint] at hx
  exact h2 _ _ hx (hshown Y k hd') b

/-- **C62** (violated, Sophos): a search for a keyword without insertions sends to the server the contents of the memory of the
request, which is not initialised (`SearchRequest req`, sophos_client.cpp L87; sent by sophos_client_runner.cpp L436-438). -/
theorem C62_sophos_uninitialised_violated (c : Crypto Kw Seed ST DK) (garbage : ST × DK) (w : Kw) :
    transcript c garbage Map.empty [.search w] = [.search ⟨garbage.1, garbage.2, 0⟩] := rfl

/-! ## Examples -/

namespace Toy

theorem pointsDistinct (H : List (Cmd Bool Index)) (h : H.length < 2 ^ 64) (k : Secret Bool UInt64 Bool)
    (hk : ∀ w, k.1 w = 0 ∧ k.2.1 w = w) : Spec.PointsDistinct (withSecret crypto k) H := by
  have hle : ∀ (w : Bool) (n : Nat) (K : List (Cmd Bool Index)), (insertedFrom w n K).length ≤ K.length := by
    intro w n K
    induction K generalizing n with
    | nil => simp [insertedFrom]
    | cons o K ih =>
      cases o with
      | insert v i =>
        unfold insertedFrom
        have := ih (n + 1)
        by_cases hv : v = w <;> simp [hv] <;> omega
      | search v =>
        unfold insertedFrom
        have := ih (n + 1)
        simp; omega
  have hsmall : ∀ m w a, SlotAt H m w a → a < 2 ^ 64 := by
    rintro m w a ⟨i, -, rfl⟩
    have := hle w 0 (H.take m)
    have : (H.take m).length ≤ H.length := by rw [List.length_take]; omega
    unfold count inserted
    omega
  intro m n w a v b h1 h2 e
  have ha := hsmall _ _ _ h1
  have hb := hsmall _ _ _ h2
  obtain ⟨e1, e2⟩ := Prod.mk.inj e
  change k.2.1 w = k.2.1 v at e1
  rw [(hk w).2, (hk v).2] at e1
  subst e1
  change crypto.inv^[a] (k.1 w) = crypto.inv^[b] (k.1 w) at e2
  rw [inv_iterate, inv_iterate, (hk w).1] at e2
  have e3 : UInt64.ofNat a = UInt64.ofNat b := by simpa using e2
  have e4 := congrArg UInt64.toNat e3
  rw [UInt64.toNat_ofNat', UInt64.toNat_ofNat', Nat.mod_eq_of_lt ha, Nat.mod_eq_of_lt hb] at e4
  subst e4
  exact slot_unique h1 h2

theorem countsFit (H : List (Cmd Bool Index)) (h0 : count false H < 2 ^ 32) (h1 : count true H < 2 ^ 32) :
    Spec.CountsFit H := by
  intro w
  cases w
  · exact h0
  · exact h1

end Toy

/-- Two histories with the same leakage: different keywords, and in the last insertion a keyword searched before or not, and
different documents; the hypotheses of `C62_sophos_hiding` hold. -/
example : leak [Cmd.insert true (5 : Index), .search true, .insert true 9] =
      leak [Cmd.insert false (5 : Index), .search false, .insert true 7] ∧
    Spec.PointsDistinct Toy.crypto [.insert true 5, .search true, .insert true 9] ∧
    Spec.PointsDistinct Toy.crypto [.insert false 5, .search false, .insert true 7] ∧
    Spec.SeedsDistinct Toy.crypto [.insert true 5, .search true, .insert true 9] ∧
    Spec.CountsFit [Cmd.insert true (5 : Index), .search true, .insert true 9] ∧
    transcript Toy.crypto (0, false) Map.empty [.insert true 5, .search true, .insert true 9] ≠
      transcript Toy.crypto (0, false) Map.empty [.insert false 5, .search false, .insert true 7] := by
  refine ⟨by decide, Toy.pointsDistinct _ (by decide) (Toy.crypto.gen, Toy.crypto.dkey, Toy.crypto.prf) (fun w => ⟨rfl, rfl⟩),
    Toy.pointsDistinct _ (by decide) (Toy.crypto.gen, Toy.crypto.dkey, Toy.crypto.prf) (fun w => ⟨rfl, rfl⟩),
    fun _ _ _ _ _ _ e => e, Toy.countsFit _ (by decide) (by decide), ?_⟩
  intro e
  have := congrArg (fun l => match l with | .update t _ :: _ => t[0] | _ => 0) e
  exact absurd this (by decide +kernel)

/-- With the toy instance as the keys: for a history with a search, then an insertion for the keyword searched or for
another one, the messages are the same for some other pseudo-random function. -/
example : ∃ k : Secret Bool UInt64 Bool, k.1 = Toy.crypto.gen ∧ k.2.1 = Toy.crypto.dkey ∧
    transcript (withSecret Toy.crypto k) (0, false) Map.empty [.insert true 5, .search true, .insert true 9] =
      transcript Toy.crypto (0, false) Map.empty [.insert true 5, .search true, .insert false 7] ∧
    ∀ b, k.2.2 true 0 b = Toy.crypto.prf true 0 b := by
  obtain ⟨φ, -, h⟩ := C62_sophos_forward Toy.crypto (0, false) [.insert true 5, .search true] [(true, 9)] [(false, 7)] rfl
    (Toy.countsFit _ (by decide) (by decide)) (Toy.countsFit _ (by decide) (by decide)) (fun _ _ _ _ _ _ e => e)
  obtain ⟨h1, h2, h3⟩ := h (Toy.crypto.gen, Toy.crypto.dkey, Toy.crypto.prf)
  obtain ⟨h4, h5⟩ := h3 (Toy.pointsDistinct _ (by decide) _ (fun w => ⟨rfl, rfl⟩))
    (Toy.pointsDistinct _ (by decide) _ (fun w => ⟨rfl, rfl⟩))
  exact ⟨_, h1, h2, h4, h5 1 true 0 rfl (by decide)⟩

end Verif.Sophos
