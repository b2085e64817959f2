import Verif.Diana.Props
import Verif.Leak.Core

/-!
# C62: what the messages of Diana reveal

As for Sophos (`Verif.Sophos.HidingProps`): the messages depend only on the leakage, up to a permutation of the keys. The secret
functions are those that give the keyword token, the key of the tree, and the generator that gives token and mask of a leaf.
The constrained key in a search request is an abstract value: that it does not reveal the other leaves is left to the constrained
pseudo-random function; here the generator is unchanged at all the leaves below it.
-/

namespace Verif.Diana

open Verif Leak

variable {Kw V : Type} [DecidableEq Kw]

/-- The messages that the client sends (`insertion_request`, `search_request`, diana_client.hpp L132-207) -/
def transcript (c : Crypto Kw V) : Map Kw UInt32 → List (Cmd Kw V) → List (Msg Token V (SearchReq c))
  | _, [] => []
  | m, .insert w i :: H =>
    let (r, m') := insertionRequest c m w i
    .update r.token r.index :: transcript c m' H
  | m, .search w :: H => .search (searchRequest c m w) :: transcript c m H

/-- The secret functions -/
abbrev Secret (c : Crypto Kw V) := (Token → Vector UInt8 32) × (Token → c.RK) × (Leaf → Token) × (Leaf → V)

/-- The cryptography with other secret functions -/
@[reducible] def withSecret (c : Crypto Kw V) (k : Secret c) : Crypto Kw V :=
  { c with kwToken := k.1, root := k.2.1, token := k.2.2.1, mask := k.2.2.2 }

namespace Spec

/-- The leaf of the insertion number `a` for `w` -/
def leafOf (c : Crypto Kw V) (w : Kw) (a : Nat) : Leaf := c.eval (c.root (c.hash w)) a

/-- The leaves of the insertions of a history are distinct. -/
def LeavesDistinct (c : Crypto Kw V) (H : List (Cmd Kw V)) : Prop :=
  ∀ m n w a v b, SlotAt H m w a → SlotAt H n v b → leafOf c w a = leafOf c v b → m = n

/-- The leaf of an insertion for a keyword that is not searched afterwards -/
def Hidden (c : Crypto Kw V) (H : List (Cmd Kw V)) (x : Leaf) : Prop := ∃ m w a, HiddenAt H m w a ∧ x = leafOf c w a

/-- The keywords searched have different hashes. -/
def SeedsDistinct (c : Crypto Kw V) (H : List (Cmd Kw V)) : Prop :=
  ∀ (m n : Nat) (w v : Kw), H[m]? = some (.search w) → H[n]? = some (.search v) → c.hash w = c.hash v → w = v

/-- Fewer than `2 ^ 32` insertions for each keyword -/
def CountsFit (H : List (Cmd Kw V)) : Prop := ∀ w, count w H < 2 ^ 32

end Spec

/-! ## The messages in the form of `Leak.Core` -/

/-- The secret functions in the form of `Leak.Keys` -/
def secretEquiv (c : Crypto Kw V) : Secret c ≃ Keys Token (Vector UInt8 32 × c.RK) Leaf Token V where
  toFun k := (fun s => (k.1 s, k.2.1 s), fun x => (k.2.2.1 x, k.2.2.2 x))
  invFun k := (fun s => (k.1 s).1, fun s => (k.1 s).2, fun x => (k.2 x).1, fun x => (k.2 x).2)
  left_inv _ := rfl
  right_inv _ := rfl

theorem count_snoc_insert (w v : Kw) (i : V) (past : List (Cmd Kw V)) :
    count w (past ++ [.insert v i]) = if v = w then count w past + 1 else count w past := by
  unfold count inserted
  rw [insertedFrom_append]
  by_cases h : v = w <;> simp [insertedFrom, h]

theorem count_snoc_search (w v : Kw) (past : List (Cmd Kw V)) :
    count w (past ++ [.search v]) = count w past := by
  unfold count inserted
  rw [insertedFrom_append]
  simp [insertedFrom]

theorem count_append_le (w : Kw) (past H : List (Cmd Kw V)) : count w past ≤ count w (past ++ H) := by
  unfold count inserted
  rw [insertedFrom_append, List.length_append]
  omega

/-- The search request, which does not depend on the generator -/
def reqOf (c : Crypto Kw V) (k : Secret c) (x : Vector UInt8 32 × c.RK) (n : Nat) : SearchReq (withSecret c k) :=
  ⟨x.1, c.constrain x.2 0 (n - 1), UInt32.ofNat n⟩

theorem transcript_eq (c : Crypto Kw V) (k : Secret c) (H : List (Cmd Kw V)) :
    ∀ (past : List (Cmd Kw V)) (m : Map Kw UInt32), (∀ w, m w = Counter.counterOf (count w past)) →
      Spec.CountsFit (past ++ H) →
      transcript (withSecret c k) m H = eachFrom (msgOf c.hash (fun x a => c.eval x.2 a) c.xor
        (reqOf c k) ⟨Vector.replicate 32 0, c.emptyCK, 0⟩ (secretEquiv c k)) past H := by
  induction H with
  | nil => intro past m _ _; rfl
  | cons o H ih =>
    intro past m hm hfit
    have hfit' : Spec.CountsFit ((past ++ [o]) ++ H) := by
      rw [List.append_assoc]; exact hfit
    cases o with
    | insert w i =>
      have hlt : count w past < 2 ^ 32 := Nat.lt_of_le_of_lt (count_append_le w past _) (hfit w)
      have hnat : (UInt32.ofNat (count w past)).toNat = count w past := by
        rw [UInt32.toNat_ofNat']
        exact Nat.mod_eq_of_lt hlt
      unfold transcript eachFrom insertionRequest
      rw [Counter.getAndIncrement_spec m w _ (hm w)]
      simp only
      unfold requestFor
      rw [hnat]
      congr 1
      apply ih _ _ _ hfit'
      intro v
      rw [count_snoc_insert]
      by_cases hv : w = v
      · subst hv
        simp [Counter.counterOf]
      · rw [if_neg hv, Map.put_of_ne _ _ (Ne.symm hv), hm v]
    | search w =>
      have hlt : count w past < 2 ^ 32 := Nat.lt_of_le_of_lt (count_append_le w past _) (hfit w)
      unfold transcript eachFrom
      congr 1
      · unfold msgOf searchRequest Counter.get
        rw [hm w]
        unfold Counter.counterOf
        by_cases h0 : count w past = 0
        · simp [h0]
        · rw [if_neg h0]
          dsimp only
          rw [if_neg h0]
          have h1 : (UInt32.ofNat (count w past - 1)).toNat = count w past - 1 := by
            rw [UInt32.toNat_ofNat']
            exact Nat.mod_eq_of_lt (by omega)
          have h2 : UInt32.ofNat (count w past - 1) + 1 = UInt32.ofNat (count w past) := by
            conv => rhs; rw [show count w past = (count w past - 1) + 1 by omega]
            simp [UInt32.ofNat_add]
          rw [h1, h2]
          rfl
      · apply ih _ _ _ hfit'
        intro v
        rw [count_snoc_search]
        exact hm v

/-! ## C62 -/

/-- What a message contains, as data that do not depend on the choice of secret functions -/
def content {c : Crypto Kw V} {k : Secret c} : Msg Token V (SearchReq (withSecret c k)) →
    Msg Token V (Vector UInt8 32 × c.CK × UInt32)
  | .update t e => .update t e
  | .search s => .search (s.kwToken, s.rcprf, s.addCount)

theorem content_eachFrom (c : Crypto Kw V) (k : Secret c) (H : List (Cmd Kw V)) : ∀ past,
    (eachFrom (msgOf c.hash (fun x a => c.eval x.2 a) c.xor (reqOf c k) ⟨Vector.replicate 32 0, c.emptyCK, 0⟩
        (secretEquiv c k)) past H).map content =
      eachFrom (msgOf c.hash (fun x a => c.eval x.2 a) c.xor
        (fun (x : Vector UInt8 32 × c.RK) n => (x.1, c.constrain x.2 0 (n - 1), UInt32.ofNat n))
        (Vector.replicate 32 0, c.emptyCK, 0) (secretEquiv c k)) past H := by
  induction H with
  | nil => intro past; rfl
  | cons o H ih =>
    intro past
    unfold eachFrom
    rw [List.map_cons, ih]
    congr 1
    cases o with
    | insert w i => rfl
    | search w =>
      unfold msgOf
      by_cases h0 : count w past = 0
      · simp only [if_pos h0]; rfl
      · simp only [if_neg h0]; rfl

/-- The messages, as data that do not depend on the choice of secret functions -/
def messages (c : Crypto Kw V) (k : Secret c) (H : List (Cmd Kw V)) : List (Msg Token V (Vector UInt8 32 × c.CK × UInt32)) :=
  (transcript (withSecret c k) Map.empty H).map content

/-- The permutation of `C62_diana_hiding`, with what it does to keyword tokens and root keys: they are permuted among the keywords that are
searched. -/
theorem exists_rekey (c : Crypto Kw V) (hassoc : ∀ x y z, c.xor (c.xor x y) z = c.xor x (c.xor y z))
    (hcomm : ∀ x y, c.xor x y = c.xor y x) (H H' : List (Cmd Kw V)) (hleak : leak H = leak H') (hfit : Spec.CountsFit H)
    (hfit' : Spec.CountsFit H') (hs : Spec.SeedsDistinct c H) (hs' : Spec.SeedsDistinct c H') :
    ∃ φ : Secret c → Secret c, Function.Bijective φ ∧
      ((∀ (n : Nat) (w w' : Kw), H[n]? = some (.search w) → H'[n]? = some (.search w') → w = w') →
        ∀ k, (φ k).1 = k.1 ∧ (φ k).2.1 = k.2.1) ∧
      (∃ σ : Equiv.Perm Token,
        (∀ s, (∀ (n : Nat) (w : Kw), H[n]? = some (.search w) ∨ H'[n]? = some (.search w) → c.hash w ≠ s) → σ s = s) ∧
        ∀ k, (φ k).1 = k.1 ∘ σ ∧ (φ k).2.1 = k.2.1 ∘ σ) ∧
      ∀ k, Spec.LeavesDistinct (withSecret c (φ k)) H → Spec.LeavesDistinct (withSecret c k) H' →
        messages c (φ k) H = messages c k H' ∧
        ∀ x, ¬ Spec.Hidden (withSecret c (φ k)) H x → ¬ Spec.Hidden (withSecret c k) H' x →
          (φ k).2.2.1 x = k.2.2.1 x ∧ (φ k).2.2.2 x = k.2.2.2 x := by
  -- the change of masks
  have hsq : ∀ t x, c.xor t (c.xor t x) = x := by
    intro t x
    rw [hcomm t (c.xor t x), hcomm t x]
    exact c.xor_xor x t
  have hz : ∀ i x, c.xor (c.xor i i) x = x := by
    intro i x
    rw [hassoc, hsq]
  have hg1 : ∀ i j x, c.xor i (c.xor (c.xor i j) x) = c.xor j x := by
    intro i j x
    rw [hassoc i j x, hsq]
  have hbij : ∀ i j, Function.Bijective (fun x => c.xor (c.xor i j) x) := by
    intro i j
    constructor
    · intro a b h
      have := congrArg (c.xor (c.xor i j)) h
      simpa [hsq] using this
    · intro a
      exact ⟨c.xor (c.xor i j) a, hsq _ _⟩
  let ψ := rekey (T := Token) (X := V) (fun i j x => c.xor (c.xor i j) x) c.hash c.hash
    (fun (x : Vector UInt8 32 × c.RK) a => c.eval x.2 a) H H'
  refine ⟨fun k => (secretEquiv c).symm (ψ (secretEquiv c k)), ?_, ?_, ⟨permOf (seedPairs c.hash c.hash H H'), rekey_moves c.hash H H', fun k => ⟨rfl, rfl⟩⟩, ?_⟩
  · exact (secretEquiv c).symm.bijective.comp ((rekey_bijective hbij _ _ _ _ _).comp (secretEquiv c).bijective)
  · intro hsame k
    have := rekey_material (T := Token) (X := V) (g := fun i j x => c.xor (c.xor i j) x) (hash := c.hash)
      (pt := fun (x : Vector UInt8 32 × c.RK) a => c.eval x.2 a) hsame (secretEquiv c k)
    exact ⟨funext fun s => congrArg Prod.fst (congrFun this s), funext fun s => congrArg Prod.snd (congrFun this s)⟩
  · intro k hd hd'
    have hspec := rekey_spec (mask := c.xor) hg1 hz (pt := fun (x : Vector UInt8 32 × c.RK) a => c.eval x.2 a)
      (fun (x : Vector UInt8 32 × c.RK) n => (x.1, c.constrain x.2 0 (n - 1), UInt32.ofNat n))
      (Vector.replicate 32 0, c.emptyCK, 0) hleak hs hs' (secretEquiv c k) hd hd'
    constructor
    · unfold messages
      rw [transcript_eq _ _ H [] Map.empty (fun w => rfl) hfit, transcript_eq _ _ H' [] Map.empty (fun w => rfl) hfit',
        content_eachFrom, content_eachFrom]
      exact hspec.1
    · intro x hx hx'
      have := hspec.2 x hx hx'
      exact Prod.mk.inj this

/-- **C62** (Diana): for two histories with the same leakage, there is a permutation of the secret functions such that the messages
of the first history are those of the second; token and mask are unchanged except at the leaves of insertions for keywords not
searched afterwards, and nothing else is changed if both histories search the same keywords. The masking must be that of a group
(`hassoc`, `hcomm`; the code uses the exclusive or, C39). -/
theorem C62_diana_hiding (c : Crypto Kw V) (hassoc : ∀ x y z, c.xor (c.xor x y) z = c.xor x (c.xor y z))
    (hcomm : ∀ x y, c.xor x y = c.xor y x) (H H' : List (Cmd Kw V)) (hleak : leak H = leak H') (hfit : Spec.CountsFit H)
    (hfit' : Spec.CountsFit H') (hs : Spec.SeedsDistinct c H) (hs' : Spec.SeedsDistinct c H') :
    ∃ φ : Secret c → Secret c, Function.Bijective φ ∧
      ((∀ (n : Nat) (w w' : Kw), H[n]? = some (.search w) → H'[n]? = some (.search w') → w = w') →
        ∀ k, (φ k).1 = k.1 ∧ (φ k).2.1 = k.2.1) ∧
      ∀ k, Spec.LeavesDistinct (withSecret c (φ k)) H → Spec.LeavesDistinct (withSecret c k) H' →
        messages c (φ k) H = messages c k H' ∧
        ∀ x, ¬ Spec.Hidden (withSecret c (φ k)) H x → ¬ Spec.Hidden (withSecret c k) H' x →
          (φ k).2.2.1 x = k.2.2.1 x ∧ (φ k).2.2.2 x = k.2.2.2 x := by
  obtain ⟨φ, h1, h2, -, h3⟩ := exists_rekey c hassoc hcomm H H' hleak hfit hfit' hs hs'
  exact ⟨φ, h1, h2, h3⟩

/-- **C62** (Diana, forward privacy): after any history `P`, insertions `X` and `Y` of the same number give the same messages, up to
a permutation of the generator alone; token and mask of the leaves below the constrained keys sent in the searches of `P` are
unchanged. -/
theorem C62_diana_forward (c : Crypto Kw V) (hassoc : ∀ x y z, c.xor (c.xor x y) z = c.xor x (c.xor y z))
    (hcomm : ∀ x y, c.xor x y = c.xor y x) (P : List (Cmd Kw V)) (X Y : List (Kw × V)) (hlen : X.length = Y.length)
    (hfit : Spec.CountsFit (P ++ X.map (fun e => .insert e.1 e.2)))
    (hfit' : Spec.CountsFit (P ++ Y.map (fun e => .insert e.1 e.2))) (hs : Spec.SeedsDistinct c P) :
    ∃ φ : Secret c → Secret c, Function.Bijective φ ∧ ∀ k, (φ k).1 = k.1 ∧ (φ k).2.1 = k.2.1 ∧
      (Spec.LeavesDistinct (withSecret c k) (P ++ X.map (fun e => .insert e.1 e.2)) →
        Spec.LeavesDistinct (withSecret c k) (P ++ Y.map (fun e => .insert e.1 e.2)) →
        messages c (φ k) (P ++ X.map (fun e => .insert e.1 e.2)) = messages c k (P ++ Y.map (fun e => .insert e.1 e.2)) ∧
        ∀ (n : Nat) (w : Kw) (a : Nat) (leaf : Leaf), P[n]? = some (.search w) → a < count w (P.take n) →
          c.ceval (c.constrain (k.2.1 (c.hash w)) 0 (count w (P.take n) - 1)) a = some leaf →
          (φ k).2.2.1 leaf = k.2.2.1 leaf ∧ (φ k).2.2.2 leaf = k.2.2.2 leaf) := by
  have hseeds : ∀ Z : List (Kw × V), Spec.SeedsDistinct c (P ++ Z.map (fun e => .insert e.1 e.2)) :=
    fun Z m n w v h1 h2 => hs m n w v (search_append_inserts.mp h1) (search_append_inserts.mp h2)
  obtain ⟨φ, hb, hmat, hφ⟩ := C62_diana_hiding c hassoc hcomm _ _ (leak_append_inserts P X Y hlen) hfit hfit' (hseeds X)
    (hseeds Y)
  refine ⟨φ, hb, fun k => ?_⟩
  have hk := hmat (fun n w w' h1 h2 => by
    rw [search_append_inserts] at h1 h2
    rw [h1] at h2
    cases h2
    rfl) k
  refine ⟨hk.1, hk.2, fun hd hd' => ?_⟩
  have hleaf : ∀ w a, Spec.leafOf (withSecret c (φ k)) w a = Spec.leafOf (withSecret c k) w a := by
    intro w a
    change c.eval ((φ k).2.1 (c.hash w)) a = c.eval (k.2.1 (c.hash w)) a
    rw [hk.2]
  have hd1 : Spec.LeavesDistinct (withSecret c (φ k)) (P ++ X.map (fun e => .insert e.1 e.2)) := by
    intro m n w a v b h1 h2 e
    rw [hleaf, hleaf] at e
    exact hd m n w a v b h1 h2 e
  obtain ⟨h1, h2⟩ := hφ k hd1 hd'
  refine ⟨h1, ?_⟩
  intro n w a leaf hn ha hc
  have hlt : n < P.length := (List.getElem?_eq_some_iff.mp hn).1
  have hcount : count w (P.take n) < 2 ^ 32 := by
    refine Nat.lt_of_le_of_lt ?_ (hfit w)
    have := count_append_le w (P.take n) (P.drop n ++ X.map (fun e => .insert e.1 e.2))
    rwa [← List.append_assoc, List.take_append_drop] at this
  rw [c.ceval_constrain _ _ _ (by omega) (by omega)] at hc
  have hlf : leaf = Spec.leafOf (withSecret c k) w a := (Option.some.inj hc).symm
  -- the leaf is that of an insertion revealed by the search in position `n`, in both histories
  have hshown : ∀ (Z : List (Kw × V)) (k' : Secret c),
      Spec.LeavesDistinct (withSecret c k') (P ++ Z.map (fun e => .insert e.1 e.2)) →
      ¬ Spec.Hidden (withSecret c k') (P ++ Z.map (fun e => .insert e.1 e.2)) (Spec.leafOf (withSecret c k') w a) := by
    rintro Z k' hdz ⟨m, v, b', ⟨hslot, hno⟩, he⟩
    obtain ⟨m', hm', hs'⟩ := slot_of_count (P ++ Z.map (fun e => Cmd.insert e.1 e.2)) w n a (by
      rw [List.take_append_of_le_length (by omega)]; exact ha)
    have heq := hdz m' m w a v b' hs' hslot he
    subst heq
    obtain ⟨i, hi, -⟩ := hs'
    obtain ⟨j, hj, -⟩ := hslot
    rw [hi] at hj
    cases hj
    exact hno n hm' (search_append_inserts.mpr hn)
  have hx := hshown X (φ k) hd1
  rw [hleaf] at hx
  rw [hlf]
  exact h2 _ hx (hshown Y k hd')

/-! ## Examples -/

namespace Toy

/-- The secret functions of the toy instance -/
def secret : Secret crypto := (crypto.kwToken, crypto.root, crypto.token, crypto.mask)

theorem leavesDistinct (H : List (Cmd Bool Index)) (h : H.length ≤ 256) : Spec.LeavesDistinct crypto H := by
  have hle : ∀ (w : Bool) (n : Nat) (K : List (Cmd Bool Index)), (insertedFrom w n K).length ≤ K.length := by
    intro w n K
    induction K generalizing n with
    | nil => simp [insertedFrom]
    | cons o K ih =>
      cases o with
      | insert v i =>
        unfold insertedFrom
        have := ih (n + 1)
        by_cases hv : v = w <;> simp [hv] <;> omega
      | search v =>
        unfold insertedFrom
        have := ih (n + 1)
        simp; omega
  have hsmall : ∀ m w a, SlotAt H m w a → a < 256 := by
    rintro m w a ⟨i, hi, rfl⟩
    have := hle w 0 (H.take m)
    have := (List.getElem?_eq_some_iff.mp hi).1
    have : (H.take m).length = m := by rw [List.length_take]; omega
    unfold count inserted
    omega
  intro m n w a v b h1 h2 e
  have ha := hsmall _ _ _ h1
  have hb := hsmall _ _ _ h2
  obtain ⟨e1, e2⟩ := noCollision (fun _ => 256) (fun _ => Nat.le_refl _) w a v b ha hb
    (congrArg crypto.token e)
  subst e1 e2
  exact slot_unique h1 h2

theorem countsFit (H : List (Cmd Bool Index)) (h0 : count false H < 2 ^ 32) (h1 : count true H < 2 ^ 32) :
    Spec.CountsFit H := by
  intro w
  cases w
  · exact h0
  · exact h1

theorem seedsDistinct (H : List (Cmd Bool Index)) : Spec.SeedsDistinct crypto H := by
  intro _ _ w v _ _ e
  have := (bytes_inj (b := 0) (b' := 0) e).1
  revert this
  cases w <;> cases v <;> decide

end Toy

/-- With the toy instance as the keys: two histories with the same leakage, with different keywords and documents; the hypotheses of
`C62_diana_hiding` hold for the second history and its keys, and the messages are different for the same keys. -/
example : leak [Cmd.insert true (5 : Index), .insert false 6, .search true] =
      leak [Cmd.insert false (5 : Index), .insert true 8, .search false] ∧
    Spec.LeavesDistinct Toy.crypto [.insert true 5, .insert false 6, .search true] ∧
    Spec.LeavesDistinct Toy.crypto [.insert false 5, .insert true 8, .search false] ∧
    messages Toy.crypto Toy.secret [.insert true 5, .insert false 6, .search true] ≠
      messages Toy.crypto Toy.secret [.insert false 5, .insert true 8, .search false] := by
  refine ⟨by decide, Toy.leavesDistinct _ (by decide), Toy.leavesDistinct _ (by decide), ?_⟩
  intro e
  have := congrArg (fun l => match l with | .update t _ :: _ => t[0] | _ => 0) e
  exact absurd this (by decide +kernel)

/-- With the toy instance as the keys: after a search, an insertion for the keyword searched or for another one gives the same messages
for some other generator, which agrees on the leaf revealed by the search. -/
example : ∃ k : Secret Toy.crypto, k.1 = Toy.crypto.kwToken ∧ k.2.1 = Toy.crypto.root ∧
    messages Toy.crypto k [.insert true 5, .search true, .insert true 9] =
      messages Toy.crypto Toy.secret [.insert true 5, .search true, .insert false 7] ∧
    k.2.2.1 (Toy.wide (Toy.bytes 1 0)) = Toy.crypto.token (Toy.wide (Toy.bytes 1 0)) ∧
    k.2.2.2 (Toy.wide (Toy.bytes 1 0)) = Toy.crypto.mask (Toy.wide (Toy.bytes 1 0)) := by
  obtain ⟨φ, -, h⟩ := C62_diana_forward Toy.crypto (fun x y z => BitVec.xor_assoc x y z) (fun x y => BitVec.xor_comm x y)
    [.insert true 5, .search true] [(true, 9)] [(false, 7)] rfl
    (Toy.countsFit _ (by decide) (by decide)) (Toy.countsFit _ (by decide) (by decide)) (Toy.seedsDistinct _)
  obtain ⟨h1, h2, h3⟩ := h Toy.secret
  obtain ⟨h4, h5⟩ := h3 (Toy.leavesDistinct _ (by decide)) (Toy.leavesDistinct _ (by decide))
  exact ⟨_, h1, h2, h4, h5 1 true 0 (Toy.wide (Toy.bytes 1 0)) rfl (by decide) (by decide +kernel)⟩

end Verif.Diana
