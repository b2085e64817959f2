import Verif.Ideal.Chain
import Verif.Ideal.SophosRandom

/-!
# Observers of Sophos who evaluate the public functions themselves: C83

Anybody can evaluate the trapdoor permutation (`crypto::TdpMultPool`, `/repo/lib/sophos/sophos_server.cpp` L20-30), the hash function
that gives keyword indices (`get_keyword_index`, `/repo/lib/sophos/sophos_client.cpp` L77-81), and the function that gives the update token
and the mask for a derivation key and a search token (`gen_update_token_masks`, `/repo/lib/sophos/sophos_common.cpp` L18-31).
Here the observer knows the hash function, and can ask, between the commands, for any search token: the answer is the value of the
permutation, and the update tokens and masks for all derivation keys. The permutation is a random one that the observer cannot invert.
-/

namespace Verif.Ideal.Sophos

open Verif Verif.Sophos Verif.Leak

variable {Kw Seed ST DK : Type} [DecidableEq Kw]

/-- What the server sees of a command -/
abbrev Seen (ST DK : Type) := Msg Token Index (SearchReq ST DK) × List (Token × Token)

/-- What is chosen: the permutation, and the functions -/
abbrev World (U : Finset Kw) (Seed ST DK : Type) := Equiv.Perm ST × Choice U Seed ST DK

/-- A step of the observer: a pair of commands for the client, of which one is executed, or a search token for which the observer
evaluates the functions. -/
abbrev Step (Kw ST : Type) := (Cmd Kw Index × Cmd Kw Index) ⊕ ST

/-- What the observer computes for a search token: the next search token, and the update tokens and masks for all derivation keys -/
def evaluated {U : Finset Kw} (x : World U Seed ST DK) (s : ST) : ST × (DK → Token × Token) :=
  (x.1 s, fun d => (x.2.2.2.2 (d, s, false), x.2.2.2.2 (d, s, true)))

/-- What the observer sees of the steps, with the component `f` of the pairs -/
def oview {U : Finset Kw} (g : Kw → Seed) (garbage : ST × DK) (f : Cmd Kw Index × Cmd Kw Index → Cmd Kw Index) (x : World U Seed ST DK)
    (S : List (Step Kw ST)) : List (Seen ST DK ⊕ (ST × (DK → Token × Token))) :=
  Ideal.oview (fun P => view (crypto (ofPerm x.1) g x.2) garbage (P.map f)) (evaluated x) S

/-- The rules are those for the commands; any search tokens may be asked for. -/
def ORules (W : Finset Kw) (n : Nat) (S : List (Step Kw ST)) : Prop := Rules W n (cmdsOf S)

/-- The search token number `a` of a keyword (the order of `search_token` in sophos_client.cpp L136-159) -/
def chain {U : Finset Kw} (g : Kw → Seed) (x : World U Seed ST DK) (i : Kw × Nat) : ST :=
  x.1.symm^[i.2] (x.2.2.1 (extend g x.2.1 i.1))

/-- The search token was sent in a search, or follows such a token. -/
def Told (π : Equiv.Perm ST) (seen : List (Seen ST DK)) (s : ST) : Prop :=
  ∃ r rest, (.search r, rest) ∈ seen ∧ ∃ j < r.addCount.toNat, s = π^[j] r.token

/-! ## The messages -/

theorem messages_get (c : Crypto Kw Seed ST DK) (garbage : ST × DK) (H : List (Cmd Kw Index)) (hfit : Spec.CountsFit H) (i : Nat) :
    (transcript c garbage Map.empty H)[i]? = H[i]?.map (fun o => match o with
      | .insert w d =>
        .update (c.prf (c.dkey (c.hash w)) (c.inv^[count w (H.take i)] (c.gen (c.hash w))) false)
          (mask d (c.prf (c.dkey (c.hash w)) (c.inv^[count w (H.take i)] (c.gen (c.hash w))) true))
      | .search w => .search (if count w (H.take i) = 0 then ⟨garbage.1, garbage.2, 0⟩ else
          ⟨c.inv^[count w (H.take i) - 1] (c.gen (c.hash w)), c.dkey (c.hash w), UInt32.ofNat (count w (H.take i))⟩)) := by
  rw [transcript_eq c garbage H [] Map.empty (fun w => rfl) hfit, eachFrom_get, List.nil_append]
  cases H[i]? with
  | none => rfl
  | some o => cases o <;> rfl

/-- The requests with a token are those for the tokens of the chains. -/
theorem request_token {U : Finset Kw} (g : Kw → Seed) (garbage : ST × DK) (W : Finset Kw) (n : Nat) (hn32 : n < 2 ^ 32)
    (x : World U Seed ST DK) (H : List (Cmd Kw Index)) (hH : cmdKeywords H ⊆ W) (hn : ∀ w, count w H ≤ n) (r : SearchReq ST DK)
    (hr : .search r ∈ transcript (crypto (ofPerm x.1) g x.2) garbage Map.empty H) (h0 : 0 < r.addCount.toNat) :
    ∃ w ∈ W, r.addCount.toNat ≤ n ∧ r.token = chain g x (w, r.addCount.toNat - 1) ∧ r.derivationKey = x.2.2.2.1 (extend g x.2.1 w) := by
  have hfit : Spec.CountsFit H := fun w => Nat.lt_of_le_of_lt (hn w) hn32
  obtain ⟨i, hi⟩ := List.getElem?_of_mem hr
  rw [messages_get _ garbage H hfit] at hi
  obtain ⟨o, ho, hr⟩ := Option.map_eq_some_iff.mp hi
  cases o with
  | insert w d => cases hr
  | search w =>
    simp only [Msg.search.injEq] at hr
    by_cases hc : count w (H.take i) = 0
    · rw [if_pos hc] at hr
      rw [← hr] at h0
      simp at h0
    · rw [if_neg hc] at hr
      have hle : count w (H.take i) ≤ n := le_trans (count_take_le w H i) (hn w)
      have hnat : (UInt32.ofNat (count w (H.take i))).toNat = count w (H.take i) := by
        rw [UInt32.toNat_ofNat']
        exact Nat.mod_eq_of_lt (by omega)
      refine ⟨w, hH (mem_cmdKeywords ho), ?_, ?_, ?_⟩
      · rw [← hr]; simp only [hnat]; exact hle
      · rw [← hr]; simp only [hnat]; rfl
      · rw [← hr]; rfl

omit [DecidableEq Kw] in
theorem iterate_back (π : Equiv.Perm ST) (z : ST) : ∀ a j : Nat, j ≤ a → π^[j] (π.symm^[a] z) = π.symm^[a - j] z := by
  intro a j h
  induction j with
  | zero => rfl
  | succ j ih =>
    rw [Function.iterate_succ_apply', ih (by omega), show a - j = (a - (j + 1)) + 1 by omega, Function.iterate_succ_apply',
      Equiv.apply_symm_apply]

/-- The tokens that are told are tokens of the chains. -/
theorem told_chain {U : Finset Kw} (g : Kw → Seed) (garbage : ST × DK) (W : Finset Kw) (n : Nat) (hn32 : n < 2 ^ 32)
    (x : World U Seed ST DK) (H : List (Cmd Kw Index)) (hH : cmdKeywords H ⊆ W) (hn : ∀ w, count w H ≤ n) (s : ST)
    (h : Told x.1 (view (crypto (ofPerm x.1) g x.2) garbage H) s) :
    ∃ r, .search r ∈ transcript (crypto (ofPerm x.1) g x.2) garbage Map.empty H ∧ ∃ j < r.addCount.toNat, s = x.1^[j] r.token ∧
      ∃ w ∈ W, r.addCount.toNat ≤ n ∧ s = chain g x (w, r.addCount.toNat - 1 - j) ∧ r.derivationKey = x.2.2.2.1 (extend g x.2.1 w) := by
  obtain ⟨r, rest, hr, j, hj, hs⟩ := h
  obtain ⟨m, hm, he⟩ := List.mem_map.mp hr
  cases he
  obtain ⟨w, hw, h1, h2, h3⟩ := request_token g garbage W n hn32 x H hH hn r hm (by omega)
  refine ⟨r, hm, j, hj, hs, w, hw, h1, ?_, h3⟩
  rw [hs, h2]
  exact iterate_back x.1 _ _ _ (by omega)

/-! ## Another token for a position of a chain -/

section

variable [DecidableEq ST]

/-- All search tokens are renamed by exchanging two of them. -/
def rename {U : Finset Kw} (a y : ST) (x : World U Seed ST DK) : World U Seed ST DK :=
  (Equiv.swap a y * x.1 * Equiv.swap a y, x.2.1, fun s => Equiv.swap a y (x.2.2.1 s), x.2.2.2.1,
    fun z => x.2.2.2.2 (z.1, Equiv.swap a y z.2.1, z.2.2))

/-- The token number `i` becomes `y`. -/
def moveToken {U : Finset Kw} (g : Kw → Seed) (i : Kw × Nat) (x : World U Seed ST DK) (y : ST) : World U Seed ST DK :=
  rename (chain g x i) y x

omit [DecidableEq Kw] in
theorem rename_symm {U : Finset Kw} (a y : ST) (x : World U Seed ST DK) (k : Nat) (z : ST) :
    (rename a y x).1.symm^[k] (Equiv.swap a y z) = Equiv.swap a y (x.1.symm^[k] z) := by
  refine ((Function.Semiconj.iterate_right (f := Equiv.swap a y) (ga := x.1.symm) (gb := (rename a y x).1.symm) ?_ k) z).symm
  intro z
  rw [Equiv.eq_symm_apply]
  simp [rename]

omit [DecidableEq Kw] in
theorem rename_iterate {U : Finset Kw} (a y : ST) (x : World U Seed ST DK) (k : Nat) (z : ST) :
    (rename a y x).1^[k] (Equiv.swap a y z) = Equiv.swap a y (x.1^[k] z) := by
  refine ((Function.Semiconj.iterate_right (f := Equiv.swap a y) (ga := x.1) (gb := (rename a y x).1) ?_ k) z).symm
  intro z
  simp [rename]

theorem chain_rename {U : Finset Kw} (g : Kw → Seed) (a y : ST) (x : World U Seed ST DK) (i : Kw × Nat) :
    chain g (rename a y x) i = Equiv.swap a y (chain g x i) := rename_symm a y x i.2 _

omit [DecidableEq Kw] in
theorem rename_rename {U : Finset Kw} (a y : ST) (x : World U Seed ST DK) : rename a y (rename a y x) = x := by
  obtain ⟨π, h, ge, d, f⟩ := x
  simp only [rename, Equiv.swap_apply_self, Prod.mk.injEq, and_true]
  refine Equiv.ext (fun z => ?_)
  simp

theorem chain_move {U : Finset Kw} (g : Kw → Seed) (i : Kw × Nat) (x : World U Seed ST DK) (y : ST) : chain g (moveToken g i x y) i = y := by
  unfold moveToken
  rw [chain_rename, Equiv.swap_apply_left]

theorem move_move {U : Finset Kw} (g : Kw → Seed) (i : Kw × Nat) (x : World U Seed ST DK) (y : ST) :
    moveToken g i (moveToken g i x y) (chain g x i) = x := by
  have h := chain_move g i x y
  unfold moveToken at h ⊢
  rw [h]
  have : ∀ z : World U Seed ST DK, rename y (chain g x i) z = rename (chain g x i) y z := by
    intro z
    unfold rename
    rw [Equiv.swap_comm]
  rw [this, rename_rename]

/-- Renaming is not seen, if the two tokens are not told. -/
theorem view_move {U : Finset Kw} (g : Kw → Seed) (garbage : ST × DK) (W : Finset Kw) (n : Nat) (hn32 : n < 2 ^ 32)
    (x : World U Seed ST DK) (H : List (Cmd Kw Index)) (hH : cmdKeywords H ⊆ W) (hn : ∀ w, count w H ≤ n) (i : Kw × Nat) (y : ST)
    (hy : ∀ j ∈ W ×ˢ Finset.range n, y ≠ chain g x j)
    (ht : ¬ Told x.1 (view (crypto (ofPerm x.1) g x.2) garbage H) (chain g x i)) :
    view (crypto (ofPerm (moveToken g i x y).1) g (moveToken g i x y).2) garbage H = view (crypto (ofPerm x.1) g x.2) garbage H := by
  have hfit : Spec.CountsFit H := fun w => Nat.lt_of_le_of_lt (hn w) hn32
  have hstay : ∀ r, .search r ∈ transcript (crypto (ofPerm x.1) g x.2) garbage Map.empty H → 0 < r.addCount.toNat →
      Equiv.swap (chain g x i) y r.token = r.token := by
    intro r hr h0
    obtain ⟨w, hw, h1, h2, -⟩ := request_token g garbage W n hn32 x H hH hn r hr h0
    refine Equiv.swap_apply_of_ne_of_ne (fun he => ht ?_) (fun he => ?_)
    · exact ⟨r, _, List.mem_map.mpr ⟨_, hr, rfl⟩, 0, h0, he.symm⟩
    · refine hy (w, r.addCount.toNat - 1) ?_ (he.symm.trans h2)
      rw [Finset.mem_product, Finset.mem_range]
      exact ⟨hw, by omega⟩
  have hchain : ∀ (w : Kw) (a : Nat), (moveToken g i x y).1.symm^[a] ((moveToken g i x y).2.2.1 (extend g x.2.1 w)) =
      Equiv.swap (chain g x i) y (x.1.symm^[a] (x.2.2.1 (extend g x.2.1 w))) := fun w a => rename_symm _ _ _ _ _
  have hmsg : transcript (crypto (ofPerm (moveToken g i x y).1) g (moveToken g i x y).2) garbage Map.empty H =
      transcript (crypto (ofPerm x.1) g x.2) garbage Map.empty H := by
    refine List.ext_getElem? (fun p => ?_)
    have hold := messages_get (crypto (ofPerm x.1) g x.2) garbage H hfit p
    rw [messages_get _ garbage H hfit]
    rw [hold]
    cases ho : H[p]? with
    | none => rfl
    | some o =>
      rw [ho] at hold
      cases o with
      | insert w d =>
        have := hchain w (count w (H.take p))
        simp only [Option.map_some, crypto, ofPerm]
        change some (Msg.update ((moveToken g i x y).2.2.2.2 (_, (moveToken g i x y).1.symm^[_] ((moveToken g i x y).2.2.1 (extend g x.2.1 w)), false))
          (mask d ((moveToken g i x y).2.2.2.2 (_, (moveToken g i x y).1.symm^[_] ((moveToken g i x y).2.2.1 (extend g x.2.1 w)), true)))) = _
        rw [this]
        simp only [moveToken, rename, Equiv.swap_apply_self]
      | search w =>
        by_cases h0 : count w (H.take p) = 0
        · simp only [Option.map_some, if_pos h0]
        · simp only [Option.map_some, if_neg h0] at hold ⊢
          have hle : count w (H.take p) < 2 ^ 32 := Nat.lt_of_le_of_lt (count_take_le w H p) (hfit w)
          have := hstay _ (List.mem_of_getElem? hold) (by
            simp only [UInt32.toNat_ofNat', Nat.mod_eq_of_lt hle]
            omega)
          have hc := hchain w (count w (H.take p) - 1)
          simp only [crypto, ofPerm] at this ⊢
          change some (Msg.search (⟨(moveToken g i x y).1.symm^[_] ((moveToken g i x y).2.2.1 (extend g x.2.1 w)), _, _⟩ : SearchReq ST DK)) = _
          rw [hc, this]
          rfl
  unfold view
  rw [hmsg]
  refine List.map_congr_left (fun m hm => congrArg (Prod.mk m) ?_)
  cases m with
  | update t e => rfl
  | search r =>
    refine List.map_congr_left (fun b hb => ?_)
    have hb := List.mem_range.mp hb
    have hs := hstay r hm (by omega)
    have hit : (moveToken g i x y).1^[b] r.token = Equiv.swap (chain g x i) y (x.1^[b] r.token) := by
      conv => lhs; rw [← hs]
      exact rename_iterate _ _ _ _ _
    change ((moveToken g i x y).2.2.2.2 (_, (moveToken g i x y).1^[b] r.token, false), (moveToken g i x y).2.2.2.2 (_, (moveToken g i x y).1^[b] r.token, true)) = _
    rw [hit]
    simp only [moveToken, rename, Equiv.swap_apply_self]
    rfl

end

/-! ## Collisions of chains -/

/-- Two keywords of the dictionary have the same index or the same key, or two of the first `L` search tokens of the keywords are equal. -/
def ChainBad {U : Finset Kw} [DecidableEq Seed] (g : Kw → Seed) (W : Finset Kw) (L : Nat) (x : World U Seed ST DK) : Prop :=
  ((∃ a ∈ W, ∃ b ∈ W, a ≠ b ∧ extend g x.2.1 a = extend g x.2.1 b) ∨
    (∃ a ∈ W.image (extend g x.2.1), ∃ b ∈ W.image (extend g x.2.1), a ≠ b ∧ x.2.2.2.1 a = x.2.2.2.1 b)) ∨
    ((∃ s ∈ W.image (extend g x.2.1), ∃ j, 0 < j ∧ j < L ∧ x.1^[j] (x.2.2.1 s) = x.2.2.1 s) ∨
      (∃ s ∈ W.image (extend g x.2.1), ∃ s' ∈ W.image (extend g x.2.1), s ≠ s' ∧ ∃ t < L, x.2.2.1 s = x.1.symm^[t] (x.2.2.1 s')))

/-- The bound on the probability of such a collision -/
noncomputable def chainsBound (Seed DK ST : Type) [Fintype Seed] [Fintype DK] [Fintype ST] (k L : Nat) : ℚ :=
  (k.choose 2 : ℚ) / Fintype.card Seed + (k.choose 2 : ℚ) / Fintype.card DK +
    (k * ((L : ℚ) / (Fintype.card ST - L)) + (k * k * L : ℕ) * (1 / Fintype.card ST))

theorem chain_injective {U : Finset Kw} [DecidableEq Seed] (g : Kw → Seed) (W : Finset Kw) (L : Nat) (x : World U Seed ST DK)
    (hx : ¬ ChainBad g W L x) (i j : Kw × Nat) (hi : i ∈ W ×ˢ Finset.range L) (hj : j ∈ W ×ˢ Finset.range L)
    (h : chain g x i = chain g x j) : i = j := by
  obtain ⟨w, a⟩ := i
  obtain ⟨v, b⟩ := j
  simp only [Finset.mem_product, Finset.mem_range] at hi hj
  simp only [ChainBad, not_or] at hx
  obtain ⟨⟨h1, -⟩, h3, h4⟩ := hx
  have key : ∀ (w v : Kw) (a b : Nat), w ∈ W → v ∈ W → a ≤ b → b < L → chain g x (w, a) = chain g x (v, b) → (w, a) = (v, b) := by
    intro w v a b hw hv hab hb h
    have e : x.2.2.1 (extend g x.2.1 w) = x.1.symm^[b - a] (x.2.2.1 (extend g x.2.1 v)) := by
      have := congrArg (x.1^[a]) h
      unfold chain at this
      dsimp only at this
      rw [iterate_back _ _ _ _ (le_refl a), iterate_back _ _ _ _ hab, Nat.sub_self] at this
      exact this
    by_cases hs : extend g x.2.1 w = extend g x.2.1 v
    · have hwv : w = v := by
        by_contra hne
        exact h1 ⟨w, hw, v, hv, hne, hs⟩
      subst hwv
      rcases Nat.eq_or_lt_of_le hab with rfl | hlt
      · rfl
      · refine absurd ⟨_, Finset.mem_image_of_mem _ hw, b - a, by omega, by omega, ?_⟩ h3
        conv => lhs; rw [e]
        rw [iterate_back _ _ _ _ (le_refl _), Nat.sub_self]
        rfl
    · exact absurd ⟨_, Finset.mem_image_of_mem _ hw, _, Finset.mem_image_of_mem _ hv, hs, b - a, by omega, e⟩ h4
  rcases Nat.le_total a b with hab | hab
  · exact key w v a b hi.1 hj.1 hab hj.2 h
  · exact (key v w b a hj.1 hi.1 hab hi.2 h.symm).symm

omit [DecidableEq Kw] in
/-- Two values of a random function are related by a function with probability at most `1 / |C|`. -/
theorem prob_related_le {D C : Type} [Fintype D] [DecidableEq D] [Fintype C] [Nonempty C] (a b : D) (hab : a ≠ b) (ρ : C → C) :
    prob (fun f : D → C => f a = ρ (f b)) ≤ 1 / Fintype.card C := by
  classical
  refine prob_le_of_changes (Y := C) (fun f : D → C => f a = ρ (f b)) (fun _ => Finset.univ) (Fintype.card C) Fintype.card_pos
    (fun _ _ => le_rfl) (fun f y => Function.update f a y) ?_
  intro f y f' y' hf hf' _ _ he
  have hy : y = y' := by
    have := congrFun he a
    simpa using this
  refine ⟨funext fun s => ?_, hy⟩
  have hb : ∀ s, s ≠ a → f s = f' s := by
    intro s hs
    have := congrFun he s
    simpa [Function.update_of_ne hs] using this
  by_cases hs : s = a
  · subst hs
    rw [hf, hf', hb b (Ne.symm hab)]
  · exact hb s hs

section

variable [Fintype Seed] [Fintype ST] [Fintype DK] [DecidableEq Seed] [DecidableEq ST] [DecidableEq DK]

omit [Fintype Seed] [Fintype DK] [DecidableEq ST] [DecidableEq DK] in
theorem dictBad_of_chainBad {U : Finset Kw} (g : Kw → Seed) (W : Finset Kw) (n L : Nat) (hnL : n ≤ L) (x : World U Seed ST DK)
    (h : DictBad (ofPerm x.1) g W n x.2) : ChainBad g W L x := by
  rcases h with (h | ⟨s, hs, h⟩) | h
  · exact Or.inl (Or.inl h)
  · simp only [shortCycles, Finset.mem_filter, Finset.mem_univ, true_and] at h
    obtain ⟨j, h0, hj, h⟩ := h
    exact Or.inr (Or.inl ⟨s, hs, j, h0, by omega, (inv_iterate _ _ _).mp h⟩)
  · exact Or.inl (Or.inr h)

theorem prob_chainBad_le [Nonempty Seed] [Nonempty ST] [Nonempty DK] {U : Finset Kw} (g : Kw → Seed) (W : Finset Kw) (L : Nat)
    (hU : W ⊆ U) (hL : L < Fintype.card ST) :
    prob (ChainBad (Seed := Seed) (ST := ST) (DK := DK) (U := U) g W L) ≤ chainsBound Seed DK ST W.card L := by
  have hk : ∀ h : Kw → Seed, (W.image h).card ≤ W.card := fun _ => Finset.card_image_le
  have h0 : (0 : ℚ) ≤ (L : ℚ) / (Fintype.card ST - L) := by
    have : (L : ℚ) ≤ Fintype.card ST := by exact_mod_cast hL.le
    exact div_nonneg (by positivity) (by linarith)
  unfold chainsBound
  refine prob_or_le (prob_or_le ?_ ?_) (prob_or_le ?_ ?_)
  · exact prob_prod_le _ _ (by positivity) (fun π => extend_le hU g)
  · exact prob_prod_le _ _ (by positivity) (fun π => collision_le₃ (fun (h : U → Seed) _ => W.image (extend g h)) _ (fun h _ => hk _))
  · have h := average_bound (ST := ST) 0 W.card 0 (by positivity) L hL
    simp only [zero_add, add_zero] at h
    refine average_le (fun (π : Equiv.Perm ST) (ω : Choice U Seed ST DK) =>
      ∃ s ∈ W.image (extend g ω.1), ∃ j, 0 < j ∧ j < L ∧ π^[j] (ω.2.1 s) = ω.2.1 s) _ (fun π => ?_) h
    refine le_trans (prob_mono (fun ω hω => ?_))
      (hit_le₂ (fun h : U → Seed => W.image (extend g h)) (shortCycles (ofPerm π) L) W.card (fun h => hk _))
    obtain ⟨s, hs, j, hj0, hj, he⟩ := hω
    refine ⟨s, hs, ?_⟩
    simp only [shortCycles, Finset.mem_filter, Finset.mem_univ, true_and]
    exact ⟨j, hj0, hj, (inv_iterate _ _ _).mpr he⟩
  · refine prob_prod_le _ _ (by positivity) (fun π => prob_prod_le _ _ (by positivity) (fun h => ?_))
    refine prob_first_le (p := fun f : Seed → ST => ∃ s ∈ W.image (extend g h), ∃ s' ∈ W.image (extend g h), s ≠ s' ∧ ∃ t < L,
      f s = π.symm^[t] (f s')) ?_
    refine le_trans (prob_mono (q := fun f : Seed → ST => ∃ z ∈ ((W.image (extend g h) ×ˢ W.image (extend g h)) ×ˢ Finset.range L).filter
      (fun z => z.1.1 ≠ z.1.2), f z.1.1 = π.symm^[z.2] (f z.1.2)) ?_) (le_trans (prob_exists_le _ _ (1 / Fintype.card ST) ?_) ?_)
    · rintro f ⟨s, hs, s', hs', hne, t, ht, he⟩
      refine ⟨((s, s'), t), ?_, he⟩
      simp only [Finset.mem_filter, Finset.mem_product, Finset.mem_range]
      exact ⟨⟨⟨hs, hs'⟩, ht⟩, hne⟩
    · intro z hz
      exact prob_related_le z.1.1 z.1.2 (Finset.mem_filter.mp hz).2 (π.symm^[z.2])
    · refine mul_mono (le_trans (Finset.card_filter_le _ _) ?_) _ (by positivity)
      rw [Finset.card_product, Finset.card_product, Finset.card_range]
      exact Nat.mul_le_mul_right _ (Nat.mul_le_mul (hk _) (hk _))

end

/-! ## Hidden points are secrets -/

/-- A hidden point is not told. -/
theorem hidden_secret {U : Finset Kw} (T : Perm ST) (g : Kw → Seed) (garbage : ST × DK) (H : List (Cmd Kw Index))
    (hfit : Spec.CountsFit H) (ω : Choice U Seed ST DK) (hd : Spec.PointsDistinct (crypto T g ω) H) (d : DK) (s : ST)
    (hs : Spec.Hidden (crypto T g ω) H (d, s)) (r : SearchReq ST DK) (hr : .search r ∈ transcript (crypto T g ω) garbage Map.empty H)
    (j : Nat) (hj : j < r.addCount.toNat) (he : s = T.eval^[j] r.token) : r.derivationKey ≠ d := by
  rintro rfl
  obtain ⟨p, hp⟩ := List.getElem?_of_mem hr
  exact request_shown _ garbage H hfit hd p r hp j hj (he ▸ hs)

theorem view_map_prefix (c : Crypto Kw Seed ST DK) (garbage : ST × DK) (f : Cmd Kw Index × Cmd Kw Index → Cmd Kw Index)
    (P Q : List (Cmd Kw Index × Cmd Kw Index)) (h : Q <+: P) : view c garbage (Q.map f) = (view c garbage (P.map f)).take Q.length := by
  obtain ⟨R, rfl⟩ := h
  rw [← view_take]
  congr 1
  simp

/-- The first `L` search tokens of the dictionary are secret, until they are told. -/
noncomputable def secrecy [DecidableEq Seed] [DecidableEq ST] {U : Finset Kw} (g : Kw → Seed) (garbage : ST × DK) (W : Finset Kw) (n L : Nat)
    (hn32 : n < 2 ^ 32) (hnL : n ≤ L) :
    Chained (World U Seed ST DK) (Cmd Kw Index × Cmd Kw Index) (Seen ST DK) (ST × (DK → Token × Token)) ST (Kw × Nat) (U → Seed) where
  known x := x.2.1
  v x P := view (crypto (ofPerm x.1) g x.2) garbage (P.map Prod.snd)
  ask := evaluated
  other x s := x.1 s
  allowed := Rules W n
  good x := ¬ ChainBad g W L x
  I := W ×ˢ Finset.range L
  level := Prod.snd
  L := L
  point i x := chain g x i
  told i x P := Told x.1 (view (crypto (ofPerm x.1) g x.2) garbage (P.map Prod.snd)) (chain g x i)
  move i x y := moveToken g i x y
  allowed_nil := rules_nil W n
  v_prefix x P Q h := view_map_prefix _ garbage Prod.snd P Q h
  told_mono i x P Q h := by
    rintro ⟨r, rest, hr, hj⟩
    rw [view_map_prefix _ garbage Prod.snd P Q h] at hr
    exact ⟨r, rest, List.mem_of_mem_take hr, hj⟩
  known_move _ _ _ := rfl
  point_move i x y := chain_move g i x y
  move_move i x y := move_move g i x y
  v_move i hi x y hg hy P hP ht := by
    obtain ⟨-, ⟨-, hW⟩, hcount⟩ := hP
    refine view_move g garbage W n hn32 x _ hW (fun v => (hcount v).2) i y (fun j hj => hy j ?_) ht
    rw [Finset.mem_product, Finset.mem_range] at hj ⊢
    exact ⟨hj.1, by omega⟩
  ask_move i x y s h1 h2 h3 h4 := by
    have e1 := Equiv.swap_apply_of_ne_of_ne h1 h2
    have e2 := Equiv.swap_apply_of_ne_of_ne h3 h4
    simp only [evaluated, moveToken, rename, Equiv.Perm.mul_apply, e1, e2]
  other_point i hi x s hg he hl := by
    obtain ⟨w, a⟩ := i
    rw [Finset.mem_product, Finset.mem_range] at hi
    have hs : s = chain g x (w, a + 1) := by
      unfold chain at he ⊢
      rw [Function.iterate_succ_apply', ← he, Equiv.symm_apply_apply]
    have hmem : (w, a + 1) ∈ W ×ˢ Finset.range L := by
      rw [Finset.mem_product, Finset.mem_range]
      exact ⟨hi.1, hl⟩
    refine ⟨(w, a + 1), hmem, hs, rfl, ?_⟩
    rintro P ⟨-, ⟨-, hW⟩, hcount⟩ ht
    obtain ⟨r, hr, j, hj, hs', v, hv, hle, hc, -⟩ := told_chain g garbage W n hn32 x _ hW (fun v => (hcount v).2) _ ht
    have := chain_injective g W L x hg _ _ hmem (by
      rw [Finset.mem_product, Finset.mem_range]
      exact ⟨hv, by dsimp only; omega⟩) hc
    simp only [Prod.mk.injEq] at this
    refine ⟨r, _, List.mem_map.mpr ⟨_, hr, rfl⟩, j + 1, by omega, ?_⟩
    rw [Function.iterate_succ_apply', ← hs', ← hs, he]

variable [Fintype Seed] [Fintype ST] [Fintype DK] [DecidableEq Seed] [DecidableEq ST] [DecidableEq DK]

omit [Fintype Seed] [Fintype DK] [DecidableEq ST] [DecidableEq DK] in
/-- The permutation of the choices for two histories with the same leakage does not change what is computed for tokens that are no
secrets. -/
theorem exists_perm_oracle {U : Finset Kw} (g : Kw → Seed) (garbage : ST × DK) (W : Finset Kw) (n L : Nat) (hn32 : n < 2 ^ 32) (hnL : n ≤ L)
    (P : List (Cmd Kw Index × Cmd Kw Index)) (hP : Rules W n P) :
    ∃ φ : World U Seed ST DK → World U Seed ST DK, Function.Injective φ ∧ (∀ x, (φ x).2.1 = x.2.1) ∧ ∀ x, ¬ ChainBad g W L x →
      view (crypto (ofPerm (φ x).1) g (φ x).2) garbage (P.map Prod.fst) = view (crypto (ofPerm x.1) g x.2) garbage (P.map Prod.snd) ∧
      ∀ s, (∀ i ∈ W ×ˢ Finset.range L, i.2 < n → s = chain g x i →
        Told x.1 (view (crypto (ofPerm x.1) g x.2) garbage (P.map Prod.snd)) (chain g x i)) → evaluated (φ x) s = evaluated x s := by
  obtain ⟨hleak, ⟨hW, hW'⟩, hcount⟩ := hP
  have hex := fun π : Equiv.Perm ST => exists_perm_values (U := U) (ofPerm π) g garbage W n hn32 _ _ hleak hW hW'
    (fun w => (hcount w).1) (fun w => (hcount w).2)
  choose φ hinj hfst hφ using hex
  refine ⟨fun x => (x.1, φ x.1 x.2), ?_, fun x => hfst x.1 x.2, fun x hx => ?_⟩
  · rintro ⟨π, ω⟩ ⟨π', ω'⟩ he
    simp only [Prod.mk.injEq] at he
    obtain ⟨rfl, he⟩ := he
    rw [hinj π he]
  have hdict : ¬ DictBad (ofPerm x.1) g W n x.2 := fun h => hx (dictBad_of_chainBad g W n L hnL x h)
  obtain ⟨hview, hbad, ⟨σ, hσ, hgen, hdk⟩, hval⟩ := hφ x.1 x.2 hdict
  refine ⟨hview, fun s hs => ?_⟩
  have hfit : Spec.CountsFit (P.map Prod.fst) := fun w => Nat.lt_of_le_of_lt (hcount w).1 hn32
  have hfit' : Spec.CountsFit (P.map Prod.snd) := fun w => Nat.lt_of_le_of_lt (hcount w).2 hn32
  have hpd := pointsDistinct_of (ofPerm x.1) g _ n (fun w => (hcount w).1) _ hbad
  have hpd' := pointsDistinct_of (ofPerm x.1) g _ n (fun w => (hcount w).2) x.2 (fun h => hdict (dictBad_of_bad hW' h))
  have hsame : transcript (crypto (ofPerm x.1) g (φ x.1 x.2)) garbage Map.empty (P.map Prod.fst) =
      transcript (crypto (ofPerm x.1) g x.2) garbage Map.empty (P.map Prod.snd) := by
    have := congrArg (List.map Prod.fst) hview
    simpa [view, List.map_map, Function.comp_def] using this
  -- a token of the chains that is told was told with its key
  have hkey : ∀ w ∈ W, ∀ a < n, s = chain g x (w, a) → ∃ r, .search r ∈ transcript (crypto (ofPerm x.1) g x.2) garbage Map.empty (P.map Prod.snd) ∧
      ∃ j < r.addCount.toNat, s = x.1^[j] r.token ∧ r.derivationKey = x.2.2.2.1 (extend g x.2.1 w) := by
    intro w hw a ha he
    have hmem : (w, a) ∈ W ×ˢ Finset.range L := by
      rw [Finset.mem_product, Finset.mem_range]
      exact ⟨hw, by dsimp only; omega⟩
    obtain ⟨r, hr, j, hj, hs', v, hv, hle, hc, hk⟩ := told_chain g garbage W n hn32 x _ hW' (fun v => (hcount v).2) _ (hs _ hmem ha he)
    have := chain_injective g W L x hx _ _ hmem (by
      rw [Finset.mem_product, Finset.mem_range]
      exact ⟨hv, by dsimp only; omega⟩) hc
    simp only [Prod.mk.injEq] at this
    exact ⟨r, hr, j, hj, he.trans hs', by rw [hk, this.1]⟩
  have h1 : ∀ d, ¬ Spec.Hidden (crypto (ofPerm x.1) g x.2) (P.map Prod.snd) (d, s) := by
    intro d hh
    obtain ⟨m, w, a, ⟨hslot, -⟩, he⟩ := id hh
    have ha := Nat.lt_of_lt_of_le (slot_lt hslot) (hcount w).2
    obtain ⟨y, hy, -⟩ := hslot
    simp only [Spec.point, Prod.mk.injEq] at he
    obtain ⟨r, hr, j, hj, hs', hk⟩ := hkey w (hW' (mem_cmdKeywords hy)) a ha he.2
    exact hidden_secret (ofPerm x.1) g garbage _ hfit' x.2 hpd' d s hh r hr j hj hs' (hk.trans he.1.symm)
  have h2 : ∀ d, ¬ Spec.Hidden (crypto (ofPerm x.1) g (φ x.1 x.2)) (P.map Prod.fst) (d, s) := by
    intro d hh
    obtain ⟨m, w, a, ⟨hslot, -⟩, he⟩ := id hh
    have ha := Nat.lt_of_lt_of_le (slot_lt hslot) (hcount w).1
    obtain ⟨y, hy, -⟩ := hslot
    simp only [Spec.point, crypto, hgen, hdk, hfst, Prod.mk.injEq, Function.comp_apply] at he
    have hwW : extend g x.2.1 w ∈ W.image (extend g x.2.1) := Finset.mem_image_of_mem _ (hW (mem_cmdKeywords hy))
    obtain ⟨w', hw', hσw⟩ := Finset.mem_image.mp ((image_perm _ σ hσ _).mp hwW)
    rw [← hσw] at he
    obtain ⟨r, hr, j, hj, hs', hk⟩ := hkey w' hw' a ha he.2
    exact hidden_secret (ofPerm x.1) g garbage _ hfit (φ x.1 x.2) hpd d s hh r (hsame ▸ hr) j hj hs' (hk.trans he.1.symm)
  refine Prod.ext rfl (funext fun d => Prod.ext ?_ ?_)
  · exact hval d s (h2 d) (h1 d) false
  · exact hval d s (h2 d) (h1 d) true

/-- **C83** (Sophos): a strategy that knows the hash function, sees what the server sees, chooses pairs of commands with the same leakage
for both components, and evaluates, for search tokens of its choice, the permutation and the function that gives update tokens and
masks, finds out which component is executed with an advantage of at most the bound for collisions and the bound for a guess. -/
theorem C83_sophos [Nonempty Seed] {U : Finset Kw} (g : Kw → Seed) (garbage : ST × DK) (W : Finset Kw) (hU : W ⊆ U) (n : Nat)
    (hn32 : n < 2 ^ 32)
    (σ : (U → Seed) → List (Seen ST DK ⊕ (ST × (DK → Token × Token))) → Option (Step Kw ST)) (steps : Nat)
    (hsize : n + steps < Fintype.card ST) (hsteps : 2 * steps + W.card * (n + steps) < Fintype.card ST)
    (E : (U → Seed) → List (Seen ST DK ⊕ (ST × (DK → Token × Token))) → Prop) :
    |prob (fun x : World U Seed ST DK => E x.2.1 (oview g garbage Prod.fst x (play (ORules W n) (σ x.2.1) (oview g garbage Prod.fst x) steps))) -
        prob (fun x : World U Seed ST DK => E x.2.1 (oview g garbage Prod.snd x
          (play (ORules W n) (σ x.2.1) (oview g garbage Prod.snd x) steps)))| ≤
      chainsBound Seed DK ST W.card (n + steps) + chainBound (Fintype.card ST) (W.card * (n + steps)) steps := by
  classical
  have : Nonempty ST := ⟨garbage.1⟩
  have : Nonempty DK := ⟨garbage.2⟩
  have hI : (W ×ˢ Finset.range (n + steps)).card = W.card * (n + steps) := by rw [Finset.card_product, Finset.card_range]
  have h := (secrecy (U := U) g garbage W n (n + steps) hn32 (by omega)).dist
    (fun x P => view (crypto (ofPerm x.1) g x.2) garbage (P.map Prod.fst)) (fun x => view_map_prefix _ garbage Prod.fst) n ?_
    σ steps rfl (by exact hI ▸ hsteps) E
  · refine le_trans h ?_
    change _ + chainBound _ (W ×ˢ Finset.range (n + steps)).card _ ≤ _
    rw [hI]
    exact add_le_add_left (le_trans (prob_mono (fun x hx => not_not.mp hx)) (prob_chainBad_le g W _ hU hsize)) _
  · exact fun P hP => exists_perm_oracle g garbage W n (n + steps) hn32 (by omega) P hP

/-- **C80** (Sophos) with a random permutation: events that depend on it have the same probability with the two random keys, up to the
probability that the keys are equal. -/
theorem C80_sophos_random_keys {Z X Y : Type} [Fintype Z] [Nonempty Z] [Fintype X] [Fintype Y] {P : Type} [Fintype P] [Nonempty P] {U : Finset Kw}
    (a : Z ≃ DK × X) (b : Z ≃ ST × Y) (E : P × Choice U Seed ST DK → Prop) :
    |prob (fun x : P × Keyed U Seed ST DK Z => E (x.1, keyed a b x.2)) - prob E| ≤ 1 / 256 ^ 32 := by
  classical
  have h1 := prob_average (P := P) (fun π (x : Keyed U Seed ST DK Z) => E (π, keyed a b x))
  have h2 := prob_average (P := P) (fun π (ω : Choice U Seed ST DK) => E (π, ω))
  have hp : (0 : ℚ) < Fintype.card P := by exact_mod_cast Fintype.card_pos
  change |_ - prob (fun x : P × Choice U Seed ST DK => E (x.1, x.2))| ≤ _
  rw [h1, h2, ← sub_div, ← Finset.sum_sub_distrib, abs_div, abs_of_pos hp, div_le_iff₀ hp]
  refine le_trans (Finset.abs_sum_le_sum_abs _ _) (le_trans (Finset.sum_le_sum (fun π _ => C80_sophos_keys a b (fun ω => E (π, ω)))) ?_)
  rw [Finset.sum_const, Finset.card_univ, nsmul_eq_mul, mul_comm]

/-- **C81** (Sophos) with a random permutation and the two random keys of C80: the probability that some history over the dictionary is
answered wrongly. -/
theorem C81_sophos_random_keyed {Z X Y : Type} [Fintype Z] [Nonempty Z] [Fintype X] [Fintype Y] {U : Finset Kw} (a : Z ≃ DK × X)
    (b : Z ≃ ST × Y) (g : Kw → Seed) (W : Finset Kw) (hU : W ⊆ U) (n : Nat) (hN : n < Fintype.card ST) (hn32 : n < 2 ^ 32) :
    prob (fun x : Equiv.Perm ST × Keyed U Seed ST DK Z => ∃ (garbage : ST × DK) (ops : List (Op Kw)),
      (∀ w, (Spec.docs w (Spec.insertions ops)).length ≤ quota W n w) ∧
      (run (crypto (ofPerm x.1) g (keyed a b x.2)) garbage Sys.init ops).2 ≠ Spec.run [] ops) ≤
      randomDict Seed DK ST W.card n + 1 / 256 ^ 32 :=
  le_transfer
    (C80_sophos_random_keys a b (fun x : Equiv.Perm ST × Choice U Seed ST DK => ∃ (garbage : ST × DK) (ops : List (Op Kw)),
      (∀ w, (Spec.docs w (Spec.insertions ops)).length ≤ quota W n w) ∧
      (run (crypto (ofPerm x.1) g x.2) garbage Sys.init ops).2 ≠ Spec.run [] ops))
    (C81_sophos_random_search g W hU n hN hn32)

/-- **C82** (Sophos) with a random permutation and the two random keys of C80. -/
theorem C82_sophos_random_keyed {Z X Y : Type} [Fintype Z] [Nonempty Z] [Fintype X] [Fintype Y] [Nonempty Seed] {U : Finset Kw}
    (a : Z ≃ DK × X) (b : Z ≃ ST × Y) (g : Kw → Seed) (garbage : ST × DK)
    (W : Finset Kw) (hU : W ⊆ U) (n : Nat) (hN : n < Fintype.card ST) (hn32 : n < 2 ^ 32)
    (σ : Equiv.Perm ST → List (Msg Token Index (SearchReq ST DK) × List (Token × Token)) → Option (Cmd Kw Index × Cmd Kw Index))
    (steps : Nat) (E : Equiv.Perm ST → List (Msg Token Index (SearchReq ST DK) × List (Token × Token)) → Prop) :
    |prob (fun x : Equiv.Perm ST × Keyed U Seed ST DK Z => E x.1 (view (crypto (ofPerm x.1) g (keyed a b x.2)) garbage
          ((play (Rules W n) (σ x.1) (fun P => view (crypto (ofPerm x.1) g (keyed a b x.2)) garbage (P.map Prod.fst)) steps).map Prod.fst))) -
        prob (fun x : Equiv.Perm ST × Keyed U Seed ST DK Z => E x.1 (view (crypto (ofPerm x.1) g (keyed a b x.2)) garbage
          ((play (Rules W n) (σ x.1) (fun P => view (crypto (ofPerm x.1) g (keyed a b x.2)) garbage (P.map Prod.snd)) steps).map Prod.snd)))| ≤
      randomHiding Seed DK ST W.card n + 2 * (1 / 256 ^ 32) := by
  have : Nonempty ST := ⟨garbage.1⟩
  have : Nonempty DK := ⟨garbage.2⟩
  exact dist_transfer
    (C80_sophos_random_keys a b (fun x : Equiv.Perm ST × Choice U Seed ST DK => E x.1 (view (crypto (ofPerm x.1) g x.2) garbage
      ((play (Rules W n) (σ x.1) (fun P => view (crypto (ofPerm x.1) g x.2) garbage (P.map Prod.fst)) steps).map Prod.fst))))
    (C80_sophos_random_keys a b (fun x : Equiv.Perm ST × Choice U Seed ST DK => E x.1 (view (crypto (ofPerm x.1) g x.2) garbage
      ((play (Rules W n) (σ x.1) (fun P => view (crypto (ofPerm x.1) g x.2) garbage (P.map Prod.snd)) steps).map Prod.snd))))
    (C82_sophos_random g garbage W hU n hN hn32 σ steps E)

/-- For an instance, with tokens and derivation keys that are read from different bytes -/
example (E : Equiv.Perm (Vector UInt8 256) → List (Msg Token Index (SearchReq (Vector UInt8 256) (Vector UInt8 32)) × List (Token × Token)) → Prop) :
    |prob (fun x : Equiv.Perm (Vector UInt8 256) × Keyed (Finset.range 10) (Vector UInt8 16) (Vector UInt8 256) (Vector UInt8 32)
          (Vector UInt8 32 × Vector UInt8 256) => E x.1 (view (crypto (ofPerm x.1) (fun _ : Nat => Vector.replicate 16 0)
            (keyed (Equiv.refl _) (Equiv.prodComm _ _) x.2)) (Vector.replicate 256 0, Vector.replicate 32 0)
          ((play (Rules (Finset.range 10) 3) sampleStrategy (fun P => view (crypto (ofPerm x.1) (fun _ : Nat => Vector.replicate 16 0)
            (keyed (Equiv.refl _) (Equiv.prodComm _ _) x.2)) (Vector.replicate 256 0, Vector.replicate 32 0) (P.map Prod.fst)) 3).map Prod.fst))) -
      prob (fun x : Equiv.Perm (Vector UInt8 256) × Keyed (Finset.range 10) (Vector UInt8 16) (Vector UInt8 256) (Vector UInt8 32)
          (Vector UInt8 32 × Vector UInt8 256) => E x.1 (view (crypto (ofPerm x.1) (fun _ : Nat => Vector.replicate 16 0)
            (keyed (Equiv.refl _) (Equiv.prodComm _ _) x.2)) (Vector.replicate 256 0, Vector.replicate 32 0)
          ((play (Rules (Finset.range 10) 3) sampleStrategy (fun P => view (crypto (ofPerm x.1) (fun _ : Nat => Vector.replicate 16 0)
            (keyed (Equiv.refl _) (Equiv.prodComm _ _) x.2)) (Vector.replicate 256 0, Vector.replicate 32 0) (P.map Prod.snd)) 3).map Prod.snd)))| ≤
      randomHiding (Vector UInt8 16) (Vector UInt8 32) (Vector UInt8 256) (Finset.range 10).card 3 + 2 * (1 / 256 ^ 32) :=
  have : Nonempty (Vector UInt8 256) := ⟨Vector.replicate 256 0⟩
  have : Nonempty (Vector UInt8 32) := ⟨Vector.replicate 32 0⟩
  have : Nonempty (Vector UInt8 16) := ⟨Vector.replicate 16 0⟩
  C82_sophos_random_keyed (U := Finset.range 10) _ _ (fun _ : Nat => (Vector.replicate 16 0 : Vector UInt8 16))
    ((Vector.replicate 256 0 : Vector UInt8 256), (Vector.replicate 32 0 : Vector UInt8 32)) (Finset.range 10) (Finset.Subset.refl _) 3
    (by rw [card_bytes]; norm_num) (by decide) (fun _ => sampleStrategy) 3 E

/-- **C83** (Sophos), with the two random keys of C80. -/
theorem C83_sophos_keyed {Z X Y : Type} [Fintype Z] [Nonempty Z] [Fintype X] [Fintype Y] [Nonempty Seed] {U : Finset Kw}
    (a : Z ≃ DK × X) (b : Z ≃ ST × Y) (g : Kw → Seed) (garbage : ST × DK) (W : Finset Kw) (hU : W ⊆ U) (n : Nat) (hn32 : n < 2 ^ 32)
    (σ : (U → Seed) → List (Seen ST DK ⊕ (ST × (DK → Token × Token))) → Option (Step Kw ST)) (steps : Nat)
    (hsize : n + steps < Fintype.card ST) (hsteps : 2 * steps + W.card * (n + steps) < Fintype.card ST)
    (E : (U → Seed) → List (Seen ST DK ⊕ (ST × (DK → Token × Token))) → Prop) :
    |prob (fun x : Equiv.Perm ST × Keyed U Seed ST DK Z => E (keyed a b x.2).1 (oview g garbage Prod.fst (x.1, keyed a b x.2)
          (play (ORules W n) (σ (keyed a b x.2).1) (oview g garbage Prod.fst (x.1, keyed a b x.2)) steps))) -
        prob (fun x : Equiv.Perm ST × Keyed U Seed ST DK Z => E (keyed a b x.2).1 (oview g garbage Prod.snd (x.1, keyed a b x.2)
          (play (ORules W n) (σ (keyed a b x.2).1) (oview g garbage Prod.snd (x.1, keyed a b x.2)) steps)))| ≤
      chainsBound Seed DK ST W.card (n + steps) + chainBound (Fintype.card ST) (W.card * (n + steps)) steps + 2 * (1 / 256 ^ 32) :=
  dist_transfer
    (C80_sophos_random_keys a b (fun x : World U Seed ST DK =>
      E x.2.1 (oview g garbage Prod.fst x (play (ORules W n) (σ x.2.1) (oview g garbage Prod.fst x) steps))))
    (C80_sophos_random_keys a b (fun x : World U Seed ST DK =>
      E x.2.1 (oview g garbage Prod.snd x (play (ORules W n) (σ x.2.1) (oview g garbage Prod.snd x) steps))))
    (C83_sophos g garbage W hU n hn32 σ steps hsize hsteps E)

/-- With keyword indices of 16 bytes, derivation keys of 32 bytes, search tokens of 256 bytes, a million keywords with a thousand insertions
each and `2 ^ 80` steps, the bound is below `2^-88`. -/
theorem C83_sophos_number :
    chainsBound (Vector UInt8 16) (Vector UInt8 32) (Vector UInt8 256) (2 ^ 20) (2 ^ 10 + 2 ^ 80) +
      chainBound (256 ^ 256) (2 ^ 20 * (2 ^ 10 + 2 ^ 80)) (2 ^ 80) < 1 / 2 ^ 88 := by
  unfold chainsBound chainBound
  rw [card_bytes, card_bytes, card_bytes, Nat.choose_two_right]
  norm_num

omit [Fintype Seed] [Fintype ST] [Fintype DK] [DecidableEq Seed] [DecidableEq ST] [DecidableEq DK] in
/-- **C83** (Sophos): that the observer cannot invert the permutation is necessary. From the request for a keyword, the inverse gives the
token of the next insertion for that keyword, so such an observer recognises it. -/
theorem C83_sophos_inverse {U : Finset Kw} (g : Kw → Seed) (garbage : ST × DK) (x : World U Seed ST DK) (w : Kw) (i j : Index) :
    ∃ (r : SearchReq ST DK) (e : Index) (l : List (Token × Token)) (u : Seen ST DK),
      view (crypto (ofPerm x.1) g x.2) garbage [.insert w i, .search w, .insert w j] =
        [u, (.search r, l), (.update ((evaluated x (x.1.symm r.token)).2 r.derivationKey).1 e, [])] := by
  have h := messages_get (crypto (ofPerm x.1) g x.2) garbage [.insert w i, .search w, .insert w j]
    (fun v => Nat.lt_of_le_of_lt (count_le v _) (by simp))
  have h0 := h 0
  have h1 := h 1
  have h2 := h 2
  have h3 := h 3
  simp only [List.getElem?_cons_zero, List.getElem?_cons_succ, List.getElem?_nil, List.take_succ_cons, List.take_zero, Option.map_some,
    Option.map_none] at h0 h1 h2 h3
  have c1 : count w [.insert w i] = 1 := by simp [count, inserted, insertedFrom]
  have c2 : count w [.insert w i, .search w] = 1 := by simp [count, inserted, insertedFrom]
  simp only [c1] at h1
  rw [c2] at h2
  unfold view
  generalize transcript (crypto (ofPerm x.1) g x.2) garbage Map.empty [.insert w i, .search w, .insert w j] = t at *
  match t with
  | [] => cases h0
  | [_] => cases h1
  | [_, _] => cases h2
  | _ :: _ :: _ :: _ :: _ => cases h3
  | [a, b, c] =>
    simp only [List.getElem?_cons_zero, List.getElem?_cons_succ, Option.some.injEq] at h0 h1 h2
    subst h0 h1 h2
    exact ⟨_, _, _, _, rfl⟩

/-! ## An instance -/

/-- A strategy that looks into the answers: it searches for a keyword, evaluates the functions at the token of the request and at the next
one, inserts for the keyword searched or for another one, and evaluates the functions at an arbitrary token. -/
def sampleAsking (_ : Finset.range 10 → Vector UInt8 16)
    (seen : List (Seen (Vector UInt8 256) (Vector UInt8 32) ⊕ (Vector UInt8 256 × (Vector UInt8 32 → Token × Token)))) :
    Option (Step Nat (Vector UInt8 256)) :=
  match seen with
  | [] => some (.inl (.insert 1 5, .insert 3 5))
  | [_] => some (.inl (.search 1, .search 3))
  | [_, .inl (.search r, _)] => some (.inr r.token)
  | [_, _, .inr (s, _)] => some (.inr s)
  | [_, _, .inr _, .inr (s, f)] => if (f (Vector.replicate 32 0)).1 = Vector.replicate 16 0 then some (.inr s) else
      some (.inl (.insert 1 6, .insert 2 7))
  | [_, _, _, _, _] => some (.inr (Vector.replicate 256 0))
  | _ => none

/-- What it sees of an insertion, a search and the token of the request: the values are those of the insertion. -/
example (x : World (Finset.range 10) (Vector UInt8 16) (Vector UInt8 256) (Vector UInt8 32)) (s : Vector UInt8 256) (d : Vector UInt8 32)
    (hs : x.2.2.1 (extend (fun _ => Vector.replicate 16 0) x.2.1 1) = s) (hd : x.2.2.2.1 (extend (fun _ => Vector.replicate 16 0) x.2.1 1) = d) :
    oview (fun _ => Vector.replicate 16 0) (Vector.replicate 256 0, Vector.replicate 32 0) Prod.fst x
        [.inl (.insert 1 5, .insert 3 5), .inl (.search 1, .search 3), .inr s] =
      [.inl (.update (x.2.2.2.2 (d, s, false)) (mask 5 (x.2.2.2.2 (d, s, true))), []),
        .inl (.search ⟨s, d, 1⟩, [(x.2.2.2.2 (d, s, false), x.2.2.2.2 (d, s, true))]),
        .inr (x.1 s, fun d => (x.2.2.2.2 (d, s, false), x.2.2.2.2 (d, s, true)))] := by
  subst hs hd
  rfl

/-- Its advantage is small. -/
example (E : (Finset.range 10 → Vector UInt8 16) →
      List (Seen (Vector UInt8 256) (Vector UInt8 32) ⊕ (Vector UInt8 256 × (Vector UInt8 32 → Token × Token))) → Prop) :
    |prob (fun x : World (Finset.range 10) (Vector UInt8 16) (Vector UInt8 256) (Vector UInt8 32) =>
        E x.2.1 (oview (fun _ => Vector.replicate 16 0) (Vector.replicate 256 0, Vector.replicate 32 0) Prod.fst x
          (play (ORules (Finset.range 10) 3) (sampleAsking x.2.1)
            (oview (fun _ => Vector.replicate 16 0) (Vector.replicate 256 0, Vector.replicate 32 0) Prod.fst x) 6))) -
      prob (fun x : World (Finset.range 10) (Vector UInt8 16) (Vector UInt8 256) (Vector UInt8 32) =>
        E x.2.1 (oview (fun _ => Vector.replicate 16 0) (Vector.replicate 256 0, Vector.replicate 32 0) Prod.snd x
          (play (ORules (Finset.range 10) 3) (sampleAsking x.2.1)
            (oview (fun _ => Vector.replicate 16 0) (Vector.replicate 256 0, Vector.replicate 32 0) Prod.snd x) 6)))| ≤
      chainsBound (Vector UInt8 16) (Vector UInt8 32) (Vector UInt8 256) 10 9 + chainBound (256 ^ 256) 90 6 := by
  have : Nonempty (Vector UInt8 16) := ⟨Vector.replicate 16 0⟩
  have h := C83_sophos (U := Finset.range 10) (fun _ : Nat => (Vector.replicate 16 0 : Vector UInt8 16))
    ((Vector.replicate 256 0 : Vector UInt8 256), (Vector.replicate 32 0 : Vector UInt8 32)) (Finset.range 10) (Finset.Subset.refl _) 3
    (by decide) sampleAsking 6 (by rw [card_bytes]; norm_num) (by rw [card_bytes, Finset.card_range]; norm_num) E
  rwa [card_bytes, Finset.card_range] at h

end Verif.Ideal.Sophos
