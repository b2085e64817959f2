import Verif.Ideal.Dist
import Verif.Ideal.Cmds
import Verif.Ideal.DianaProps
import Verif.Diana.HidingProps

/-!
# What the Diana server sees, with ideal cryptography: C79

The server sees the messages of the client, and the leaves, tokens and masks that it computes to answer the searches
(`/repo/lib/include/sse/schemes/diana/diana_server.hpp` L146-183). All the functions are chosen at random, keyword tokens and masks
included. A constrained key is ideal: it is represented by the root key and the range, and the server evaluates it in its range only.
-/

namespace Verif.Ideal.Diana

open Verif Verif.Diana Verif.Leak

/-- The masking of documents (`xor_mask`, diana/types.hpp L79-120, see also C39) -/
structure Masking (V : Type) where
  zero : V
  xor : V → V → V
  xor_xor : ∀ x m, xor (xor x m) m = x
  assoc : ∀ x y z, xor (xor x y) z = xor x (xor y z)
  comm : ∀ x y, xor x y = xor y x

/-- What is chosen at random: the hash function, keyword tokens, root keys, update tokens and masks; and the leaves. -/
abbrev Secrets (V : Type) := (Token → Vector UInt8 32) × (Token → Leaf) × (Leaf → Token) × (Leaf → V)

@[inherit_doc Secrets]
abbrev FullChoice {Kw : Type} (U : Finset Kw) (V : Type) := ((U → Token) × Secrets V) × (Leaf × Pos → Leaf)

variable {Kw V : Type} [DecidableEq Kw]

/-- The cryptography given by the hash function and the leaves; the other functions are constant. -/
@[reducible] def base {U : Finset Kw} (M : Masking V) (g : Kw → Token) (h : U → Token) (e : Leaf × Pos → Leaf) : Crypto Kw V where
  RK := Leaf
  CK := Leaf × Nat
  hash := extend g h
  kwToken := fun _ => Vector.replicate 32 0
  root := fun _ => Vector.replicate 32 0
  eval := fun r i => e (r, pos i)
  constrain := fun r _ b => (r, b)
  ceval := fun ck x => if x ≤ ck.2 then some (e (ck.1, pos x)) else none
  maxLeaf := fun ck => ck.2
  emptyCK := (Vector.replicate 32 0, 0)
  token := fun _ => Vector.replicate 16 0
  mask := fun _ => M.zero
  xor := M.xor
  xor_xor := M.xor_xor
  maxLeaf_constrain := by intros; rfl
  ceval_constrain := by intro r b x _ hx; simp [hx]

/-- A message: a search request consists of keyword token, constrained key, and number of insertions. -/
abbrev Message (V : Type) := Msg Token V (Vector UInt8 32 × (Leaf × Nat) × UInt32)

/-- The leaves, tokens and masks that the server computes for a message (`DianaServer::search`, diana_server.hpp L146-183) -/
def served {U : Finset Kw} (M : Masking V) (g : Kw → Token) (ω : FullChoice U V) : Message V → List (Option (Leaf × Token × V))
  | .update _ _ => []
  | .search r => (List.range r.2.2.toNat).map (fun i => ((base M g ω.1.1 ω.2).ceval r.2.1 i).map (fun leaf =>
      (leaf, (withSecret (base M g ω.1.1 ω.2) ω.1.2).token leaf, (withSecret (base M g ω.1.1 ω.2) ω.1.2).mask leaf)))

/-- What the server sees of a history: for each command the message, and what it computes to serve it -/
def view {U : Finset Kw} (M : Masking V) (g : Kw → Token) (ω : FullChoice U V) (H : List (Cmd Kw V)) :
    List (Message V × List (Option (Leaf × Token × V))) :=
  (messages (base M g ω.1.1 ω.2) ω.1.2 H : List (Message V)).map (fun m => (m, served M g ω m))

/-- The bound on the advantage for one history with `k` keywords and `n` insertions: keyword indices of 16 bytes, root keys and
leaves of 32 bytes -/
def hidingBound (k n : Nat) : ℚ :=
  (k.choose 2 : ℚ) / 256 ^ 16 + (k.choose 2 : ℚ) / 256 ^ 32 + (n.choose 2 : ℚ) / 256 ^ 32

/-- Two keywords have the same index, or the same root key, or two insertions have the same leaf. -/
def Bad {U : Finset Kw} (g : Kw → Token) (H : List (Cmd Kw V)) (ω : FullChoice U V) : Prop :=
  ((∃ a ∈ cmdKeywords H, ∃ b ∈ cmdKeywords H, a ≠ b ∧ extend g ω.1.1 a = extend g ω.1.1 b) ∨
    (∃ a ∈ (cmdKeywords H).image (extend g ω.1.1), ∃ b ∈ (cmdKeywords H).image (extend g ω.1.1),
      a ≠ b ∧ ω.1.2.2.1 a = ω.1.2.2.1 b)) ∨
    (∃ a ∈ places (cmdKeywords H) (count · H) (extend g ω.1.1) ω.1.2.2.1,
      ∃ b ∈ places (cmdKeywords H) (count · H) (extend g ω.1.1) ω.1.2.2.1, a ≠ b ∧ ω.2 a = ω.2 b)

theorem sum_count (K : Finset Kw) (H : List (Cmd Kw V)) : ∑ w ∈ K, count w H ≤ H.length := by
  have key : ∀ n, ∑ w ∈ K, (insertedFrom w n H).length ≤ H.length := by
    induction H with
    | nil => intro n; simp [insertedFrom]
    | cons o H ih =>
      intro n
      have := ih (n + 1)
      cases o with
      | insert v i =>
        simp only [insertedFrom, List.length_append, Finset.sum_add_distrib, List.length_cons]
        have h1 : ∑ w ∈ K, (if v = w then [(n, i)] else []).length ≤ 1 := by
          have : ∀ w, (if v = w then [(n, i)] else []).length = if v = w then 1 else 0 := by
            intro w; split <;> rfl
          simp only [this]
          rw [Finset.sum_ite_eq]; split <;> simp
        omega
      | search v => simp only [insertedFrom, List.length_cons]; omega
  exact key 0

theorem prob_bad_le [Fintype V] {U : Finset Kw} (g : Kw → Token) (H : List (Cmd Kw V)) (hU : cmdKeywords H ⊆ U) :
    prob (Bad (U := U) g H) ≤ hidingBound (cmdKeywords H).card H.length := by
  have hk : ∀ h : Kw → Token, ((cmdKeywords H).image h).card ≤ (cmdKeywords H).card := fun _ => Finset.card_image_le
  unfold hidingBound
  refine prob_or_le (prob_or_le ?_ ?_) ?_
  · have := extend_le (Ω₂ := Secrets V) (C := Token) hU g
    rw [card_bytes] at this
    push_cast at this
    exact prob_first_le (Ω := (U → Token) × Secrets V) (Ω₂ := Leaf × Pos → Leaf) (p := fun x =>
      ∃ a ∈ cmdKeywords H, ∃ b ∈ cmdKeywords H, a ≠ b ∧ extend g x.1 a = extend g x.1 b) this
  · have := collision_le₃ (Ω₁ := U → Token) (Ω₂ := Token → Vector UInt8 32) (Ω₄ := (Leaf → Token) × (Leaf → V)) (C := Leaf)
      (fun h _ => (cmdKeywords H).image (extend g h)) _ (fun h _ => hk _)
    rw [card_bytes] at this
    push_cast at this
    exact prob_first_le (Ω := (U → Token) × Secrets V) (Ω₂ := Leaf × Pos → Leaf) (p := fun x =>
      ∃ a ∈ (cmdKeywords H).image (extend g x.1), ∃ b ∈ (cmdKeywords H).image (extend g x.1), a ≠ b ∧ x.2.2.1 a = x.2.2.1 b) this
  · have := collision_last₂ (C := Leaf) (Ω₁ := (U → Token) × Secrets V)
      (fun x => places (cmdKeywords H) (count · H) (extend g x.1) x.2.2.1) H.length
      (fun x => le_trans (card_places _ _ _ _) (sum_count _ H))
    rw [card_bytes] at this
    push_cast at this
    exact this

theorem seedsDistinct_of {U : Finset Kw} (M : Masking V) (g : Kw → Token) (H : List (Cmd Kw V)) (ω : FullChoice U V)
    (h : ¬ Bad g H ω) : Spec.SeedsDistinct (base M g ω.1.1 ω.2) H := by
  intro m n' w v h1 h2 he
  by_contra hne
  exact h (Or.inl (Or.inl ⟨w, mem_cmdKeywords h1, v, mem_cmdKeywords h2, hne, he⟩))

theorem leavesDistinct_of {U : Finset Kw} (M : Masking V) (g : Kw → Token) (H : List (Cmd Kw V)) (hfit : Spec.CountsFit H)
    (ω : FullChoice U V) (h : ¬ Bad g H ω) :
    Spec.LeavesDistinct (withSecret (base M g ω.1.1 ω.2) ω.1.2) H := by
  simp only [Bad, not_or] at h
  obtain ⟨⟨h1, h2⟩, h3⟩ := h
  intro m m' w a v b hs hs' he
  have ha := slot_lt hs
  have hb := slot_lt hs'
  obtain ⟨i, hi, hai⟩ := id hs
  obtain ⟨j, hj, hbj⟩ := id hs'
  have hw := mem_cmdKeywords hi
  have hv := mem_cmdKeywords hj
  simp only [keywordOf] at hw hv
  change ω.2 (ω.1.2.2.1 (extend g ω.1.1 w), pos a) = ω.2 (ω.1.2.2.1 (extend g ω.1.1 v), pos b) at he
  have e2 : (ω.1.2.2.1 (extend g ω.1.1 w), pos a) = (ω.1.2.2.1 (extend g ω.1.1 v), pos b) := by
    by_contra hne
    exact h3 ⟨_, mem_places hw ha, _, mem_places hv hb, hne, he⟩
  obtain ⟨e3, e4⟩ := Prod.mk.inj e2
  have e5 : extend g ω.1.1 w = extend g ω.1.1 v := by
    by_contra hne
    exact h2 ⟨_, Finset.mem_image_of_mem _ hw, _, Finset.mem_image_of_mem _ hv, hne, e3⟩
  have e6 : w = v := by
    by_contra hne
    exact h1 ⟨w, hw, v, hv, hne, e5⟩
  subst e6
  have e7 := pos_inj (Nat.lt_trans ha (hfit w)) (Nat.lt_trans hb (hfit w)) e4
  subst e7
  exact slot_unique hs hs'

/-- The leaves that the server computes for a search are not those of hidden insertions. -/
theorem request_shown (c : Crypto Kw V) (k : Secret c) (H : List (Cmd Kw V)) (hfit : Spec.CountsFit H)
    (hd : Spec.LeavesDistinct (withSecret c k) H) (n : Nat) (r : Vector UInt8 32 × c.CK × UInt32)
    (hr : (messages c k H)[n]? = some (.search r)) (i : Nat) (hi : i < r.2.2.toNat) (leaf : Leaf)
    (hl : c.ceval r.2.1 i = some leaf) : ¬ Spec.Hidden (withSecret c k) H leaf := by
  unfold messages at hr
  rw [transcript_eq c k H [] Map.empty (fun w => rfl) hfit, content_eachFrom, eachFrom_get, List.nil_append] at hr
  obtain ⟨o, ho, hm⟩ := Option.map_eq_some_iff.mp hr
  cases o with
  | insert w j => simp [msgOf] at hm
  | search w =>
    simp only [msgOf] at hm
    have hcount : count w (H.take n) < 2 ^ 32 := Nat.lt_of_le_of_lt (count_take_le w H n) (hfit w)
    by_cases h0 : count w (H.take n) = 0
    · rw [if_pos h0] at hm
      cases hm
      simp at hi
    · rw [if_neg h0] at hm
      cases hm
      simp only [UInt32.toNat_ofNat', Nat.mod_eq_of_lt hcount] at hi
      dsimp only at hl
      rw [c.ceval_constrain _ _ _ (by omega) (by omega)] at hl
      rintro ⟨m, v, b, ⟨hslot, hno⟩, he⟩
      obtain ⟨m', hm', hs'⟩ := slot_of_count H w n i hi
      have heq := hd m' m w _ v b hs' hslot ((Option.some.inj hl).trans he)
      subst heq
      obtain ⟨x, hx, -⟩ := hs'
      obtain ⟨y, hy, -⟩ := hslot
      rw [hx] at hy
      cases hy
      exact hno n hm' ho

/-- For two histories with the same leakage there is a permutation of the secret functions, for given hash function and leaves, that
turns what the server sees in the one into what it sees in the other, but for collisions. -/
theorem exists_perm {U : Finset Kw} (M : Masking V) (g : Kw → Token) (H H' : List (Cmd Kw V)) (hleak : leak H = leak H')
    (hn : ∀ w, count w H < 2 ^ 32) (hn' : ∀ w, count w H' < 2 ^ 32) :
    ∃ φ : (U → Token) → (Leaf × Pos → Leaf) → Secrets V → Secrets V, (∀ h e, Function.Bijective (φ h e)) ∧
      ∀ h e k, ¬ Bad g H ((h, φ h e k), e) → ¬ Bad g H' ((h, k), e) →
        messages (base M g h e) (φ h e k) H = messages (base M g h e) k H' ∧
        ∀ m ∈ (messages (base M g h e) k H' : List (Message V)), served M g ((h, φ h e k), e) m = served M g ((h, k), e) m := by
  have hex : ∀ (h : U → Token) (e : Leaf × Pos → Leaf), ∃ φ : Secret (base M g h e) → Secret (base M g h e),
      Function.Bijective φ ∧
      (Spec.SeedsDistinct (base M g h e) H → Spec.SeedsDistinct (base M g h e) H' → ∀ k,
        Spec.LeavesDistinct (withSecret (base M g h e) (φ k)) H →
        Spec.LeavesDistinct (withSecret (base M g h e) k) H' →
        messages (base M g h e) (φ k) H = messages (base M g h e) k H' ∧
        ∀ x, ¬ Spec.Hidden (withSecret (base M g h e) (φ k)) H x → ¬ Spec.Hidden (withSecret (base M g h e) k) H' x →
          (φ k).2.2.1 x = k.2.2.1 x ∧ (φ k).2.2.2 x = k.2.2.2 x) := by
    intro h e
    by_cases hs : Spec.SeedsDistinct (base M g h e) H ∧ Spec.SeedsDistinct (base M g h e) H'
    · obtain ⟨φ, hb, -, hφ⟩ := C62_diana_hiding (base M g h e) M.assoc M.comm H H' hleak hn hn' hs.1 hs.2
      exact ⟨φ, hb, fun _ _ => hφ⟩
    · exact ⟨id, Function.bijective_id, fun h1 h2 => absurd ⟨h1, h2⟩ hs⟩
  choose φ hb hφ using hex
  refine ⟨φ, hb, ?_⟩
  intro h e k hg hg'
  have hpd := leavesDistinct_of M g H hn _ hg
  have hpd' := leavesDistinct_of M g H' hn' _ hg'
  have hsd := seedsDistinct_of M g H _ hg
  obtain ⟨ht, hv⟩ := hφ h e hsd (seedsDistinct_of M g H' _ hg') k hpd hpd'
  refine ⟨ht, fun m hm => ?_⟩
  cases m with
  | update t e => rfl
  | search r =>
    obtain ⟨p, hp⟩ := List.getElem?_of_mem hm
    refine List.map_congr_left (fun i hi => ?_)
    have hi := List.mem_range.mp hi
    dsimp only
    by_cases hle : i ≤ r.2.1.2
    · simp only [if_pos hle, Option.map_some]
      have hl : (base M g h e).ceval r.2.1 i = some (e (r.2.1.1, pos i)) := if_pos hle
      have s1 := request_shown (base M g h e) _ H hn hpd p r (by rw [ht]; exact hp) i hi _ hl
      have s2 := request_shown (base M g h e) _ H' hn' hpd' p r hp i hi _ hl
      obtain ⟨h1, h2⟩ := hv _ s1 s2
      rw [h1, h2]
    · simp only [if_neg hle, Option.map_none]

/-- **C79** (Diana): an observer of the server distinguishes two histories with the same leakage with an advantage of at most the
sum of the two bounds. -/
theorem C79_diana [Fintype V] {U : Finset Kw} (M : Masking V) (g : Kw → Token) (H H' : List (Cmd Kw V))
    (hleak : leak H = leak H') (hU : cmdKeywords H ⊆ U) (hU' : cmdKeywords H' ⊆ U)
    (hn : ∀ w, count w H < 2 ^ 32) (hn' : ∀ w, count w H' < 2 ^ 32)
    (E : List (Message V × List (Option (Leaf × Token × V))) → Prop) :
    |prob (fun ω : FullChoice U V => E (view M g ω H)) - prob (fun ω : FullChoice U V => E (view M g ω H'))| ≤
      hidingBound (cmdKeywords H).card H.length + hidingBound (cmdKeywords H').card H'.length := by
  obtain ⟨φ, hb, hφ⟩ := exists_perm (U := U) M g H H' hleak hn hn'
  have hΦ : Function.Bijective (fun ω : FullChoice U V => (((ω.1.1, φ ω.1.1 ω.2 ω.1.2), ω.2) : FullChoice U V)) := by
    constructor
    · rintro ⟨⟨h, k⟩, e⟩ ⟨⟨h', k'⟩, e'⟩ he
      simp only [Prod.mk.injEq] at he
      obtain ⟨⟨rfl, he⟩, rfl⟩ := he
      rw [(hb h e).1 he]
    · rintro ⟨⟨h, k⟩, e⟩
      obtain ⟨k', hk⟩ := (hb h e).2 k
      exact ⟨((h, k'), e), by simp [hk]⟩
  have hdist := prob_dist_le hΦ (fun ω : FullChoice U V => view M g ω H) (fun ω => view M g ω H')
    (fun ω => Bad g H ((ω.1.1, φ ω.1.1 ω.2 ω.1.2), ω.2) ∨ Bad g H' ω) ?_ E
  · refine le_trans hdist (prob_or_le ?_ (prob_bad_le g H' hU'))
    rw [prob_bijective hΦ (Bad g H)]
    exact prob_bad_le g H hU
  · intro ω hω
    rw [not_or] at hω
    obtain ⟨ht, hv⟩ := hφ ω.1.1 ω.2 ω.1.2 hω.1 hω.2
    unfold view
    dsimp only
    rw [ht]
    exact List.map_congr_left (fun m hm => congrArg (Prod.mk m) (hv m hm))

/-- **C79** (Diana, forward privacy): after any history, insertions of the same number are distinguished with an advantage of at most
the sum of the two bounds, whatever their keywords and documents. -/
theorem C79_diana_forward [Fintype V] {U : Finset Kw} (M : Masking V) (g : Kw → Token) (P : List (Cmd Kw V)) (X Y : List (Kw × V))
    (hlen : X.length = Y.length) (hU : cmdKeywords (P ++ X.map (fun e => .insert e.1 e.2)) ⊆ U)
    (hU' : cmdKeywords (P ++ Y.map (fun e => .insert e.1 e.2)) ⊆ U) (hfit : P.length + X.length < 2 ^ 32)
    (E : List (Message V × List (Option (Leaf × Token × V))) → Prop) :
    |prob (fun ω : FullChoice U V => E (view M g ω (P ++ X.map (fun e => .insert e.1 e.2)))) -
        prob (fun ω : FullChoice U V => E (view M g ω (P ++ Y.map (fun e => .insert e.1 e.2))))| ≤
      hidingBound (cmdKeywords (P ++ X.map (fun e => .insert e.1 e.2))).card (P.length + X.length) +
        hidingBound (cmdKeywords (P ++ Y.map (fun e => .insert e.1 e.2))).card (P.length + Y.length) := by
  have h := C79_diana M g _ _ (leak_append_inserts P X Y hlen) hU hU'
    (fun w => Nat.lt_of_le_of_lt (count_le w _) (by simpa using hfit))
    (fun w => Nat.lt_of_le_of_lt (count_le w _) (by simpa [← hlen] using hfit)) E
  simpa using h

/-- **C79** (Diana): the answer of the server to a search depends on the database and on what the server sees only. -/
theorem C79_diana_answer {U : Finset Kw} (M : Masking V) (g : Kw → Token) (ω ω' : FullChoice U V) (edb : Edb V) (del : Bool)
    (kt : Vector UInt8 32) (ck : Leaf × Nat) (n : UInt32) (hck : n.toNat = ck.2 + 1)
    (h : served M g ω (.search (kt, ck, n)) = served M g ω' (.search (kt, ck, n))) :
    search (withSecret (base M g ω.1.1 ω.2) ω.1.2) edb ⟨kt, ck, n⟩ del =
      search (withSecret (base M g ω'.1.1 ω'.2) ω'.1.2) edb ⟨kt, ck, n⟩ del := by
  have hat : ∀ i, i ≤ ck.2 → ω.2 (ck.1, pos i) = ω'.2 (ck.1, pos i) ∧
      ω.1.2.2.2.1 (ω.2 (ck.1, pos i)) = ω'.1.2.2.2.1 (ω'.2 (ck.1, pos i)) ∧
      ω.1.2.2.2.2 (ω.2 (ck.1, pos i)) = ω'.1.2.2.2.2 (ω'.2 (ck.1, pos i)) := by
    intro i hi
    have := List.map_inj_left.mp h i (List.mem_range.mpr (by simp only [hck]; omega))
    simpa [if_pos hi] using this
  have hmap : ∀ (e : Leaf × Pos → Leaf) (is : List Nat), (∀ i ∈ is, i ≤ ck.2) →
      is.mapM (fun i => (if i ≤ ck.2 then some (e (ck.1, pos i)) else none).map (fun l => (i, l))) =
        some (is.map (fun i => (i, e (ck.1, pos i)))) := by
    intro e is
    induction is with
    | nil => intro _; rfl
    | cons i is ih =>
      intro hle
      rw [List.mapM_cons, ih (fun j hj => hle j (List.mem_cons_of_mem _ hj)), if_pos (hle i List.mem_cons_self)]
      rfl
  have hloop : ∀ (is : List Nat) (edb : Edb V), (∀ i ∈ is, i ≤ ck.2) →
      searchLoop (withSecret (base M g ω.1.1 ω.2) ω.1.2) del edb (is.map (fun i => (i, ω.2 (ck.1, pos i)))) =
        searchLoop (withSecret (base M g ω'.1.1 ω'.2) ω'.1.2) del edb (is.map (fun i => (i, ω'.2 (ck.1, pos i)))) := by
    intro is
    induction is with
    | nil => intro edb _; rfl
    | cons i is ih =>
      intro edb hle
      obtain ⟨h1, h2, h3⟩ := hat i (hle i List.mem_cons_self)
      have hg : getUnmask (withSecret (base M g ω.1.1 ω.2) ω.1.2) edb (ω.2 (ck.1, pos i)) del =
          getUnmask (withSecret (base M g ω'.1.1 ω'.2) ω'.1.2) edb (ω'.2 (ck.1, pos i)) del := by
        simp only [getUnmask]
        rw [h2, h3]
      simp only [List.map_cons, searchLoop]
      rw [hg, ih _ (fun j hj => hle j (List.mem_cons_of_mem _ hj))]
  have hne : n ≠ 0 := by
    intro e
    rw [e] at hck
    simp at hck
  unfold search evalRange
  dsimp only
  rw [if_neg hne, if_neg hne, if_neg (by omega), if_neg (by omega)]
  have hr : ∀ i ∈ List.range' 0 (ck.2 + 1 - 0), i ≤ ck.2 := by
    intro i hi
    have := List.mem_range'_1.mp hi
    omega
  rw [hmap ω.2 _ hr, hmap ω'.2 _ hr, Option.map_some, Option.map_some, hloop _ _ hr]

/-- With a million keywords and a billion insertions, the bound for a history is below `2^-88`. -/
theorem C79_diana_number : hidingBound (2 ^ 20) (2 ^ 30) < 1 / 2 ^ 88 := by
  unfold hidingBound
  rw [Nat.choose_two_right, Nat.choose_two_right]
  norm_num

/-! ## An instance -/

/-- The document indices, masked by exclusive or -/
def indexMasking : Masking Index where
  zero := 0
  xor := (· ^^^ ·)
  xor_xor := by intro x m; simp [BitVec.xor_assoc]
  assoc := BitVec.xor_assoc
  comm := BitVec.xor_comm

/-- There are finitely many document indices. -/
instance : Fintype Index := Fintype.ofEquiv (Fin (2 ^ 64)) ⟨BitVec.ofFin, BitVec.toFin, fun _ => rfl, fun _ => rfl⟩

/-- A history: the last insertion is for the keyword searched before. -/
def sample : List (Cmd Nat Index) := [.insert 1 5, .search 1, .insert 1 7]

/-- Another one: the last insertion is for another keyword and another document. -/
def sample' : List (Cmd Nat Index) := [.insert 3 5, .search 3, .insert 2 9]

/-- The hypotheses hold for them: no observer of the server can tell them apart. -/
example (E : List (Message Index × List (Option (Leaf × Token × Index))) → Prop) :
    |prob (fun ω : FullChoice (Finset.range 10) Index => E (view indexMasking (fun _ => Vector.replicate 16 0) ω sample)) -
      prob (fun ω : FullChoice (Finset.range 10) Index => E (view indexMasking (fun _ => Vector.replicate 16 0) ω sample'))| ≤
      hidingBound 1 3 + hidingBound 2 3 :=
  C79_diana (U := Finset.range 10) indexMasking (fun _ => Vector.replicate 16 0) sample sample' (by decide) (by decide) (by decide)
    (fun w => Nat.lt_of_le_of_lt (count_le w _) (by decide)) (fun w => Nat.lt_of_le_of_lt (count_le w _) (by decide)) E

end Verif.Ideal.Diana
