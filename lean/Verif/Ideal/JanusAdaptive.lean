import Verif.Ideal.DianaAdaptive
import Verif.Ideal.JanusHiding

/-!
# Janus with histories that depend on what was seen: C82

The strategy chooses pairs of operations. Updates of keywords that are searched later have to be the same in both components, and all
searches; other updates only have to be of the same kind. So the server learns nothing of an update before its keyword is searched.
-/

namespace Verif.Ideal.Janus

open Verif Verif.Janus Verif.Janus.Spec Verif.Leak Verif.Ideal.Diana

variable {PK KS CT Rand : Type}

/-! ## The rules -/

/-- Pairs of operations that a server must not be able to tell apart: both are of the same kind, searches are the same, and so are
the operations on a keyword that is searched later. -/
def Alike : List (Op Rand × Op Rand) → Prop
  | [] => True
  | (a, b) :: P => kind a = kind b ∧ (kind a = none → a = b) ∧
      (∀ w, Op.search w ∈ P.map Prod.fst → (Op.kw a = w ∨ Op.kw b = w) → a = b) ∧ Alike P

/-- The rules for the strategy: the operations are alike, on keywords of the dictionary, and there are at most `n`. -/
def JRules (D : Finset Str) (n : Nat) (P : List (Op Rand × Op Rand)) : Prop :=
  Alike P ∧ (∀ p ∈ P, Op.kw p.1 ∈ D ∧ Op.kw p.2 ∈ D) ∧ P.length ≤ n

/-! ## Commands of the Diana clients -/

/-- The same for commands of Diana -/
def AlikeCmds {V : Type} : List (Cmd Str V) → List (Cmd Str V) → Prop
  | [], [] => True
  | x :: H, y :: H' => (((∃ v i, x = .insert v i) ∧ ∃ v i, y = .insert v i) ∨ ∃ v, x = .search v ∧ y = .search v) ∧
      (∀ w, Cmd.search w ∈ H → ((∃ i, x = .insert w i) ∨ ∃ i, y = .insert w i) → x = y) ∧ AlikeCmds H H'
  | _, _ => False

theorem leak_alike_from {V : Type} (H : List (Cmd Str V)) : ∀ (H' past past' : List (Cmd Str V)), AlikeCmds H H' →
    past.length = past'.length → (∀ w, Cmd.search w ∈ H → Leak.inserted w past = Leak.inserted w past') →
    eachFrom leakOf past H = eachFrom leakOf past' H' := by
  induction H with
  | nil =>
    intro H' past past' h _ _
    cases H' with
    | nil => rfl
    | cons y H' => exact absurd h (by simp [AlikeCmds])
  | cons x H ih =>
    intro H' past past' h hl hp
    cases H' with
    | nil => exact absurd h (by simp [AlikeCmds])
    | cons y H' =>
      obtain ⟨h1, h2, h3⟩ := h
      have hrec := ih H' (past ++ [x]) (past' ++ [y]) h3 (by simp [hl]) (by
        intro w hw
        have h0 := hp w (List.mem_cons_of_mem _ hw)
        unfold Leak.inserted at h0 ⊢
        rw [insertedFrom_append, insertedFrom_append, h0, hl]
        congr 1
        by_cases hx : (∃ i, x = .insert w i) ∨ ∃ i, y = .insert w i
        · rw [h2 w hw hx]
        · simp only [not_or, not_exists] at hx
          have hnone : ∀ (z : Cmd Str V) n, (∀ i, z ≠ .insert w i) → insertedFrom w n [z] = [] := by
            intro z n hz
            cases z with
            | insert v i =>
              have : v ≠ w := fun e => hz i (by rw [e])
              simp [insertedFrom, this]
            | search v => rfl
          rw [hnone x _ hx.1, hnone y _ hx.2])
      unfold eachFrom
      rw [hrec]
      congr 1
      rcases h1 with ⟨⟨v, i, rfl⟩, ⟨v', i', rfl⟩⟩ | ⟨v, rfl, rfl⟩
      · rfl
      · simp only [leakOf]
        rw [hp v List.mem_cons_self]

theorem leak_alike {V : Type} {H H' : List (Cmd Str V)} (h : AlikeCmds H H') : leak H = leak H' :=
  leak_alike_from H H' [] [] h rfl (fun _ _ => rfl)

/-- Epochs are at most `m`. -/
def Epochs (E : Str → Cell) (m : Nat) : Prop := ∀ w, (E w).epoch ≤ m

theorem epochs_step {E : Str → Cell} {m : Nat} (h : Epochs E m) (o : Op Rand) : Epochs (cellStep E o) (m + 1) := by
  intro w
  have := h w
  cases o <;> simp only [cellStep] <;> split <;> first | omega | (rename_i h'; subst h'; dsimp only; omega) | (rename_i h'; obtain ⟨rfl, -⟩ := h'; dsimp only; omega)

theorem insCmds_search (c : Crypto PK KS CT Rand) (ops : List (Op Rand)) : ∀ (E : Str → Cell) (m : Nat), Epochs E m →
    m + ops.length < 2 ^ 32 → ∀ k, Cmd.search k ∈ insCmds c E ops → ∃ w e, k = metaNat w e ∧ e < 2 ^ 32 ∧ Op.search w ∈ ops := by
  induction ops with
  | nil => intro E m _ _ k hk; simp [insCmds] at hk
  | cons o ops ih =>
    intro E m hE hm k hk
    simp only [List.length_cons] at hm
    have hrec := ih (cellStep E o) (m + 1) (epochs_step hE o) (by omega) k
    cases o with
    | insert w i r =>
      simp only [insCmds, List.mem_cons, reduceCtorEq, false_or] at hk
      obtain ⟨v, e, h1, h2, h3⟩ := hrec hk
      exact ⟨v, e, h1, h2, List.mem_cons_of_mem _ h3⟩
    | remove w i =>
      obtain ⟨v, e, h1, h2, h3⟩ := hrec hk
      exact ⟨v, e, h1, h2, List.mem_cons_of_mem _ h3⟩
    | search w =>
      simp only [insCmds, List.mem_cons, Cmd.search.injEq] at hk
      rcases hk with rfl | hk
      · exact ⟨w, _, rfl, by have := hE w; omega, List.mem_cons_self⟩
      · obtain ⟨v, e, h1, h2, h3⟩ := hrec hk
        exact ⟨v, e, h1, h2, List.mem_cons_of_mem _ h3⟩

theorem delCmds_search (c : Crypto PK KS CT Rand) (ops : List (Op Rand)) : ∀ (E : Str → Cell) (m : Nat), Epochs E m →
    m + ops.length < 2 ^ 32 → ∀ k, Cmd.search k ∈ delCmds c E ops → ∃ w e, k = metaNat w e ∧ e < 2 ^ 32 ∧ Op.search w ∈ ops := by
  induction ops with
  | nil => intro E m _ _ k hk; simp [delCmds] at hk
  | cons o ops ih =>
    intro E m hE hm k hk
    simp only [List.length_cons] at hm
    have hrec := ih (cellStep E o) (m + 1) (epochs_step hE o) (by omega) k
    cases o with
    | insert w i r =>
      obtain ⟨v, e, h1, h2, h3⟩ := hrec hk
      exact ⟨v, e, h1, h2, List.mem_cons_of_mem _ h3⟩
    | remove w i =>
      simp only [delCmds, List.mem_cons, reduceCtorEq, false_or] at hk
      obtain ⟨v, e, h1, h2, h3⟩ := hrec hk
      exact ⟨v, e, h1, h2, List.mem_cons_of_mem _ h3⟩
    | search w =>
      simp only [delCmds, List.mem_cons, Cmd.search.injEq] at hk
      rcases hk with rfl | hk
      · exact ⟨w, _, rfl, by have := hE w; omega, List.mem_cons_self⟩
      · obtain ⟨v, e, h1, h2, h3⟩ := hrec hk
        exact ⟨v, e, h1, h2, List.mem_cons_of_mem _ h3⟩

/-- Keywords that are searched later are in the same state. -/
def SameCells (E E' : Str → Cell) (P : List (Op Rand × Op Rand)) : Prop := ∀ w, Op.search w ∈ P.map Prod.fst → E w = E' w

theorem sameCells_step {E E' : Str → Cell} {a b : Op Rand} {P : List (Op Rand × Op Rand)} (hs : SameCells E E' ((a, b) :: P))
    (h : ∀ w, Op.search w ∈ P.map Prod.fst → (Op.kw a = w ∨ Op.kw b = w) → a = b) : SameCells (cellStep E a) (cellStep E' b) P := by
  intro w hw
  have hE : E w = E' w := hs w (by simp only [List.map_cons]; exact List.mem_cons_of_mem _ hw)
  by_cases hk : Op.kw a = w ∨ Op.kw b = w
  · rw [h w hw hk]
    cases b <;> simp only [cellStep, hE]
  · simp only [not_or] at hk
    have hskip : ∀ (F : Str → Cell) (o : Op Rand), Op.kw o ≠ w → cellStep F o w = F w := by
      intro F o ho
      cases o with
      | insert v i r => exact if_neg (fun e => ho e.symm)
      | remove v i => exact if_neg (fun e => ho e.symm)
      | search v => exact if_neg (fun e => ho e.1.symm)
    rw [hskip E a hk.1, hskip E' b hk.2, hE]

theorem alike_parts (c : Crypto PK KS CT Rand) (P : List (Op Rand × Op Rand)) : ∀ (E E' : Str → Cell) (m : Nat), Alike P →
    SameCells E E' P → Epochs E m → Epochs E' m → m + P.length < 2 ^ 32 →
    AlikeCmds (insCmds c E (P.map Prod.fst)) (insCmds c E' (P.map Prod.snd)) ∧
    AlikeCmds (delCmds c E (P.map Prod.fst)) (delCmds c E' (P.map Prod.snd)) ∧
    restOf c E (P.map Prod.fst) = restOf c E' (P.map Prod.snd) := by
  induction P with
  | nil => intro E E' m _ _ _ _ _; exact ⟨trivial, trivial, rfl⟩
  | cons p P ih =>
    obtain ⟨a, b⟩ := p
    intro E E' m h hs hE hE' hm
    obtain ⟨hk, hsr, hlater, hP⟩ := h
    simp only [List.length_cons] at hm
    obtain ⟨i1, i2, i3⟩ := ih (cellStep E a) (cellStep E' b) (m + 1) hP (sameCells_step hs hlater) (epochs_step hE a)
      (epochs_step hE' b) (by omega)
    have hme : ∀ w, (E w).epoch < 2 ^ 32 := fun w => by have := hE w; omega
    have hme' : ∀ w, (E' w).epoch < 2 ^ 32 := fun w => by have := hE' w; omega
    have hsame : ∀ w, Op.search w ∈ P.map Prod.fst → E w = E' w := fun w hw =>
      hs w (by simp only [List.map_cons]; exact List.mem_cons_of_mem _ hw)
    simp only [List.map_cons]
    cases a with
    | insert w i r =>
      cases b with
      | insert w' i' r' =>
        refine ⟨⟨Or.inl ⟨⟨_, _, rfl⟩, ⟨_, _, rfl⟩⟩, ?_, i1⟩, i2, by simp only [restOf, i3]⟩
        intro k hk' hx
        obtain ⟨v, e, rfl, he, hv⟩ := insCmds_search c _ _ (m + 1) (epochs_step hE (.insert w i r)) (by simp; omega) k hk'
        have hvw : w = v ∨ w' = v := by
          rcases hx with ⟨j, hx⟩ | ⟨j, hx⟩
          · exact Or.inl (metaNat_inj (hme w) he (by simpa using (Cmd.insert.inj hx).1)).1
          · exact Or.inr (metaNat_inj (hme' w') he (by simpa using (Cmd.insert.inj hx).1)).1
        have heq := hlater v hv hvw
        cases heq
        have : w = v := by rcases hvw with h | h <;> exact h
        rw [hsame w (this ▸ hv)]
      | remove w' i' => simp [kind] at hk
      | search w' => simp [kind] at hk
    | remove w i =>
      cases b with
      | insert w' i' r' => simp [kind] at hk
      | remove w' i' =>
        refine ⟨i1, ⟨Or.inl ⟨⟨_, _, rfl⟩, ⟨_, _, rfl⟩⟩, ?_, i2⟩, by simp only [restOf, i3]⟩
        intro k hk' hx
        obtain ⟨v, e, rfl, he, hv⟩ := delCmds_search c _ _ (m + 1) (epochs_step hE (Op.remove (Rand := Rand) w i))
          (by simp; omega) k hk'
        have hvw : w = v ∨ w' = v := by
          rcases hx with ⟨j, hx⟩ | ⟨j, hx⟩
          · exact Or.inl (metaNat_inj (hme w) he (by simpa using (Cmd.insert.inj hx).1)).1
          · exact Or.inr (metaNat_inj (hme' w') he (by simpa using (Cmd.insert.inj hx).1)).1
        have heq := hlater v hv hvw
        cases heq
        have : w = v := by rcases hvw with h | h <;> exact h
        rw [hsame w (this ▸ hv)]
      | search w' => simp [kind] at hk
    | search w =>
      have heq := hsr rfl
      subst heq
      have hw : E w = E' w := hs w (by simp)
      refine ⟨⟨Or.inr ⟨_, rfl, by rw [hw]⟩, ?_, i1⟩, ⟨Or.inr ⟨_, rfl, by rw [hw]⟩, ?_, i2⟩, by simp only [restOf, i3, hw]⟩
      · rintro k - (⟨j, hx⟩ | ⟨j, hx⟩) <;> cases hx
      · rintro k - (⟨j, hx⟩ | ⟨j, hx⟩) <;> cases hx

/-! ## The dictionary -/

/-- The meta keywords for `n` operations on the keywords of `D` -/
def metaSet (D : Finset Str) (n : Nat) : Finset Str := D.biUnion (fun w => (Finset.range (n + 1)).image (metaNat w))

theorem card_metaSet (D : Finset Str) (n : Nat) : (metaSet D n).card ≤ D.card * (n + 1) := by
  unfold metaSet
  refine Finset.card_biUnion_le_card_mul _ _ _ (fun w _ => ?_)
  exact le_trans Finset.card_image_le (by simp)

theorem mem_metaSet {D : Finset Str} {n : Nat} {w : Str} {e : Nat} (hw : w ∈ D) (he : e ≤ n) : metaNat w e ∈ metaSet D n :=
  Finset.mem_biUnion.mpr ⟨w, hw, Finset.mem_image.mpr ⟨e, Finset.mem_range.mpr (by omega), rfl⟩⟩

theorem cmdKeywords_cons {V : Type} (x : Cmd Str V) (H : List (Cmd Str V)) (S : Finset Str)
    (hx : (∀ v i, x = .insert v i → v ∈ S) ∧ ∀ v, x = .search v → v ∈ S) (hH : cmdKeywords H ⊆ S) : cmdKeywords (x :: H) ⊆ S := by
  intro w hw
  unfold cmdKeywords at hw hH
  simp only [List.map_cons, List.toFinset_cons, Finset.mem_insert] at hw
  rcases hw with rfl | hw
  · cases x with
    | insert v i => exact hx.1 v i rfl
    | search v => exact hx.2 v rfl
  · exact hH hw

theorem cmds_metaSet (c : Crypto PK KS CT Rand) (D : Finset Str) (n : Nat) (ops : List (Op Rand)) : ∀ (E : Str → Cell) (m : Nat),
    Epochs E m → m + ops.length ≤ n → (∀ o ∈ ops, Op.kw o ∈ D) →
    cmdKeywords (insCmds c E ops) ⊆ metaSet D n ∧ cmdKeywords (delCmds c E ops) ⊆ metaSet D n := by
  induction ops with
  | nil => intro E m _ _ _; exact ⟨fun x hx => absurd hx (by simp [insCmds, cmdKeywords]), fun x hx => absurd hx (by simp [delCmds, cmdKeywords])⟩
  | cons o ops ih =>
    intro E m hE hm hD
    simp only [List.length_cons] at hm
    obtain ⟨h1, h2⟩ := ih (cellStep E o) (m + 1) (epochs_step hE o) (by omega) (fun x hx => hD x (List.mem_cons_of_mem _ hx))
    have ho := hD o List.mem_cons_self
    have hmem : metaNat (Op.kw o) (E (Op.kw o)).epoch ∈ metaSet D n := mem_metaSet ho (by have := hE (Op.kw o); omega)
    cases o with
    | insert w i r =>
      exact ⟨cmdKeywords_cons _ _ _ ⟨fun v j e => by cases e; exact hmem, fun v e => by cases e⟩ h1, h2⟩
    | remove w i =>
      exact ⟨h1, cmdKeywords_cons _ _ _ ⟨fun v j e => by cases e; exact hmem, fun v e => by cases e⟩ h2⟩
    | search w =>
      exact ⟨cmdKeywords_cons _ _ _ ⟨fun v j e => (by cases e), fun v e => by cases e; exact hmem⟩ h1,
        cmdKeywords_cons _ _ _ ⟨fun v j e => (by cases e), fun v e => by cases e; exact hmem⟩ h2⟩

/-! ## What the server sees -/

abbrev JMessage (KS CT : Type) := JMsg (Diana.Leaf × Nat) (Diana.Leaf × Nat) KS CT

/-- What the server sees of an operation -/
abbrev Sight (KS CT : Type) := JMessage KS CT × List (Option (Diana.Leaf × Diana.Token × CT)) ×
  List (Option (Diana.Leaf × Diana.Token × KS))

/-- A message, and what the two instances of Diana compute to serve it (janus_server.cpp L36-48, L87-99) -/
def sight {U : Finset Str} (R : Fixed PK KS CT Rand) (ω : FullChoice U KS CT) : JMessage KS CT → Sight KS CT
  | .search t i d f => (.search t i d f, served R.ins R.hash ((ω.1.1, ω.1.2.1), ω.2.1) (.search i),
      served R.del R.hash ((ω.1.1, ω.1.2.2), ω.2.2) (.search d))
  | m => (m, [], [])

/-- What the server sees of a history, operation by operation -/
def sights {U : Finset Str} (R : Fixed PK KS CT Rand) (ω : FullChoice U KS CT) (ops : List (Op Rand)) : List (Sight KS CT) :=
  (messages (baseJ R ω.1.1 ω.2.1 ω.2.2) ω.1.2.1 ω.1.2.2 Client.init ops : List (JMessage KS CT)).map (sight R ω)

theorem messages_take (c : Crypto PK KS CT Rand) (ki : Diana.Secret c.ins) (kd : Diana.Secret c.del) (ops : List (Op Rand)) :
    ∀ (cl : Client) (k : Nat), messages c ki kd cl (ops.take k) = (messages c ki kd cl ops).take k := by
  induction ops with
  | nil => intro cl k; simp [messages]
  | cons o ops ih =>
    intro cl k
    cases k with
    | zero => rfl
    | succ k => cases o <;> simp [messages, ih]

theorem sights_take {U : Finset Str} (R : Fixed PK KS CT Rand) (ω : FullChoice U KS CT) (ops : List (Op Rand)) (k : Nat) :
    sights R ω (ops.take k) = (sights R ω ops).take k := by
  unfold sights
  rw [messages_take, List.map_take]

theorem search_parts {CI CD : Type} (l : List (JMsg CI CD KS CT)) {t i d f} (h : JMsg.search t i d f ∈ l) :
    Msg.search i ∈ insPart l ∧ Msg.search d ∈ delPart l := by
  induction l with
  | nil => cases h
  | cons x l ih =>
    rcases List.mem_cons.mp h with rfl | h
    · exact ⟨List.mem_cons_self, List.mem_cons_self⟩
    · obtain ⟨h1, h2⟩ := ih h
      cases x with
      | insert _ _ => exact ⟨List.mem_cons_of_mem _ h1, h2⟩
      | remove _ _ => exact ⟨h1, List.mem_cons_of_mem _ h2⟩
      | search _ _ _ _ => exact ⟨List.mem_cons_of_mem _ h1, List.mem_cons_of_mem _ h2⟩

theorem restOf_base {U : Finset Str} (R : Fixed PK KS CT Rand) (h : U → Diana.Token) (e e' : Diana.Leaf × Pos → Diana.Leaf)
    (ops : List (Op Rand)) : ∀ E, restOf (baseJ R h e e') E ops = restOf R.rest E ops := by
  induction ops with
  | nil => intro E; rfl
  | cons o ops ih => intro E; cases o <;> simp [restOf, ih]

/-- A collision in the dictionary, in one of the instances -/
def JBad {U : Finset Str} (R : Fixed PK KS CT Rand) (D : Finset Str) (n : Nat) (ω : FullChoice U KS CT) : Prop :=
  DictBad R.hash (metaSet D n) n ((ω.1.1, ω.1.2.1), ω.2.1) ∨ DictBad R.hash (metaSet D n) n ((ω.1.1, ω.1.2.2), ω.2.2)

theorem prob_jbad_le [Fintype KS] [Fintype CT] {U : Finset Str} (R : Fixed PK KS CT Rand) (D : Finset Str) (n : Nat)
    (hU : metaSet D n ⊆ U) :
    prob (JBad (U := U) R D n) ≤ 2 * hidingBound (D.card * (n + 1)) (D.card * (n + 1) * n) := by
  have hc := card_metaSet D n
  have hm := hidingBound_mono hc (Nat.mul_le_mul_right n hc)
  rw [two_mul]
  refine prob_or_le ?_ ?_
  · refine le_trans (le_of_eq ?_) (prob_first_le (Ω := Diana.FullChoice U CT) (Ω₂ := Secrets KS × (Diana.Leaf × Pos → Diana.Leaf))
      (p := DictBad R.hash (metaSet D n) n) (le_trans (prob_dictBad_le R.hash _ n hU) hm))
    exact prob_equiv (Ω := FullChoice U KS CT) (Ω' := Diana.FullChoice U CT × (Secrets KS × (Diana.Leaf × Pos → Diana.Leaf)))
      { toFun := fun x => (((x.1.1, x.1.2.1), x.2.1), (x.1.2.2, x.2.2))
        invFun := fun y => ((y.1.1.1, y.1.1.2, y.2.1), y.1.2, y.2.2)
        left_inv := fun _ => rfl
        right_inv := fun _ => rfl } (fun x => DictBad R.hash (metaSet D n) n x.1)
  · refine le_trans (le_of_eq ?_) (prob_first_le (Ω := Diana.FullChoice U KS) (Ω₂ := Secrets CT × (Diana.Leaf × Pos → Diana.Leaf))
      (p := DictBad R.hash (metaSet D n) n) (le_trans (prob_dictBad_le R.hash _ n hU) hm))
    exact prob_equiv (Ω := FullChoice U KS CT) (Ω' := Diana.FullChoice U KS × (Secrets CT × (Diana.Leaf × Pos → Diana.Leaf)))
      { toFun := fun x => (((x.1.1, x.1.2.2), x.2.2), (x.1.2.1, x.2.1))
        invFun := fun y => ((y.1.1.1, y.2.1, y.1.1.2), y.2.2, y.1.2)
        left_inv := fun _ => rfl
        right_inv := fun _ => rfl } (fun x => DictBad R.hash (metaSet D n) n x.1)

/-- The functions of the instance of Diana for insertions -/
def insPart {U : Finset Str} (ω : FullChoice U KS CT) : Diana.FullChoice U CT := ((ω.1.1, ω.1.2.1), ω.2.1)

/-- The functions of the instance of Diana for removals -/
def delPart {U : Finset Str} (ω : FullChoice U KS CT) : Diana.FullChoice U KS := ((ω.1.1, ω.1.2.2), ω.2.2)

/-- What the server sees is the same if it is the same for the instances of Diana and for the other parts of the messages. -/
theorem sights_ext {U : Finset Str} (R : Fixed PK KS CT Rand) (c' : Crypto PK KS CT Rand) (ω ω' : FullChoice U KS CT)
    (H H' : List (Op Rand)) (hl : H.length < 2 ^ 32) (hl' : H'.length < 2 ^ 32)
    (vi : Diana.view R.ins R.hash (insPart ω) (insCmds c' noCells H) = Diana.view R.ins R.hash (insPart ω') (insCmds R.rest noCells H'))
    (vd : Diana.view R.del R.hash (delPart ω) (delCmds c' noCells H) = Diana.view R.del R.hash (delPart ω') (delCmds R.rest noCells H'))
    (p3 : restOf c' noCells H = restOf R.rest noCells H') : sights { R with rest := c' } ω H = sights R ω' H' := by
  obtain ⟨a1, a2, a3⟩ := messages_parts (baseJ { R with rest := c' } ω.1.1 ω.2.1 ω.2.2) ω.1.2.1
    ω.1.2.2 H _ _ _ _ 0 cinv_init (by omega)
  obtain ⟨b1, b2, b3⟩ := messages_parts (baseJ R ω'.1.1 ω'.2.1 ω'.2.2) ω'.1.2.1 ω'.1.2.2 H' _ _ _ _ 0 cinv_init
    (by omega)
  rw [insCmds_base] at a1 b1
  rw [delCmds_base] at a2 b2
  unfold Diana.view at vi vd
  have hfst : ∀ {A B : Type} (f g : A → B) (l l' : List A), l.map (fun m => (m, f m)) = l'.map (fun m => (m, g m)) →
      l = l' ∧ ∀ m ∈ l', f m = g m := by
    intro A B f g l l' h
    have hll : l = l' := by
      have := congrArg (List.map Prod.fst) h
      simpa [List.map_map, Function.comp_def] using this
    refine ⟨hll, fun m hm => ?_⟩
    subst hll
    have := (List.map_inj_left.mp h) m hm
    exact (Prod.mk.inj this).2
  obtain ⟨ti, si⟩ := hfst _ _ _ _ vi
  obtain ⟨td, sd⟩ := hfst _ _ _ _ vd
  have hmsg : (messages (baseJ { R with rest := c' } ω.1.1 ω.2.1 ω.2.2) ω.1.2.1 ω.1.2.2 Client.init H : List (JMessage KS CT)) =
      messages (baseJ R ω'.1.1 ω'.2.1 ω'.2.2) ω'.1.2.1 ω'.1.2.2 Client.init H' := by
    apply msgs_ext
    · rw [a1]; exact ti.trans b1.symm
    · rw [a2]; exact td.trans b2.symm
    · rw [a3, restOf_base]
      refine p3.trans ?_
      rw [← restOf_base R ω'.1.1 ω'.2.1 ω'.2.2]
      exact b3.symm
  unfold sights
  rw [hmsg]
  refine List.map_congr_left (fun m hm => ?_)
  cases m with
  | insert t e => rfl
  | remove t e => rfl
  | search t i d f =>
    obtain ⟨m1, m2⟩ := search_parts _ hm
    rw [b1] at m1
    rw [b2] at m2
    simp only [sight]
    exact Prod.ext rfl (Prod.ext (si _ m1) (sd _ m2))

/-- What the server computes for a leaf of either instance of Diana: token and mask -/
def tokensMasks {U : Finset Str} (ω : FullChoice U KS CT) (x : Diana.Leaf) : (Diana.Token × CT) × (Diana.Token × KS) :=
  ((ω.1.2.1.2.2.1 x, ω.1.2.1.2.2.2 x), (ω.1.2.2.2.2.1 x, ω.1.2.2.2.2.2 x))

/-- The leaf is not one of the dictionary, or the server computes it in a search. -/
def Told {U : Finset Str} (R : Fixed PK KS CT Rand) (D : Finset Str) (n : Nat) (ω : FullChoice U KS CT) (ops : List (Op Rand))
    (x : Diana.Leaf) : Prop :=
  (x ∈ dictLeaves R.hash (metaSet D n) n (insPart ω) → Exposed x (Diana.view R.ins R.hash (insPart ω) (insCmds R.rest noCells ops))) ∧
    (x ∈ dictLeaves R.hash (metaSet D n) n (delPart ω) → Exposed x (Diana.view R.del R.hash (delPart ω) (delCmds R.rest noCells ops)))

/-- Two histories, with possibly different functions for keyword tokens, tags and puncturable encryption: if the commands of the instances
of Diana have the same leakage and the rest is the same, then there are permutations of the secrets of the instances that turn the one view into
the other, unless there are collisions. -/
theorem exists_rekey_janus {U : Finset Str} (R : Fixed PK KS CT Rand) (c' : Crypto PK KS CT Rand) (D : Finset Str) (n : Nat)
    (hn : n < 2 ^ 32) (H H' : List (Op Rand)) (hD : ∀ o ∈ H, Op.kw o ∈ D) (hD' : ∀ o ∈ H', Op.kw o ∈ D) (hl : H.length ≤ n)
    (hl' : H'.length ≤ n) (p1 : leak (insCmds c' noCells H) = leak (insCmds R.rest noCells H'))
    (p2 : leak (delCmds c' noCells H) = leak (delCmds R.rest noCells H'))
    (p3 : restOf c' noCells H = restOf R.rest noCells H') :
    ∃ (φ : (U → Diana.Token) → (Diana.Leaf × Pos → Diana.Leaf) → Secrets CT → Secrets CT)
      (χ : (U → Diana.Token) → (Diana.Leaf × Pos → Diana.Leaf) → Secrets KS → Secrets KS),
      (∀ h e, Function.Injective (φ h e)) ∧ (∀ h e, Function.Injective (χ h e)) ∧
      ∀ ω : FullChoice U KS CT, ¬ JBad R D n ω →
        sights { R with rest := c' } ((ω.1.1, φ ω.1.1 ω.2.1 ω.1.2.1, χ ω.1.1 ω.2.2 ω.1.2.2), ω.2) H = sights R ω H' ∧
        ∀ x, Told R D n ω H' x →
          tokensMasks (((ω.1.1, φ ω.1.1 ω.2.1 ω.1.2.1, χ ω.1.1 ω.2.2 ω.1.2.2), ω.2) : FullChoice U KS CT) x = tokensMasks ω x := by
  have h0 : Epochs noCells 0 := fun _ => Nat.le_refl _
  have hc : ∀ (c : Crypto PK KS CT Rand) (L : List (Op Rand)), L.length ≤ n → ∀ w, count w (insCmds c noCells L) ≤ n ∧
      count w (delCmds c noCells L) ≤ n := by
    intro c L hL w
    have h1 := count_le_length w (insCmds c noCells L)
    have h2 := insCmds_length c L noCells
    have h3 := count_le_length w (delCmds c noCells L)
    have h4 := delCmds_length c L noCells
    omega
  obtain ⟨k1, k2⟩ := cmds_metaSet c' D n H noCells 0 h0 (by omega) hD
  obtain ⟨k3, k4⟩ := cmds_metaSet R.rest D n H' noCells 0 h0 (by omega) hD'
  obtain ⟨φ, hφi, hφ⟩ := exists_rekey_dict (U := U) R.ins R.hash (metaSet D n) n hn _ _ p1 k1 k3
    (fun w => (hc c' H hl w).1) (fun w => (hc R.rest H' hl' w).1)
  obtain ⟨χ, hχi, hχ⟩ := exists_rekey_dict (U := U) R.del R.hash (metaSet D n) n hn _ _ p2 k2 k4
    (fun w => (hc c' H hl w).2) (fun w => (hc R.rest H' hl' w).2)
  refine ⟨φ, χ, hφi, hχi, ?_⟩
  intro ω hω
  simp only [JBad, not_or] at hω
  obtain ⟨vi, xi⟩ := hφ (insPart ω) hω.1
  obtain ⟨vd, xd⟩ := hχ (delPart ω) hω.2
  refine ⟨sights_ext R c' _ ω H H' (by omega) (by omega) vi vd p3, fun x hx => ?_⟩
  obtain ⟨e1, e2⟩ := xi x (by rw [or_iff_not_imp_left, not_not]; exact hx.1)
  obtain ⟨e3, e4⟩ := xd x (by rw [or_iff_not_imp_left, not_not]; exact hx.2)
  exact Prod.ext (Prod.ext e1 e2) (Prod.ext e3 e4)

/-- For pairs of operations that respect the rules, there is a permutation of the choices that turns the one view into the other. -/
theorem exists_perm_janus {U : Finset Str} (R : Fixed PK KS CT Rand) (D : Finset Str) (n : Nat) (hn : n < 2 ^ 32)
    (P : List (Op Rand × Op Rand)) (hP : JRules D n P) :
    ∃ π : FullChoice U KS CT → FullChoice U KS CT, Function.Injective π ∧
      ∀ ω, ¬ JBad R D n ω → sights R (π ω) (P.map Prod.fst) = sights R ω (P.map Prod.snd) := by
  obtain ⟨ha, hD, hl⟩ := hP
  have h0 : Epochs noCells 0 := fun _ => Nat.le_refl _
  obtain ⟨p1, p2, p3⟩ := alike_parts R.rest P noCells noCells 0 ha (fun _ _ => rfl) h0 h0 (by omega)
  have hk : ∀ f : Op Rand × Op Rand → Op Rand, (∀ p ∈ P, Op.kw (f p) ∈ D) → ∀ o ∈ P.map f, Op.kw o ∈ D := by
    intro f hf o ho
    obtain ⟨p, hp, rfl⟩ := List.mem_map.mp ho
    exact hf p hp
  obtain ⟨φ, χ, hφi, hχi, h⟩ := exists_rekey_janus (U := U) R R.rest D n hn _ _ (hk Prod.fst (fun p hp => (hD p hp).1))
    (hk Prod.snd (fun p hp => (hD p hp).2)) (by simpa using hl) (by simpa using hl) (leak_alike p1) (leak_alike p2) p3
  refine ⟨fun ω => ((ω.1.1, φ ω.1.1 ω.2.1 ω.1.2.1, χ ω.1.1 ω.2.2 ω.1.2.2), ω.2), ?_, fun ω hω => (h ω hω).1⟩
  rintro ⟨⟨h, ki, kd⟩, e, e'⟩ ⟨⟨h', ki', kd'⟩, f, f'⟩ he
  simp only [Prod.mk.injEq] at he
  obtain ⟨⟨rfl, h1, h2⟩, rfl, rfl⟩ := he
  rw [hφi h e h1, hχi h e' h2]

/-- **C82** (Janus, forward privacy): a strategy that sees what the server sees, and chooses pairs of operations in which updates are hidden until their
keyword is searched, finds out which component is executed with an advantage of at most twice the bound for the dictionary. Whatever
the strategy inserts or removes for keywords not searched afterwards, the server does not learn keyword or document.

Here tags, keyword tokens and puncturable encryption are arbitrary functions. -/
theorem C82_janus_forward [Fintype KS] [Fintype CT] {U : Finset Str} (R : Fixed PK KS CT Rand) (D : Finset Str) (n : Nat)
    (hn : n < 2 ^ 32) (hU : metaSet D n ⊆ U) (σ : List (Sight KS CT) → Option (Op Rand × Op Rand)) (steps : Nat)
    (E : List (Sight KS CT) → Prop) :
    |prob (fun ω : FullChoice U KS CT => E (sights R ω
          ((play (JRules D n) σ (fun P => sights R ω (P.map Prod.fst)) steps).map Prod.fst))) -
        prob (fun ω : FullChoice U KS CT => E (sights R ω
          ((play (JRules D n) σ (fun P => sights R ω (P.map Prod.snd)) steps).map Prod.snd)))| ≤
      2 * hidingBound (D.card * (n + 1)) (D.card * (n + 1) * n) := by
  classical
  have hex : ∀ P : List (Op Rand × Op Rand), ∃ π : FullChoice U KS CT → FullChoice U KS CT,
      JRules D n P → Function.Injective π ∧ ∀ ω, ¬ JBad R D n ω → sights R (π ω) (P.map Prod.fst) = sights R ω (P.map Prod.snd) := by
    intro P
    by_cases hP : JRules D n P
    · obtain ⟨π, hπ⟩ := exists_perm_janus (U := U) R D n hn P hP
      exact ⟨π, fun _ => hπ⟩
    · exact ⟨id, fun h => absurd h hP⟩
  choose π hπ using hex
  have hpre : ∀ (f : Op Rand × Op Rand → Op Rand) (ω : FullChoice U KS CT) P Q, Q <+: P →
      sights R ω (Q.map f) = (sights R ω (P.map f)).take Q.length := by
    intro f ω P Q h
    rw [← sights_take, ← List.map_take, ← List.prefix_iff_eq_take.mp h]
  have : Nonempty CT := ⟨R.ins.zero⟩
  have : Nonempty KS := ⟨R.del.zero⟩
  exact le_trans (adaptive_dist (allowed := JRules D n) ⟨trivial, fun _ h => absurd h List.not_mem_nil, Nat.zero_le _⟩
    (fun (ω : FullChoice U KS CT) P => sights R ω (P.map Prod.fst))
    (fun ω P => sights R ω (P.map Prod.snd)) (hpre Prod.fst) (hpre Prod.snd) π (fun P hP => (hπ P hP).1)
    (JBad R D n) (fun P hP => (hπ P hP).2) σ steps E) (prob_jbad_le R D n hU)

/-! ## An instance -/

/-- Updates of the keywords "a" and "b" in exchanged order, and of different documents, as long as only "c" is searched; an update of "a"
that is not the same in both is not allowed once "a" is searched. -/
example :
    Alike (Rand := Unit) [(.insert [97] 5 (), .insert [98] 6 ()), (.insert [99] 1 (), .insert [99] 1 ()), (.remove [97] 5, .remove [97] 8),
      (.search [99], .search [99]), (.remove [99] 1, .remove [98] 2)] ∧
    ¬ Alike (Rand := Unit) [(.insert [97] 5 (), .insert [98] 6 ()), (.search [97], .search [97])] ∧
    ¬ Alike (Rand := Unit) [(.insert [97] 5 (), .insert [98] 6 ()), (.search [98], .search [98])] := by
  simp [Alike, kind, Op.kw]

/-- A strategy that looks at the update token of its first insertion to choose the keyword it goes on with -/
def sampleStrategy (seen : List (Sight Tag Tag)) : Option (Op Unit × Op Unit) :=
  match seen with
  | [] => some (.insert [97] 5 (), .insert [98] 6 ())
  | [(.insert t _, _)] => if t[0] = 0 then some (.insert [99] 1 (), .insert [99] 1 ()) else some (.remove [97] 5, .remove [99] 5)
  | [_, (.insert _ _, _)] => some (.search [99], .search [99])
  | _ => none

/-- Its advantage is small. -/
example (E : List (Sight Tag Tag) → Prop) :
    |prob (fun ω : FullChoice (metaSet {[97], [98], [99]} 3) Tag Tag => E (sights sampleFixed ω
          ((play (JRules {[97], [98], [99]} 3) sampleStrategy (fun P => sights sampleFixed ω (P.map Prod.fst)) 3).map Prod.fst))) -
        prob (fun ω : FullChoice (metaSet {[97], [98], [99]} 3) Tag Tag => E (sights sampleFixed ω
          ((play (JRules {[97], [98], [99]} 3) sampleStrategy (fun P => sights sampleFixed ω (P.map Prod.snd)) 3).map Prod.snd)))| ≤
      2 * hidingBound (3 * 4) (3 * 4 * 3) :=
  C82_janus_forward sampleFixed {[97], [98], [99]} 3 (by decide) (Finset.Subset.refl _) sampleStrategy 3 E

end Verif.Ideal.Janus
