import Verif.Runner.RestartLemmas

/-!
# C44: restarts of clients and services do not change the results of searches
-/

set_option linter.unusedSectionVars false

namespace Verif.Runner

open Verif RestartSpec

variable {Kw : Type} [DecidableEq Kw]

/-- **C44 (part that holds)**, Sophos: client and service are stopped and started again at any points of any history of
insertions and searches, through the files, the databases and the messages. Every search made while both are running
gives exactly the documents that the service has stored, whatever the schedule of the threads of the service: those
inserted while both were running, and, of the insertions that were interrupted, those that the service stored.
Hypotheses: fewer than 2^32 insertions per keyword, no collision of the tokens of the history, and a number of
hardware threads accepted by C46. Missing: machines for which C46 fails, and a loss of power (see the head of
Restart.lean). -/
theorem C44_sophos_partial {t : Nat} (lib : SophosLib Kw t) (cfg : Config) (hcfg : SophosThreads cfg.hw cfg.async)
    (garbage : Vector UInt8 t × Vector UInt8 32) (k : SophosKeys lib) (es : List (Event Kw))
    (hfit : Sophos.Fits (final World.init es).log.requests)
    (hnc : Sophos.NoCollision k.crypto (final World.init es).log.requests)
    (outs : List (Option (List Index))) (s' : SophosWorld lib)
    (h : SophosRun lib cfg garbage (SophosWorld.created k) es outs s') :
    List.Forall₂ (fun p o => SophosOk p.1 p.2 o) (worlds World.init es) outs := by
  have key : ∀ (es : List (Event Kw)) (s : SophosWorld lib) (a : World Kw) outs, SophosInv k s a →
      Sophos.Fits (final a es).log.requests → Sophos.NoCollision k.crypto (final a es).log.requests →
      SophosRun lib cfg garbage s es outs s' →
      List.Forall₂ (fun p o => SophosOk p.1 p.2 o) (worlds a es) outs := by
    intro es
    induction es with
    | nil => intro s a outs _ _ _ h; cases h; exact .nil
    | cons e es ih =>
      intro s a outs hinv hf hn h
      cases h with
      | cons hst hrest =>
        obtain ⟨M, hM⟩ := final_log a (e :: es)
        rw [hM] at hf hn
        obtain ⟨hinv', hok⟩ := sophos_step hcfg k hinv (fits_prefix hf) (noCollision_prefix hn) hst
        rw [← hM] at hf hn
        exact .cons hok (ih _ _ _ hinv' hf hn hrest)
  exact key es _ _ outs (sophosInv_created k) hfit hnc h

/-- **C44**, Sophos: after every history the system still works: any sequence of events has a run (no exception, no
fault in the messages, no search without end). -/
theorem C44_sophos_available {t : Nat} (lib : SophosLib Kw t) (cfg : Config) (hcfg : SophosThreads cfg.hw cfg.async)
    (garbage : Vector UInt8 t × Vector UInt8 32) (k : SophosKeys lib) (es : List (Event Kw))
    (hfit : Sophos.Fits (final World.init es).log.requests)
    (hnc : Sophos.NoCollision k.crypto (final World.init es).log.requests) :
    ∃ outs s', SophosRun lib cfg garbage (SophosWorld.created k) es outs s' := by
  have key : ∀ (es : List (Event Kw)) (s : SophosWorld lib) (a : World Kw), SophosInv k s a →
      Sophos.Fits (final a es).log.requests → Sophos.NoCollision k.crypto (final a es).log.requests →
      ∃ outs s', SophosRun lib cfg garbage s es outs s' := by
    intro es
    induction es with
    | nil => intro s a _ _ _; exact ⟨_, _, .nil s⟩
    | cons e es ih =>
      intro s a hinv hf hn
      obtain ⟨o, s1, hst⟩ := sophos_progress hcfg garbage k hinv e
      obtain ⟨M, hM⟩ := final_log a (e :: es)
      rw [hM] at hf hn
      obtain ⟨hinv', -⟩ := sophos_step hcfg k hinv (fits_prefix hf) (noCollision_prefix hn) hst
      rw [← hM] at hf hn
      obtain ⟨outs, s', hr⟩ := ih _ _ hinv' hf hn
      exact ⟨_, _, .cons hst hr⟩
  exact key es _ _ (sophosInv_created k) hfit hnc

theorem entries_prefix {L M : Log Kw} {B : Kw → Nat} (h : ∀ w, (Log.entries (L ++ M) w).length ≤ B w) :
    ∀ w, (Log.entries L w).length ≤ B w := by
  intro w
  have := h w
  simp only [Log.entries, List.filter_append, List.map_append, List.length_append] at this ⊢
  omega

/-- **C44 (part that holds)**, Diana: the same; an asynchronous search gives exactly the delivered documents, a
synchronous search gives them at their positions, with document 0 in place of the lost updates (C09). -/
theorem C44_diana_partial (lib : DianaLib Kw) (cfg : Config) (hcfg : cfg.async = true → cfg.hw % 256 ≠ 0)
    (k : DianaKeys) (es : List (Event Kw))
    (hfit : ∀ w, ((final World.init es).log.entries w).length < 2 ^ 32)
    (hnc : Diana.NoCollision (lib.crypto k.master k.kwMaster)
      (fun w => ((final World.init es).log.entries w).length))
    (outs : List (Option (List Index))) (s' : DianaWorld Kw)
    (h : DianaRun lib cfg (DianaWorld.created k) es outs s') :
    List.Forall₂ (fun p o => DianaOk cfg.async p.1 p.2 o) (worlds World.init es) outs := by
  have key : ∀ (es : List (Event Kw)) (B : Kw → Nat) (_ : ∀ w, B w < 2 ^ 32)
      (_ : Diana.NoCollision (lib.crypto k.master k.kwMaster) B) (s : DianaWorld Kw) (a : World Kw) outs,
      DianaInv lib k B s a → (∀ w, ((final a es).log.entries w).length ≤ B w) → DianaRun lib cfg s es outs s' →
      List.Forall₂ (fun p o => DianaOk cfg.async p.1 p.2 o) (worlds a es) outs := by
    intro es B hB2 hnc
    induction es with
    | nil => intro s a outs _ _ h; cases h; exact .nil
    | cons e es ih =>
      intro s a outs hinv hB h
      cases h with
      | cons hst hrest =>
        obtain ⟨M, hM⟩ := final_log (a.next e) es
        have hB' : ∀ w, (Log.entries (a.next e).log w).length ≤ B w := by
          apply entries_prefix (M := M); rw [← hM]; exact hB
        obtain ⟨hinv', hok⟩ := diana_step hcfg k B hB2 hnc hinv hB' hst
        exact .cons hok (ih _ _ _ hinv' hB hrest)
  exact key es _ hfit hnc _ _ outs (dianaInv_created lib k _) (fun w => Nat.le_refl _) h

/-- **C44**, Diana: any sequence of events has a run. -/
theorem C44_diana_available (lib : DianaLib Kw) (cfg : Config) (hcfg : cfg.async = true → cfg.hw % 256 ≠ 0)
    (k : DianaKeys) (es : List (Event Kw))
    (hfit : ∀ w, ((final World.init es).log.entries w).length < 2 ^ 32)
    (hnc : Diana.NoCollision (lib.crypto k.master k.kwMaster)
      (fun w => ((final World.init es).log.entries w).length)) :
    ∃ outs s', DianaRun lib cfg (DianaWorld.created k) es outs s' := by
  have key : ∀ (es : List (Event Kw)) (B : Kw → Nat) (_ : ∀ w, B w < 2 ^ 32)
      (_ : Diana.NoCollision (lib.crypto k.master k.kwMaster) B) (s : DianaWorld Kw) (a : World Kw),
      DianaInv lib k B s a → (∀ w, ((final a es).log.entries w).length ≤ B w) →
      ∃ outs s', DianaRun lib cfg s es outs s' := by
    intro es B hB2 hnc
    induction es with
    | nil => intro s a _ _; exact ⟨_, _, .nil s⟩
    | cons e es ih =>
      intro s a hinv hB
      obtain ⟨M, hM⟩ := final_log (a.next e) es
      have hB' : ∀ w, (Log.entries (a.next e).log w).length ≤ B w := by
        apply entries_prefix (M := M); rw [← hM]; exact hB
      obtain ⟨M', hM'⟩ := next_log a e
      obtain ⟨o, s1, hst⟩ := diana_progress hcfg k B hB2 hinv
        (by apply entries_prefix (M := M'); rw [← hM']; exact hB') e
      obtain ⟨hinv', -⟩ := diana_step hcfg k B hB2 hnc hinv hB' hst
      obtain ⟨outs, s', hr⟩ := ih _ _ hinv' hB
      exact ⟨_, _, .cons hst hr⟩
  exact key es _ hfit hnc _ _ (dianaInv_created lib k _) (fun w => Nat.le_refl _)

/-! ## Examples -/

namespace RestartToy

/-- Two keywords; a document, a lost document and a third one for keyword `true`, with restarts of both sides; the
service is killed before it stores document 6, and the client after document 7 was stored. -/
def events : List (Event Bool) :=
  [.insert true 5, .cut true 6 false false true, .search false, .search true, .startServer, .stopClient,
    .insert true 8, .startClient, .cut true 7 true true false, .startClient, .search true, .search false]

def sophos : SophosLib Bool 1 where
  hash w := Vector.replicate 16 (if w then 1 else 0)
  gen _ _ s := Vector.replicate 1 s[0]
  dkey _ s := Vector.replicate 32 s[0]
  inv _ x := x.map (· + 1)
  eval _ x := x.map (· - 1)
  prf k st b := Vector.ofFn fun j => if j.val = 0 then k[0] else if j.val = 1 then st[0] else if b then 1 else 0
  privateValid s := s = [1]
  publicValid s := s = [2]
  publicKey _ := [2]
  public_valid := by simp
  eval_inv := by intro _ x _; ext i hi; simp

def sophosKeys : SophosKeys sophos := ⟨[1], by decide, Vector.replicate 32 3, Vector.replicate 32 4⟩

theorem requests : (final World.init events).log.requests = [(true, 5), (true, 6), (true, 7)] := by decide +kernel

theorem docs_le (w : Bool) : (Sophos.Spec.docs w (final World.init events).log.requests).length ≤ 3 := by
  rw [requests]; revert w; decide +kernel

theorem sophosNoCollision : Sophos.NoCollision sophosKeys.crypto (final World.init events).log.requests := by
  intro w a v b ha hb
  have h : ∀ w v : Bool, ∀ a < 3, ∀ b < 3,
      Sophos.updateToken sophosKeys.crypto w a = Sophos.updateToken sophosKeys.crypto v b → w = v ∧ a = b := by
    decide +kernel
  exact h w v a (Nat.lt_of_lt_of_le ha (docs_le w)) b (Nat.lt_of_lt_of_le hb (docs_le v))

/-- A synchronous service with 4 threads -/
def config : Config := ⟨4, false, true⟩

theorem forall₂_at {α β : Type} {R : α → β → Prop} {l : List α} {m : List β} (h : List.Forall₂ R l m) (i : Nat)
    (x : α) (hx : l[i]? = some x) : ∃ y, m[i]? = some y ∧ R x y := by
  induction h generalizing i with
  | nil => simp at hx
  | cons hxy _ ih =>
    cases i with
    | zero => simp at hx; subst hx; exact ⟨_, rfl, hxy⟩
    | succ i => simpa using ih i (by simpa using hx)

example : ∃ outs s', SophosRun sophos config (Vector.replicate 1 0, Vector.replicate 32 0)
      (SophosWorld.created sophosKeys) events outs s' ∧
    -- the service is down for the first search; then two of the three updates are found
    outs[3]? = some none ∧ (∃ res, outs[10]? = some (some res) ∧ res.Perm [5, 7]) ∧ outs[11]? = some (some []) := by
  have hfit : Sophos.Fits (final World.init events).log.requests :=
    fun w => Nat.lt_of_le_of_lt (docs_le w) (by decide)
  have ht : SophosThreads config.hw config.async := by unfold SophosThreads; decide
  obtain ⟨outs, s', h⟩ := C44_sophos_available sophos config ht
    (Vector.replicate 1 0, Vector.replicate 32 0) sophosKeys events hfit sophosNoCollision
  refine ⟨outs, s', h, ?_⟩
  have hok := C44_sophos_partial sophos config ht _ sophosKeys events hfit sophosNoCollision outs s' h
  obtain ⟨o3, e3, h3⟩ := forall₂_at hok 3 _ rfl
  obtain ⟨o9, e9, h9⟩ := forall₂_at hok 10 _ rfl
  obtain ⟨o10, e10, h10⟩ := forall₂_at hok 11 _ rfl
  refine ⟨?_, ?_, ?_⟩
  · cases o3 with
    | none => exact e3
    | some r => exact absurd h3.2.1 (by decide)
  · cases o9 with
    | none => exact absurd (by decide) h9
    | some r => exact ⟨r, e9, h9.2.2⟩
  · cases o10 with
    | none => exact absurd (by decide) h10
    | some r => rw [e10, List.Perm.eq_nil h10.2.2]

def diana : DianaLib Bool where
  RK := UInt8
  CK := UInt8 × Nat
  Nonce := UInt8
  hash w := Vector.replicate 16 (if w then 1 else 0)
  kwToken _ _ := Vector.replicate 32 7
  root _ t := t[0]
  eval r i := Diana.Toy.wide (Diana.Toy.bytes r (UInt8.ofNat i))
  constrain r _ b := (r, b)
  ceval ck x := if x ≤ ck.2 then some (Diana.Toy.wide (Diana.Toy.bytes ck.1 (UInt8.ofNat x))) else none
  maxLeaf ck := ck.2
  emptyCK := (0, 0)
  token := Diana.Toy.narrow
  mask l := byte64 l[1] + 3
  maxLeaf_constrain := by intros; rfl
  ceval_constrain := by intro r b x _ hx; simp [hx]
  wrap k n ck := k[0] :: n :: ck.1 :: List.replicate ck.2 0
  unwrap k s := match s with
    | k' :: _ :: r :: l => if k' = k[0] then some (r, l.length) else none
    | _ => none
  unwrap_wrap := by intro k n ck; simp
  nonce := 9

def dianaKeys : DianaKeys := ⟨Vector.replicate 32 3, Vector.replicate 32 4, Vector.replicate 32 5⟩

theorem entries_le (w : Bool) : ((final World.init events).log.entries w).length ≤ 3 := by
  revert w; decide +kernel

theorem dianaNoCollision : Diana.NoCollision (diana.crypto dianaKeys.master dianaKeys.kwMaster)
    (fun w => ((final World.init events).log.entries w).length) := by
  intro w a v b ha hb
  have h : ∀ w v : Bool, ∀ a < 3, ∀ b < 3,
      Diana.updateToken (diana.crypto dianaKeys.master dianaKeys.kwMaster) w a =
        Diana.updateToken (diana.crypto dianaKeys.master dianaKeys.kwMaster) v b → w = v ∧ a = b := by
    decide +kernel
  exact h w v a (Nat.lt_of_lt_of_le ha (entries_le w)) b (Nat.lt_of_lt_of_le hb (entries_le v))

example : ∃ outs s', DianaRun diana config (DianaWorld.created dianaKeys) events outs s' ∧
    -- the synchronous search reports document 0 for the lost update (C09)
    outs[3]? = some none ∧ outs[10]? = some (some [5, 0, 7]) ∧ outs[11]? = some (some []) := by
  have hfit : ∀ w, ((final World.init events).log.entries w).length < 2 ^ 32 :=
    fun w => Nat.lt_of_le_of_lt (entries_le w) (by decide)
  have ht : config.async = true → config.hw % 256 ≠ 0 := by decide
  obtain ⟨outs, s', h⟩ := C44_diana_available diana config ht dianaKeys events hfit dianaNoCollision
  refine ⟨outs, s', h, ?_⟩
  have hok := C44_diana_partial diana config ht dianaKeys events hfit dianaNoCollision outs s' h
  obtain ⟨o3, e3, h3⟩ := forall₂_at hok 3 _ rfl
  obtain ⟨o9, e9, h9⟩ := forall₂_at hok 10 _ rfl
  obtain ⟨o10, e10, h10⟩ := forall₂_at hok 11 _ rfl
  refine ⟨?_, ?_, ?_⟩
  · cases o3 with
    | none => exact e3
    | some r => exact absurd h3.2.1 (by decide)
  · cases o9 with
    | none => exact absurd (by decide) h9
    | some r =>
      have := h9.2.2
      rw [if_neg (by decide)] at this
      rw [e9, this]; rfl
  · cases o10 with
    | none => exact absurd (by decide) h10
    | some r =>
      have := h10.2.2
      rw [if_neg (by decide)] at this
      rw [e10, this]; rfl

end RestartToy

end Verif.Runner
