import Verif.Faults.SlotLemmas
import Verif.Sophos.Props
import Verif.Diana.Props

/-!
# C50: insertions and searches when RocksDB calls fail

Full statement: for every history of operations and every pattern of failures of the RocksDB
calls made by the client and the server, the observations are `Spec.Honest`: an insertion that
returns normally is found by the later searches, one that throws is not, and a search that returns
normally returns exactly what counts.

It does not hold.  `C50_sophos_refines` and `C50_diana_refines` say exactly what is observed under
every pattern; the `_partial` theorems say that failures of the client's own `Put` are harmless;
the `_violated` theorems say what each of the other failures does.
-/

set_option linter.unusedSectionVars false

namespace Verif.Faults

open Verif

variable {Kw V Seed ST DK : Type} [DecidableEq Kw]

/-- No two of the first `B w` tokens of all keywords `w` collide (Sophos). -/
def SophosNoCollision (c : Sophos.Crypto Kw Seed ST DK) (B : Kw → Nat) : Prop :=
  ∀ w a v b, a < B w → b < B v →
    Sophos.updateToken c w a = Sophos.updateToken c v b → w = v ∧ a = b

/-! ## What is observed, exactly -/

/-- **C50**: the observations on Sophos under every pattern of failures. -/
theorem C50_sophos_refines (c : Sophos.Crypto Kw Seed ST DK) (g : ST × DK)
    (ops : List (Op Kw Index)) (hfit : ∀ w, Spec.attempts w ops < 2 ^ 32)
    (hnc : SophosNoCollision c (fun w => Spec.attempts w ops)) :
    sophosRun c g Sophos.Sys.init ops = Spec.Slots.init.run Spec.newestFirst ops :=
  sophosRun_refines c g _ hfit hnc ops _ _
    ⟨fun w => by simp [Sophos.Sys.init, Spec.Slots.init, Counter.counterOf],
      fun w a _ => by simp [Sophos.Sys.init, Spec.Slots.init]⟩
    (fun w => by simp [Spec.Slots.init])

/-- **C50**: the observations on Diana under every pattern of failures. -/
theorem C50_diana_refines (c : Diana.Crypto Kw V)
    (ops : List (Op Kw V)) (hfit : ∀ w, Spec.attempts w ops < 2 ^ 32)
    (hnc : Diana.NoCollision c (fun w => Spec.attempts w ops)) :
    dianaRun c Diana.Sys.init ops = Spec.Slots.init.run Spec.oldestFirst ops :=
  dianaRun_refines c _ hfit hnc ops _ _
    ⟨fun w => by simp [Diana.Sys.init, Spec.Slots.init, Counter.counterOf],
      fun w a _ => by simp [Diana.Sys.init, Spec.Slots.init]⟩
    (fun w => by simp [Spec.Slots.init])

/-! ## Failures of the client's `Put` -/

/-- **C50** for Sophos, when only the `Put` of the client may fail, in whatever way. -/
theorem C50_sophos_partial (c : Sophos.Crypto Kw Seed ST DK) (g : ST × DK)
    (ops : List (Op Kw Index)) (hfit : ∀ w, Spec.attempts w ops < 2 ^ 32)
    (hnc : SophosNoCollision c (fun w => Spec.attempts w ops))
    (hops : ∀ op ∈ ops, Spec.OnlyClientPut op) :
    Spec.Honest List.reverse [] ops (sophosRun c g Sophos.Sys.init ops) := by
  rw [C50_sophos_refines c g ops hfit hnc]
  exact Spec.honest_run Spec.sophos ops hops _ _ Spec.holds_init

/-- **C50** for Diana, when only the `Put` of the client may fail, in whatever way. -/
theorem C50_diana_partial (c : Diana.Crypto Kw V)
    (ops : List (Op Kw V)) (hfit : ∀ w, Spec.attempts w ops < 2 ^ 32)
    (hnc : Diana.NoCollision c (fun w => Spec.attempts w ops))
    (hops : ∀ op ∈ ops, Spec.OnlyClientPut op) :
    Spec.Honest id [] ops (dianaRun c Diana.Sys.init ops) := by
  rw [C50_diana_refines c ops hfit hnc]
  exact Spec.honest_run Spec.diana ops hops _ _ Spec.holds_init

/-! ## A client that cannot read its counter -/

/-- The history: insertions `H` without failure, an insertion of `(w, i)` whose `Get` fails,
insertions `L` without failure, and a search for `w` without failure. -/
def resetHistory (H : List (Kw × V)) (w : Kw) (i : V) (L : List (Kw × V)) : List (Op Kw V) :=
  H.map Spec.good ++ (.insert w i false .ok .ok :: L.map Spec.good ++ [Spec.goodSearch w])

theorem attempts_reset (H : List (Kw × V)) (w : Kw) (i : V) (L : List (Kw × V)) (v : Kw) :
    Spec.attempts v (resetHistory H w i L) =
      (Spec.docs v (H ++ (w, i) :: L)).length := by
  unfold resetHistory
  rw [Spec.attempts_append, Spec.attempts_good, List.cons_append, attempts_cons,
    Spec.attempts_append, Spec.attempts_good, Spec.docs_append, Spec.docs_cons]
  simp only [Spec.attempts, Spec.goodSearch, List.length_append]
  by_cases h : w = v <;> simp [h]

theorem reset_observed (o : Spec.Order V) (H : List (Kw × V)) (w : Kw) (i : V)
    (L : List (Kw × V)) :
    (Spec.Slots.init : Spec.Slots Kw V).run o.pos (resetHistory H w i L) =
      List.replicate H.length .acked ++ (.acked :: List.replicate L.length .acked ++
        [.results (o.arrange (Spec.docs w ((w, i) :: L)))]) := by
  unfold resetHistory
  rw [Spec.run_append, Spec.run_good, Spec.reset_run]

theorem reset_not_honest (o : Spec.Order V) (H : List (Kw × V)) (w : Kw) (i : V)
    (L : List (Kw × V)) (hw : Spec.docs w H ≠ []) :
    ¬ Spec.Honest o.arrange [] (resetHistory H w i L)
      ((Spec.Slots.init : Spec.Slots Kw V).run o.pos (resetHistory H w i L)) := by
  rw [reset_observed]
  unfold resetHistory
  rw [Spec.honest_good_prefix]
  simp only [List.nil_append, List.cons_append, Spec.Honest]
  rw [Spec.honest_good_prefix]
  simp only [Spec.goodSearch, Spec.Honest, and_true]
  intro h
  have hl := congrArg List.length h
  rw [o.arrange_length, o.arrange_length, Spec.docs_append, Spec.docs_append, Spec.docs_cons] at hl
  simp only [if_true, List.length_append] at hl
  have : 0 < (Spec.docs w H).length := List.length_pos_iff.mpr hw
  have : (Spec.docs w [(w, i)]).length = 1 := by simp [Spec.docs]
  simp only [List.length_cons, List.length_nil] at hl
  omega

/-- **C50 violated** for Sophos: if one `Get` of the client fails during an insertion for a keyword
that already has documents, the insertion returns normally, and all the earlier documents of the
keyword are lost: after any number of later insertions without failure a search returns only
the documents inserted since. -/
theorem C50_sophos_reset_violated (c : Sophos.Crypto Kw Seed ST DK) (g : ST × DK)
    (H : List (Kw × Index)) (w : Kw) (i : Index) (L : List (Kw × Index))
    (hfit : ∀ v, (Spec.docs v (H ++ (w, i) :: L)).length < 2 ^ 32)
    (hnc : SophosNoCollision c (fun v => (Spec.docs v (H ++ (w, i) :: L)).length))
    (hw : Spec.docs w H ≠ []) :
    sophosRun c g Sophos.Sys.init (resetHistory H w i L) =
      List.replicate (H.length + 1 + L.length) .acked ++
        [.results (Spec.docs w ((w, i) :: L)).reverse] ∧
    ¬ Spec.Honest List.reverse [] (resetHistory H w i L)
      (sophosRun c g Sophos.Sys.init (resetHistory H w i L)) := by
  have ha := attempts_reset H w i L
  rw [C50_sophos_refines c g _ (by intro v; rw [ha]; exact hfit v) (by simpa only [ha] using hnc)]
  refine ⟨?_, reset_not_honest Spec.sophos H w i L hw⟩
  have h := reset_observed Spec.sophos H w i L
  refine h.trans ?_
  rw [List.replicate_add, List.replicate_add, List.append_assoc, List.append_assoc]
  rfl

/-- **C50 violated** for Diana, in the same way. -/
theorem C50_diana_reset_violated (c : Diana.Crypto Kw V)
    (H : List (Kw × V)) (w : Kw) (i : V) (L : List (Kw × V))
    (hfit : ∀ v, (Spec.docs v (H ++ (w, i) :: L)).length < 2 ^ 32)
    (hnc : Diana.NoCollision c (fun v => (Spec.docs v (H ++ (w, i) :: L)).length))
    (hw : Spec.docs w H ≠ []) :
    dianaRun c Diana.Sys.init (resetHistory H w i L) =
      List.replicate (H.length + 1 + L.length) .acked ++
        [.results (Spec.docs w ((w, i) :: L))] ∧
    ¬ Spec.Honest id [] (resetHistory H w i L)
      (dianaRun c Diana.Sys.init (resetHistory H w i L)) := by
  have ha := attempts_reset H w i L
  rw [C50_diana_refines c _ (by intro v; rw [ha]; exact hfit v) (by simpa only [ha] using hnc)]
  refine ⟨?_, reset_not_honest Spec.diana H w i L hw⟩
  have h := reset_observed Spec.diana H w i L
  refine h.trans ?_
  rw [List.replicate_add, List.replicate_add, List.append_assoc, List.append_assoc]
  rfl

/-! ## A server that cannot store -/

/-- Insertions `H` without failure, then an insertion of `(w, i)` which the server cannot store,
then a search for `w` without failure. -/
def unstoredHistory (H : List (Kw × V)) (w : Kw) (i : V) : List (Op Kw V) :=
  H.map Spec.good ++ [.insert w i true .ok .failed, Spec.goodSearch w]

theorem attempts_unstored (H : List (Kw × V)) (w : Kw) (i : V) (v : Kw) :
    Spec.attempts v (unstoredHistory H w i) = (Spec.docs v (H ++ [(w, i)])).length := by
  unfold unstoredHistory
  rw [Spec.attempts_append, Spec.attempts_good, Spec.docs_append, Spec.docs_cons]
  by_cases h : w = v <;> simp [Spec.attempts, Spec.goodSearch, h, Spec.docs]

theorem unstored_observed (o : Spec.Order V) (H : List (Kw × V)) (w : Kw) (i : V) :
    (Spec.Slots.init : Spec.Slots Kw V).run o.pos (unstoredHistory H w i) =
      List.replicate H.length .acked ++ [.acked, .results (o.arrange (Spec.docs w H))] := by
  unfold unstoredHistory
  rw [Spec.run_append, Spec.run_good, Spec.Slots.run, Spec.search_good]
  have h := Spec.holds_good o.pos H _ _ (Spec.holds_init : Spec.Holds (Kw := Kw) (V := V) _ _)
  simp only [List.nil_append] at h
  generalize Spec.Slots.exec o.pos Spec.Slots.init (H.map Spec.good) = S at h ⊢
  have hs : (S.step o.pos (.insert w i true .ok .failed)) = (S.setN w (S.n w + 1), .acked) := by
    simp [Spec.Slots.step]
  rw [hs]
  rw [(Spec.holds_skip h w).inUse w]

theorem unstored_not_honest (o : Spec.Order V) (H : List (Kw × V)) (w : Kw) (i : V) :
    ¬ Spec.Honest o.arrange [] (unstoredHistory H w i)
      ((Spec.Slots.init : Spec.Slots Kw V).run o.pos (unstoredHistory H w i)) := by
  rw [unstored_observed]
  unfold unstoredHistory
  rw [Spec.honest_good_prefix]
  simp only [List.nil_append, Spec.Honest, Spec.goodSearch, and_true]
  intro h
  have hl := congrArg List.length h
  rw [o.arrange_length, o.arrange_length, Spec.docs_append] at hl
  simp [Spec.docs] at hl

/-- **C50 violated** for Sophos: an update which the server cannot store is acknowledged
(`SophosServer::insert` ignores the result of `put`) and missing from the searches. -/
theorem C50_sophos_unstored_violated (c : Sophos.Crypto Kw Seed ST DK) (g : ST × DK)
    (H : List (Kw × Index)) (w : Kw) (i : Index)
    (hfit : ∀ v, (Spec.docs v (H ++ [(w, i)])).length < 2 ^ 32)
    (hnc : SophosNoCollision c (fun v => (Spec.docs v (H ++ [(w, i)])).length)) :
    sophosRun c g Sophos.Sys.init (unstoredHistory H w i) =
      List.replicate H.length .acked ++ [.acked, .results (Spec.docs w H).reverse] ∧
    ¬ Spec.Honest List.reverse [] (unstoredHistory H w i)
      (sophosRun c g Sophos.Sys.init (unstoredHistory H w i)) := by
  have ha := attempts_unstored H w i
  rw [C50_sophos_refines c g _ (by intro v; rw [ha]; exact hfit v) (by simpa only [ha] using hnc)]
  exact ⟨unstored_observed Spec.sophos H w i, unstored_not_honest Spec.sophos H w i⟩

/-- **C50 violated** for Diana, in the same way. -/
theorem C50_diana_unstored_violated (c : Diana.Crypto Kw V)
    (H : List (Kw × V)) (w : Kw) (i : V)
    (hfit : ∀ v, (Spec.docs v (H ++ [(w, i)])).length < 2 ^ 32)
    (hnc : Diana.NoCollision c (fun v => (Spec.docs v (H ++ [(w, i)])).length)) :
    dianaRun c Diana.Sys.init (unstoredHistory H w i) =
      List.replicate H.length .acked ++ [.acked, .results (Spec.docs w H)] ∧
    ¬ Spec.Honest id [] (unstoredHistory H w i)
      (dianaRun c Diana.Sys.init (unstoredHistory H w i)) := by
  have ha := attempts_unstored H w i
  rw [C50_diana_refines c _ (by intro v; rw [ha]; exact hfit v) (by simpa only [ha] using hnc)]
  exact ⟨unstored_observed Spec.diana H w i, unstored_not_honest Spec.diana H w i⟩

/-! ## Searches whose reads fail -/

/-- Insertions `H` without failure, then a search for `w` with failures. -/
def readHistory (H : List (Kw × V)) (w : Kw) (getOk : Bool) (bad : Nat → Bool) : List (Op Kw V) :=
  H.map Spec.good ++ [.search w getOk bad]

theorem attempts_read (H : List (Kw × V)) (w : Kw) (getOk : Bool) (bad : Nat → Bool) (v : Kw) :
    Spec.attempts v (readHistory H w getOk bad) = (Spec.docs v H).length := by
  unfold readHistory
  rw [Spec.attempts_append, Spec.attempts_good]
  simp [Spec.attempts]

/-- The elements of a list whose positions are not `bad`. -/
def keep (bad : Nat → Bool) (l : List V) : List V :=
  (l.zipIdx.filter (fun e => !bad e.2)).map (·.1)

theorem keep_eq (bad : Nat → Bool) (l : List V) :
    (List.range l.length).filterMap (fun p => if bad p then none else l[p]?) = keep bad l := by
  induction l using List.reverseRecOn with
  | nil => rfl
  | append_singleton l x ih =>
    unfold keep at ih ⊢
    rw [List.zipIdx_append, List.filter_append, List.map_append, ← ih, List.length_append,
      List.length_singleton, List.range_succ, List.filterMap_append]
    congr 1
    · apply List.filterMap_congr
      intro p hp
      rw [List.mem_range] at hp
      rw [List.getElem?_append_left hp]
    · by_cases h : bad l.length <;> simp [h]

theorem holds_slot (pos : Nat → Nat → Nat) (H : List (Kw × V)) (w : Kw) (a : Nat) :
    ((Spec.Slots.init : Spec.Slots Kw V).exec pos (H.map Spec.good)).slot w a =
      (Spec.docs w H)[a]? := by
  obtain ⟨_, h2⟩ := Spec.exec_good pos (Spec.Slots.init : Spec.Slots Kw V) H w
  rw [h2]
  by_cases h : a < (Spec.docs w H).length
  · simp [Spec.Slots.init, h]
  · simp [Spec.Slots.init, h]

/-- **C50 violated** for Sophos: a search whose reads fail returns normally with results missing:
none at all when the client cannot read its counter, the others when the server cannot read some
entries. -/
theorem C50_sophos_read_violated (c : Sophos.Crypto Kw Seed ST DK) (g : ST × DK)
    (H : List (Kw × Index)) (w : Kw) (getOk : Bool) (bad : Nat → Bool)
    (hfit : ∀ v, (Spec.docs v H).length < 2 ^ 32)
    (hnc : SophosNoCollision c (fun v => (Spec.docs v H).length)) :
    sophosRun c g Sophos.Sys.init (readHistory H w getOk bad) =
      List.replicate H.length .acked ++
        [.results (if getOk then keep bad (Spec.docs w H).reverse else [])] := by
  have ha := attempts_read H w getOk bad
  rw [C50_sophos_refines c g _ (by intro v; rw [ha]; exact hfit v) (by simpa only [ha] using hnc)]
  unfold readHistory
  rw [Spec.run_append, Spec.run_good]
  congr 1
  have hs := holds_slot Spec.newestFirst H w
  have hn := (Spec.exec_good Spec.newestFirst (Spec.Slots.init : Spec.Slots Kw Index) H w).1
  simp only [Spec.Slots.run, Spec.Slots.step, hs, hn]
  cases getOk
  · simp
  · simp only [if_true, Spec.Slots.init, Nat.zero_add]
    rw [← keep_eq, List.length_reverse]
    congr 2
    apply List.filterMap_congr
    intro p hp
    rw [List.mem_range] at hp
    rw [List.getElem?_reverse hp]
    rfl

/-- **C50 violated** for Diana, in the same way. -/
theorem C50_diana_read_violated (c : Diana.Crypto Kw V)
    (H : List (Kw × V)) (w : Kw) (getOk : Bool) (bad : Nat → Bool)
    (hfit : ∀ v, (Spec.docs v H).length < 2 ^ 32)
    (hnc : Diana.NoCollision c (fun v => (Spec.docs v H).length)) :
    dianaRun c Diana.Sys.init (readHistory H w getOk bad) =
      List.replicate H.length .acked ++
        [.results (if getOk then keep bad (Spec.docs w H) else [])] := by
  have ha := attempts_read H w getOk bad
  rw [C50_diana_refines c _ (by intro v; rw [ha]; exact hfit v) (by simpa only [ha] using hnc)]
  unfold readHistory
  rw [Spec.run_append, Spec.run_good]
  congr 1
  have hs := holds_slot Spec.oldestFirst H w
  have hn := (Spec.exec_good Spec.oldestFirst (Spec.Slots.init : Spec.Slots Kw V) H w).1
  simp only [Spec.Slots.run, Spec.Slots.step, hs, hn]
  cases getOk
  · simp
  · simp only [if_true, Spec.Slots.init, Nat.zero_add]
    rw [← keep_eq]
    rfl

/-! ## Examples -/

namespace Toy

theorem sophos_noCollision (B : Bool → Nat) (h : ∀ w, B w ≤ 256) :
    SophosNoCollision Sophos.Toy.crypto B := by
  have := Sophos.Toy.noCollision
    (List.replicate (B true) (true, 0) ++ List.replicate (B false) (false, 0))
    (by intro w; cases w <;> simp [Sophos.Spec.docs, h])
  intro w a v b ha hb
  exact this w a v b (by cases w <;> simpa [Sophos.Spec.docs] using ha)
    (by cases v <;> simpa [Sophos.Spec.docs] using hb)

/-- Two failed `Put`s of the client, one of them applied, among insertions and searches. -/
def ops : List (Op Bool Index) :=
  [Spec.good (true, 5), .insert true 6 true .storedButFailed .ok, Spec.goodSearch true,
    .insert false 8 true .failed .ok, Spec.good (true, 7), Spec.good (false, 9),
    Spec.goodSearch true, Spec.goodSearch false]

/-- Non-vacuity of `C50_sophos_partial`. -/
example : sophosRun Sophos.Toy.crypto (0, false) Sophos.Sys.init ops =
    [.acked, .error, .results [5], .error, .acked, .acked, .results [7, 5], .results [9]] ∧
    Spec.Honest List.reverse [] ops (sophosRun Sophos.Toy.crypto (0, false) Sophos.Sys.init ops) := by
  constructor
  · rw [C50_sophos_refines]
    · rfl
    · intro w; cases w <;> decide
    · exact sophos_noCollision _ (by intro w; cases w <;> decide)
  · apply C50_sophos_partial
    · intro w; cases w <;> decide
    · exact sophos_noCollision _ (by intro w; cases w <;> decide)
    · simp [ops, Spec.good, Spec.goodSearch, Spec.OnlyClientPut]

/-- Non-vacuity of `C50_diana_partial`. -/
example : dianaRun Diana.Toy.crypto Diana.Sys.init ops =
    [.acked, .error, .results [5], .error, .acked, .acked, .results [5, 7], .results [9]] ∧
    Spec.Honest id [] ops (dianaRun Diana.Toy.crypto Diana.Sys.init ops) := by
  constructor
  · rw [C50_diana_refines]
    · rfl
    · intro w; cases w <;> decide
    · exact Diana.Toy.noCollision _ (by intro w; cases w <;> decide)
  · apply C50_diana_partial
    · intro w; cases w <;> decide
    · exact Diana.Toy.noCollision _ (by intro w; cases w <;> decide)
    · simp [ops, Spec.good, Spec.goodSearch, Spec.OnlyClientPut]

/-- Non-vacuity of the reset theorems: 5 and 6 are lost for ever. -/
example : sophosRun Sophos.Toy.crypto (0, false) Sophos.Sys.init
    (resetHistory [(true, 5), (true, 6), (false, 1)] true 7 [(true, 8)]) =
      [.acked, .acked, .acked, .acked, .acked, .results [8, 7]] :=
  (C50_sophos_reset_violated Sophos.Toy.crypto (0, false) [(true, 5), (true, 6), (false, 1)] true 7
    [(true, 8)] (by intro w; cases w <;> decide)
    (sophos_noCollision _ (by intro w; cases w <;> decide)) (by decide)).1

example : dianaRun Diana.Toy.crypto Diana.Sys.init
    (resetHistory [(true, 5), (true, 6), (false, 1)] true 7 [(true, 8)]) =
      [.acked, .acked, .acked, .acked, .acked, .results [7, 8]] :=
  (C50_diana_reset_violated Diana.Toy.crypto [(true, 5), (true, 6), (false, 1)] true 7
    [(true, 8)] (by intro w; cases w <;> decide)
    (Diana.Toy.noCollision _ (by intro w; cases w <;> decide)) (by decide)).1

/-- Non-vacuity of the theorems on unstored updates. -/
example : sophosRun Sophos.Toy.crypto (0, false) Sophos.Sys.init
    (unstoredHistory [(true, 5), (false, 1)] true 7) = [.acked, .acked, .acked, .results [5]] :=
  (C50_sophos_unstored_violated Sophos.Toy.crypto (0, false) [(true, 5), (false, 1)] true 7
    (by intro w; cases w <;> decide) (sophos_noCollision _ (by intro w; cases w <;> decide))).1

example : dianaRun Diana.Toy.crypto Diana.Sys.init
    (unstoredHistory [(true, 5), (false, 1)] true 7) = [.acked, .acked, .acked, .results [5]] :=
  (C50_diana_unstored_violated Diana.Toy.crypto [(true, 5), (false, 1)] true 7
    (by intro w; cases w <;> decide) (Diana.Toy.noCollision _ (by intro w; cases w <;> decide))).1

/-- Non-vacuity of the theorems on failing reads: the second access of the server fails. -/
example : sophosRun Sophos.Toy.crypto (0, false) Sophos.Sys.init
    (readHistory [(true, 5), (true, 6), (true, 7)] true true (fun p => p == 1)) =
      [.acked, .acked, .acked, .results [7, 5]] :=
  C50_sophos_read_violated Sophos.Toy.crypto (0, false) [(true, 5), (true, 6), (true, 7)] true true
    (fun p => p == 1) (by intro w; cases w <;> decide)
    (sophos_noCollision _ (by intro w; cases w <;> decide))

example : dianaRun Diana.Toy.crypto Diana.Sys.init
    (readHistory [(true, 5), (true, 6), (true, 7)] true false (fun _ => false)) =
      [.acked, .acked, .acked, .results []] :=
  C50_diana_read_violated Diana.Toy.crypto [(true, 5), (true, 6), (true, 7)] true false
    (fun _ => false) (by intro w; cases w <;> decide)
    (Diana.Toy.noCollision _ (by intro w; cases w <;> decide))

end Toy

end Verif.Faults
