import Verif.Power.FlushLemmas
import Verif.Power.Props

/-!
# C86: what was acknowledged survives a loss of power

Full statement: the updates of a bulk session that was answered, and all updates when the service was stopped, survive any loss of
power of the server's machine.

True for Diana if no flush fails (`_partial`). False for Sophos, which never flushes, and for Diana when a flush fails, which is only logged; and
an update that is sent alone is not flushed (`_violated`).
-/

set_option linter.unusedSectionVars false

namespace Verif.Power

open Verif Verif.Runner.Sess

variable {Kw Seed ST DK : Type} [DecidableEq Kw]

/-- **C86** for Diana, if no flush fails and the client loses nothing: a search returns exactly the documents that are safe, and the recent ones that
were not lost. -/
theorem C86_diana_partial (c : Diana.Crypto Kw Index) (evs : List (Ev Kw)) (hc : Durable.NoClientLoss evs) (hf : Durable.NoFailure evs)
    (hfit : ∀ w, (Durable.inserted evs w).length < 2 ^ 32)
    (hnc : Diana.NoCollision c (fun w => (Durable.inserted evs w).length)) (w : Kw) :
    evSearch .diana (diana c) evs w = some (Durable.docs evs w) := by
  rw [evSearch_clip, C57_diana_partial c _ (clip_noClientLoss .diana evs 0 hc) (by simpa only [clip_inserted] using hfit)
    (by simpa only [clip_inserted] using hnc), stored_docs evs hf]

/-- **C86** for Diana: what a search finds when a bulk session is answered, or when the service is stopped, is found whatever happens to the server
afterwards. -/
theorem C86_diana_durable_partial (c : Diana.Crypto Kw Index) (a b : List (Ev Kw)) (ev : Ev Kw)
    (hev : ev = .sessionEnd true ∨ ev = .restart true) (hc : Durable.NoClientLoss (a ++ ev :: b))
    (hf : Durable.NoFailure (a ++ ev :: b)) (hfit : ∀ w, (Durable.inserted (a ++ ev :: b) w).length < 2 ^ 32)
    (hnc : Diana.NoCollision c (fun w => (Durable.inserted (a ++ ev :: b) w).length)) (w : Kw) :
    ∃ r r', evSearch .diana (diana c) a w = some r ∧ evSearch .diana (diana c) (a ++ ev :: b) w = some (r ++ r') := by
  have hlen : ∀ w, (Durable.inserted a w).length ≤ (Durable.inserted (a ++ ev :: b) w).length := by
    intro w; simp [Durable.inserted, List.filterMap_append]
  have h1 := C86_diana_partial c a (fun k hk => hc k (by simp [hk])) ⟨fun h => hf.1 (by simp [h]), fun h => hf.2 (by simp [h])⟩
    (fun w => Nat.lt_of_le_of_lt (hlen w) (hfit w)) (noCollision_mono hnc hlen) w
  have h2 := C86_diana_partial c _ hc hf hfit hnc w
  rw [h1, h2]
  have h3 : Durable.docs a w <+: Durable.docs (a ++ ev :: b) w := by
    unfold Durable.docs
    refine List.IsPrefix.map _ (List.IsPrefix.filter _ ?_)
    have h4 : Durable.run (a ++ ev :: b) = b.foldl Durable.step (Durable.step (Durable.run a) ev) := by
      simp [Durable.run, List.foldl_append]
    have h5 := docs_prefix b (Durable.step (Durable.run a) ev)
    rw [← h4] at h5
    have h6 : (Durable.step (Durable.run a) ev).safe = (Durable.run a).safe ++ (Durable.run a).recent := by
      rcases hev with rfl | rfl <;> rfl
    rw [h6] at h5
    exact List.IsPrefix.trans h5 (List.prefix_append _ _)
  obtain ⟨r', hr⟩ := h3
  exact ⟨_, r', rfl, by rw [hr]⟩

/-- **C86** for Diana: in particular all documents of a bulk session that was answered are found. -/
theorem C86_diana_session_partial (c : Diana.Crypto Kw Index) (a b : List (Ev Kw)) (session : List (Kw × Index))
    (hc : Durable.NoClientLoss (a ++ session.map (fun e => .insert e.1 e.2 true) ++ .sessionEnd true :: b))
    (hf : Durable.NoFailure (a ++ session.map (fun e => .insert e.1 e.2 true) ++ .sessionEnd true :: b))
    (hfit : ∀ w, (Durable.inserted (a ++ session.map (fun e => .insert e.1 e.2 true) ++ .sessionEnd true :: b) w).length < 2 ^ 32)
    (hnc : Diana.NoCollision c
      (fun w => (Durable.inserted (a ++ session.map (fun e => .insert e.1 e.2 true) ++ .sessionEnd true :: b) w).length))
    (w : Kw) (i : Index) (hi : (w, i) ∈ session) :
    ∃ r, evSearch .diana (diana c) (a ++ session.map (fun e => .insert e.1 e.2 true) ++ .sessionEnd true :: b) w = some r ∧ i ∈ r := by
  refine ⟨_, C86_diana_partial c _ hc hf hfit hnc w, ?_⟩
  have hrun : Durable.run (a ++ session.map (fun e => .insert e.1 e.2 true) ++ .sessionEnd true :: b) =
      b.foldl Durable.step (Durable.step ((session.map (fun e => Ev.insert e.1 e.2 true)).foldl Durable.step (Durable.run a)) (.sessionEnd true)) := by
    simp [Durable.run, List.foldl_append]
  have hrec : ∀ (l : List (Kw × Index)) (d : Durable.Docs Kw),
      ((l.map (fun e => Ev.insert e.1 e.2 true)).foldl Durable.step d).recent = d.recent ++ l := by
    intro l
    induction l with
    | nil => simp
    | cons x l ih => intro d; simp only [List.map_cons, List.foldl_cons, ih]; simp [Durable.step]
  have hp := docs_prefix b (Durable.step ((session.map (fun e => Ev.insert e.1 e.2 true)).foldl Durable.step (Durable.run a)) (.sessionEnd true))
  rw [← hrun] at hp
  have hmem : (w, i) ∈ (Durable.run (a ++ session.map (fun e => .insert e.1 e.2 true) ++ .sessionEnd true :: b)).safe := by
    refine hp.subset ?_
    simp [Durable.step, hrec, hi]
  unfold Durable.docs
  simp only [List.mem_map, List.mem_filter, List.mem_append, decide_eq_true_eq]
  exact ⟨(w, i), ⟨Or.inl hmem, rfl⟩, rfl⟩

/-- **C86**: whatever is lost, by the client or by the server, a search returns documents inserted for the keyword only. -/
theorem C86_sound (sv : Service) (c : Sophos.Crypto Kw Seed ST DK) (g : ST × DK) (d : Diana.Crypto Kw Index) (evs : List (Ev Kw))
    (hfit : ∀ w, (Durable.inserted evs w).length < 2 ^ 32)
    (hs : Faults.SophosNoCollision c (fun w => (Durable.inserted evs w).length))
    (hd : Diana.NoCollision d (fun w => (Durable.inserted evs w).length)) (w : Kw) :
    (∃ r, evSearch sv (sophos c g) evs w = some r ∧ ∀ i ∈ r, i ∈ Durable.inserted evs w) ∧
    ∃ r, evSearch sv (diana d) evs w = some r ∧ ∀ i ∈ r, i ∈ Durable.inserted evs w := by
  have h1 := C57_sophos_sound c g (clip sv 0 evs) (by simpa only [clip_inserted] using hfit) (by simpa only [clip_inserted] using hs) w
  have h2 := C57_diana_sound d (clip sv 0 evs) (by simpa only [clip_inserted] using hfit) (by simpa only [clip_inserted] using hd) w
  rw [clip_inserted] at h1 h2
  rw [evSearch_clip, evSearch_clip]
  exact ⟨h1, h2⟩

/-- **C86 is violated by Sophos**, for every session: all updates of a bulk session may be lost after it was answered, or after the service was
stopped. -/
theorem C86_sophos_violated (c : Sophos.Crypto Kw Seed ST DK) (g : ST × DK) (session : List (Kw × Index)) (ev : Ev Kw)
    (hev : ev = .sessionEnd true ∨ ev = .restart true)
    (hfit : ∀ w, (Durable.inserted (session.map (fun e => Ev.insert e.1 e.2 true)) w).length < 2 ^ 32)
    (hnc : Faults.SophosNoCollision c (fun w => (Durable.inserted (session.map (fun e => Ev.insert e.1 e.2 true)) w).length)) (w : Kw) :
    evSearch .sophos (sophos c g) (session.map (fun e => .insert e.1 e.2 true) ++ [ev, .serverLoss session.length]) w = some [] := by
  have hins : ∀ w, Durable.inserted (session.map (fun e => Ev.insert e.1 e.2 true) ++ [ev, .serverLoss session.length]) w =
      Durable.inserted (session.map (fun e => Ev.insert e.1 e.2 true)) w := by
    intro w; rcases hev with rfl | rfl <;> simp [Durable.inserted]
  rw [evSearch_clip, C57_sophos_partial c g _ (clip_noClientLoss _ _ _ ?_) (by simpa only [clip_inserted, hins] using hfit)
    (by simpa only [clip_inserted, hins] using hnc), unsafe_all .sophos session ev ⟨true, hev⟩ (by rcases hev with rfl | rfl <;> rfl)]
  · rfl
  · intro k; rcases hev with rfl | rfl <;> simp

/-- **C86 is violated by Diana if a flush fails**: the session is answered with success (the failure is only logged), and all its updates may
be lost. -/
theorem C86_diana_flush_violated (c : Diana.Crypto Kw Index) (session : List (Kw × Index))
    (hfit : ∀ w, (Durable.inserted (session.map (fun e => Ev.insert e.1 e.2 true)) w).length < 2 ^ 32)
    (hnc : Diana.NoCollision c (fun w => (Durable.inserted (session.map (fun e => Ev.insert e.1 e.2 true)) w).length)) (w : Kw) :
    evSearch .diana (diana c) (session.map (fun e => .insert e.1 e.2 true) ++ [.sessionEnd false, .serverLoss session.length]) w =
      some [] := by
  have hins : ∀ w, Durable.inserted (session.map (fun e => Ev.insert e.1 e.2 true) ++ [.sessionEnd false, .serverLoss session.length]) w =
      Durable.inserted (session.map (fun e => Ev.insert e.1 e.2 true)) w := by
    intro w; simp [Durable.inserted]
  rw [evSearch_clip, C57_diana_partial c _ (clip_noClientLoss _ _ _ ?_) (by simpa only [clip_inserted, hins] using hfit)
    (by simpa only [clip_inserted, hins] using hnc), unsafe_all .diana session _ ⟨false, Or.inl rfl⟩ rfl]
  intro k; simp

/-- **C86**, Diana: an update that is sent alone may be lost though it was answered, for every keyword and document. -/
theorem C86_diana_alone_violated (c : Diana.Crypto Kw Index) (w : Kw) (i : Index)
    (hnc : Diana.NoCollision c (fun v => if v = w then 1 else 0)) :
    evSearch .diana (diana c) [.insert w i true] w = some [i] ∧
    evSearch .diana (diana c) [.insert w i true, .serverLoss 1] w = some [] := by
  have hB : ∀ v, (if v = w then 1 else 0) < 2 ^ 32 := fun v => by split <;> omega
  constructor
  · rw [evSearch_clip, C57_diana_partial c _ (clip_noClientLoss _ _ _ (by intro k; simp))]
    · simp [clip, Spec.stored, Spec.run, Spec.step]
    · intro v; rw [clip_inserted]; simp only [Durable.inserted, List.filterMap_cons, List.filterMap_nil]
      by_cases h : w = v <;> simp [h]
    · refine noCollision_mono hnc (fun v => ?_)
      rw [clip_inserted]; simp only [Durable.inserted, List.filterMap_cons, List.filterMap_nil]
      by_cases h : w = v <;> simp [h, eq_comm]
  · rw [evSearch_clip, C57_diana_partial c _ (clip_noClientLoss _ _ _ (by intro k; simp))]
    · simp [clip, Spec.stored, Spec.run, Spec.step, Spec.unstore]
    · intro v; rw [clip_inserted]; simp only [Durable.inserted, List.filterMap_cons, List.filterMap_nil]
      by_cases h : w = v <;> simp [h]
    · refine noCollision_mono hnc (fun v => ?_)
      rw [clip_inserted]; simp only [Durable.inserted, List.filterMap_cons, List.filterMap_nil]
      by_cases h : w = v <;> simp [h, eq_comm]

/-! ## The hypotheses can be met -/

/-- A session, an update alone, losses, and a restart -/
private def exEvs : List (Ev Bool) :=
  [.insert true 1 true, .insert false 2 true, .insert true 3 false, .insert true 4 true, .sessionEnd true, .insert true 5 true,
    .serverLoss 7, .insert true 6 true, .restart true, .insert true 7 true, .insert true 8 true, .serverLoss 1]

example : evSearch .diana (diana Diana.Toy.crypto) exEvs true = some [1, 4, 6, 7] := by
  rw [C86_diana_partial Diana.Toy.crypto exEvs (by simp [Durable.NoClientLoss, exEvs]) (by simp [Durable.NoFailure, exEvs])
      (by decide +kernel) (Diana.Toy.noCollision _ (by decide +kernel)) true]
  decide +kernel

example : ∃ r r', evSearch .diana (diana Diana.Toy.crypto) (exEvs.take 4) true = some r ∧
    evSearch .diana (diana Diana.Toy.crypto) (exEvs.take 4 ++ .sessionEnd true :: exEvs.drop 5) true = some (r ++ r') :=
  C86_diana_durable_partial Diana.Toy.crypto _ _ _ (Or.inl rfl) (by simp [Durable.NoClientLoss, exEvs])
    (by simp [Durable.NoFailure, exEvs]) (by decide +kernel) (Diana.Toy.noCollision _ (by decide +kernel)) true

example := C86_diana_session_partial Diana.Toy.crypto [.insert true 1 true] [.serverLoss 5] [(true, 2), (false, 3)]
  (by simp [Durable.NoClientLoss]) (by simp [Durable.NoFailure]) (by decide +kernel) (Diana.Toy.noCollision _ (by decide +kernel))
  true 2 (by simp)

example := C86_sound .diana Sophos.Toy.crypto (0, false) Diana.Toy.crypto (exEvs ++ [.clientLoss 2, .insert true 9 true])
  (by decide +kernel) (Faults.Toy.sophos_noCollision _ (by decide +kernel)) (Diana.Toy.noCollision _ (by decide +kernel)) true

example := C86_sophos_violated Sophos.Toy.crypto (0, false) [(true, 1), (false, 2), (true, 3)] _ (Or.inl rfl) (by decide +kernel)
  (Faults.Toy.sophos_noCollision _ (by decide +kernel)) true

example := C86_diana_flush_violated Diana.Toy.crypto [(true, 1), (false, 2), (true, 3)] (by decide +kernel)
  (Diana.Toy.noCollision _ (by decide +kernel)) true

example := C86_diana_alone_violated Diana.Toy.crypto true 1 (Diana.Toy.noCollision _ (by decide +kernel))

end Verif.Power
