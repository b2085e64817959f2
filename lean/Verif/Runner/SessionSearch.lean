import Verif.Runner.SessionGood
import Verif.Sophos.Props
import Verif.Live.Props

/-!
# Update sessions: searches
-/

namespace Verif.Runner.Sess

open Verif

variable {Kw : Type} {S : Scheme Kw}

/-! ## What a search finds, from what is stored -/

section Sophos

variable {Seed ST DK : Type} [DecidableEq Kw] (c : Sophos.Crypto Kw Seed ST DK) (g : ST × DK)

theorem cliRun_sophos (m : Map Kw UInt32) (H : List (Kw × Index)) :
    cliRun (sophos c g) m H = Sophos.clientRun c m H := by
  induction H generalizing m with
  | nil => rfl
  | cons e H ih =>
    obtain ⟨w, i⟩ := e
    exact congrArg (fun x => ((Sophos.insertionRequest c m w i).1 :: x.1, x.2)) (ih (Sophos.insertionRequest c m w i).2)

theorem expectedDelivered_documents (w : Kw) (H : List (Kw × Index)) (D : List Nat) :
    Sophos.Spec.expectedDelivered w H D = (Live.Spec.documents w H D).reverse := by
  unfold Sophos.Spec.expectedDelivered Live.Spec.documents Live.Spec.entries
  congr 1
  rw [List.filter_map, List.map_map, List.filter_filter]
  congr 1
  apply List.filter_congr
  intro e _
  simp [Bool.and_comm]

/-- Sophos: newest first -/
theorem find_sophos {s : State (sophos c g)} (hb : Base s) (w : Kw) (hfit : Sophos.Fits (hist s.trace))
    (hnc : Sophos.NoCollision c (hist s.trace)) :
    (sophos c g).find s.cli s.srv w = some (storedDocs w s.trace).reverse := by
  have h1 : s.cli = (Sophos.clientRun c Map.empty (hist s.trace)).2 := by
    rw [hb.cli]
    exact congrArg Prod.snd (cliRun_sophos c g _ _)
  have h2 : s.srv = Sophos.deliver c (hist s.trace) (stored s.trace) := by
    rw [hb.srv, upds]
    have := congrArg Prod.fst (cliRun_sophos c g Map.empty (hist s.trace))
    show List.foldl _ _ (List.filterMap (fun p => ((cliRun (sophos c g) Map.empty _).1)[p]?) _) = _
    rw [this]
    rfl
  show some (Sophos.search c s.srv (Sophos.searchRequest c g s.cli w)) = _
  rw [h1, h2, Sophos.C04_search_delivered c g _ _ hfit hnc w, expectedDelivered_documents]
  rfl

end Sophos

section Diana

variable [DecidableEq Kw] (c : Diana.Crypto Kw Index)

theorem cliRun_diana (m : Map Kw UInt32) (H : List (Kw × Index)) :
    cliRun (diana c) m H = Diana.clientRun c m H := by
  induction H generalizing m with
  | nil => rfl
  | cons e H ih =>
    obtain ⟨w, i⟩ := e
    exact congrArg (fun x => ((Diana.insertionRequest c m w i).1 :: x.1, x.2)) (ih (Diana.insertionRequest c m w i).2)

theorem diana_delivered (H : List (Kw × Index)) (D : List Nat) (w : Kw)
    (hfit : ∀ v, (Diana.Spec.docs v H).length < 2 ^ 32)
    (hnc : Diana.NoCollision c (fun v => (Diana.Spec.docs v H).length)) :
    (if (Diana.searchRequest c (Diana.clientRun c Map.empty H).2 w).addCount = 0 then some []
      else (Diana.search c (Live.dianaDeliver c H D)
        (Diana.searchRequest c (Diana.clientRun c Map.empty H).2 w) false).map (·.1)) =
    some (Live.Spec.documents w H D) := by
  obtain ⟨hcnt, hadd⟩ := Live.diana_request c H w (hfit w)
  have h3 := Diana.search_request c (Live.dianaDeliver c H D) _ w _ hcnt (hfit w) false
  have h4 := Live.lookups_slots c (Live.dianaDeliver c H D) w D H
    (fun k i hk => Live.dianaDeliver_lookup c _ _ hfit hnc k w i hk)
  have h5 : (Diana.searchLoop c false (Live.dianaDeliver c H D)
      (Diana.leavesOf c w (Diana.Spec.docs w H).length)).1 = Live.Spec.documents w H D := by
    rw [Diana.searchLoop_keep, ← Live.slotsOpt_docs, ← h4, List.filterMap_map, Diana.leavesOf,
      List.filterMap_map]
    rfl
  by_cases h0 : (Diana.searchRequest c (Diana.clientRun c Map.empty H).2 w).addCount = 0
  · rw [if_pos h0, ← h5]
    rw [Diana.search, if_pos h0] at h3
    rw [← Option.some.inj h3]
  · rw [if_neg h0, h3, Option.map_some, h5]

/-- Diana: oldest first -/
theorem find_diana {s : State (diana c)} (hb : Base s) (w : Kw)
    (hfit : ∀ v, (Diana.Spec.docs v (hist s.trace)).length < 2 ^ 32)
    (hnc : Diana.NoCollision c (fun v => (Diana.Spec.docs v (hist s.trace)).length)) :
    (diana c).find s.cli s.srv w = some (storedDocs w s.trace) := by
  have h1 : s.cli = (Diana.clientRun c Map.empty (hist s.trace)).2 := by
    rw [hb.cli]
    exact congrArg Prod.snd (cliRun_diana c _ _)
  have h2 : s.srv = Live.dianaDeliver c (hist s.trace) (stored s.trace) := by
    rw [hb.srv, upds]
    have := congrArg Prod.fst (cliRun_diana c Map.empty (hist s.trace))
    show List.foldl _ _ (List.filterMap (fun p => ((cliRun (diana c) Map.empty _).1)[p]?) _) = _
    rw [this]
    rfl
  rw [h1, h2]
  exact diana_delivered c _ _ w hfit hnc

end Diana

/-! ## Searches in a trace -/

/-- The result of a search is in no other step. -/
theorem tr_found {s s' : State S} {g : Bool} (h : Tr s g s') : ∃ u, s'.trace = s.trace ++ u ∧
    ((∀ e ∈ u, ∀ n w r, e ≠ Event.found n w r) ∨ ∃ n w, u = [.found n w (S.find s.cli s.srv w)]) := by
  cases h with
  | search => exact ⟨_, rfl, .inr ⟨_, _, rfl⟩⟩
  | request =>
    refine ⟨_, rfl, .inl ?_⟩
    intro e he n w r
    obtain ⟨x, -, rfl⟩ := List.mem_map.mp he
    simp
  | _ => first
    | exact ⟨[], (List.append_nil _).symm, .inl (by simp)⟩
    | exact ⟨_, rfl, .inl (by simp)⟩
    | exact ⟨_, List.append_assoc _ _ _, .inl (by simp)⟩

/-- A search in a trace -/
theorem found_state {s : State S} (acts : List (Act Kw)) (p q : List (Event Kw)) (n : Nat) (w : Kw)
    (r : Option (List Index)) (hs : s.trace = []) (h : (s.run acts).trace = p ++ .found n w r :: q) :
    ∃ as bs, acts = as ++ bs ∧ (s.run as).trace = p ∧ r = S.find (s.run as).cli (s.run as).srv w := by
  induction acts using List.reverseRecOn generalizing q with
  | nil => simp [State.run, hs] at h
  | append_singleton acts a ih =>
    have hrun : s.run (acts ++ [a]) = (s.run acts).step a := by simp [State.run]
    rw [hrun] at h
    have hcase : ∃ u, ((s.run acts).step a).trace = (s.run acts).trace ++ u ∧
        ((∀ e ∈ u, ∀ n w r, e ≠ Event.found n w r) ∨
          ∃ n w, u = [.found n w (S.find (s.run acts).cli (s.run acts).srv w)]) := by
      rcases step_tr (s.run acts) a with h0 | ⟨-, h0⟩
      · exact ⟨[], by rw [h0]; simp, .inl (by simp)⟩
      · exact tr_found h0
    obtain ⟨u, hu, hc⟩ := hcase
    rw [hu] at h
    rcases List.append_eq_append_iff.mp h with ⟨x, h1, h2⟩ | ⟨x, h1, h2⟩
    · -- the event is in `u`
      rcases hc with hc | ⟨m, v, rfl⟩
      · exact absurd rfl (hc (.found n w r) (by rw [h2]; simp) n w r)
      · cases x with
        | nil =>
          simp only [List.nil_append, List.cons.injEq, Event.found.injEq] at h2
          obtain ⟨⟨rfl, rfl, rfl⟩, -⟩ := h2
          exact ⟨acts, [a], rfl, by rw [h1]; simp, rfl⟩
        | cons y x => simp at h2
    · cases x with
      | nil =>
        simp only [List.nil_append, List.append_nil] at h1 h2
        rcases hc with hc | ⟨m, v, rfl⟩
        · exact absurd rfl (hc (.found n w r) (by rw [← h2]; simp) n w r)
        · simp only [List.cons.injEq, Event.found.injEq] at h2
          obtain ⟨⟨rfl, rfl, rfl⟩, -⟩ := h2
          exact ⟨acts, [a], rfl, h1, rfl⟩
      | cons y x =>
        simp only [List.cons_append, List.cons.injEq] at h2
        obtain ⟨rfl, -⟩ := h2
        obtain ⟨as, bs, rfl, h3, h4⟩ := ih x h1
        exact ⟨as, bs ++ [a], by simp, h3, h4⟩

end Verif.Runner.Sess
