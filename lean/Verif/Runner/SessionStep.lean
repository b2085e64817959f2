import Verif.Runner.SessionBase
import Mathlib.Data.List.Basic

/-!
# Update sessions: the steps preserve `Base`
-/

namespace Verif.Runner.Sess

open Verif

variable {Kw : Type} {S : Scheme Kw}

theorem requests_append (t u : List (Event Kw)) : requests (t ++ u) = requests t ++ requests u := by
  simp [requests]

theorem stored_append (t u : List (Event Kw)) : stored (t ++ u) = stored t ++ stored u := by
  simp [stored]

theorem requests_map (n : Nat) (l : List (Kw × Index)) :
    requests (l.map (fun x => Event.requested n x.1 x.2)) = l.map (fun x => (n, x)) := by
  induction l with
  | nil => rfl
  | cons x l ih =>
    have := requests_append [Event.requested n x.1 x.2] (l.map (fun x => Event.requested n x.1 x.2))
    simp only [List.singleton_append] at this
    rw [List.map_cons, this, ih]
    rfl

theorem stored_map (n : Nat) (l : List (Kw × Index)) :
    stored (l.map (fun x => Event.requested n x.1 x.2)) = [] := by
  induction l with
  | nil => rfl
  | cons x l ih =>
    have := stored_append [Event.requested n x.1 x.2] (l.map (fun x => Event.requested n x.1 x.2))
    simp only [List.singleton_append] at this
    rw [List.map_cons, this, ih]
    rfl

/-- The position of one call changes. -/
theorem set_fields {s : State S} {calls' : List (Call Kw × Pc S)} {n : Nat} {c : Call Kw} {pc pc' : Pc S}
    (hn : s.calls[n]? = some (c, pc)) (hc : calls' = s.calls.set n (c, pc'))
    (hm : ∀ m ∈ msgs pc', m ∈ msgs pc) (hp : pc'.pre = true → pc.pre = true)
    (hk : ∀ ms, pc' = .check ms → pc = .check ms) (ho : pc = .over → pc' = .over) :
    (∀ (j : Nat) d q', calls'[j]? = some (d, q') →
      (s.calls.length ≤ j ∧ q' = .begin) ∨ ∃ q, s.calls[j]? = some (d, q) ∧ (∀ m ∈ msgs q', m ∈ msgs q) ∧
        (q'.pre = true → q.pre = true) ∧ (∀ ms, q' = .check ms → q = .check ms)) ∧
    (∀ (j : Nat) (d : Call Kw), s.calls[j]? = some (d, .over) → calls'[j]? = some (d, .over)) ∧
    s.calls.length ≤ calls'.length := by
  subst hc
  refine ⟨fun j d q' hj => ?_, fun j d hj => ?_, by simp⟩
  · right
    rcases getElem?_set_some hn hj with ⟨rfl, he⟩ | ⟨-, h⟩
    · cases he
      exact ⟨pc, hn, hm, hp, hk⟩
    · exact ⟨q', h, fun _ h => h, fun h => h, fun _ h => h⟩
  · rw [List.getElem?_set]
    split
    · rename_i e
      subst e
      rw [hn] at hj
      cases hj
      have hl := (List.getElem?_eq_some_iff.mp hn).1
      simp [hl, ho rfl]
    · exact hj

theorem move_msgs {s : State S} {c : Call Kw} {pc pc' : Pc S} (h : Move s c pc pc') :
    (∀ m ∈ msgs pc', m ∈ msgs pc) ∧ (pc'.pre = true → pc.pre = true) ∧
      (∀ ms, pc' = .check ms → pc = .check ms) ∧ (pc = .over → pc' = .over) ∧
      (∀ p, cn p (msgs pc') ≤ cn p (msgs pc)) := by
  cases h <;> simp [msgs, Pc.pre, cn]

theorem ret_msgs {s : State S} {c : Call Kw} {pc : Pc S} {w : Option Nat} {u : Bool} {x : Option Nat}
    (h : Ret s c pc w u x) : msgs pc = [] := by
  cases h <;> rfl

theorem store_queue_mem {s : State S} {k : Nat} {z z' : Stream S} (hz : s.streams[k]? = some z)
    (hs : ∀ m ∈ z'.queue, m ∈ z.queue) : ∀ (j : Nat) y, (s.streams.set k z')[j]? = some y → ∀ m ∈ y.queue, InBag s m := by
  intro j y hj m hm
  rcases getElem?_set_some hz hj with ⟨rfl, rfl⟩ | ⟨-, h⟩
  · exact .inr ⟨j, z, hz, hs m hm⟩
  · exact .inr ⟨j, y, h, hm⟩

theorem cut_mem {s : State S} {k : Nat} :
    ∀ (j : Nat) y, (s.streams.modify k (fun z => { z with queue := [], broken := true }))[j]? = some y →
      ∀ m ∈ y.queue, InBag s m := by
  intro j y hj m hm
  obtain ⟨x, hx, rfl | rfl⟩ := getElem?_modify_some hj
  · exact .inr ⟨j, y, hx, hm⟩
  · simp at hm

theorem same_mem {s : State S} : ∀ (j : Nat) y, s.streams[j]? = some y → ∀ m ∈ y.queue, InBag s m :=
  fun j y hj _ hm => .inr ⟨j, y, hj, hm⟩

theorem cut_sum (l : List (Stream S)) (p k : Nat) :
    ((l.modify k (fun z => { z with queue := [], broken := true })).map (fun z => cn p z.queue)).sum ≤
      (l.map (fun z => cn p z.queue)).sum :=
  sum_modify_le _ l k _ (fun x => by simp [cn])

/-- Every step that makes no requests is quiet. -/
theorem tr_quiet {s s' : State S} {g : Bool} (hb : Base s) (h : Tr s g s') :
    (∃ st, Quiet s s' st) ∨ ∃ n c pc l pc', s.calls[n]? = some (c, pc) ∧ Asks c pc l pc' ∧
      s' = { s with calls := s.calls.set n (c, pc' (number (numReqs s.trace) (cliRun S s.cli l).1)),
                    cli := (cliRun S s.cli l).2,
                    trace := s.trace ++ l.map (fun x => Event.requested n x.1 x.2) } := by
  cases h with
  | call _ c =>
    refine .inl ⟨[], rfl, rfl, by simp, by simp [requests], by simp [stored], ?_, ?_, by simp, same_mem (s := s), ?_, ?_⟩
    · intro j d pc' hj
      rw [List.getElem?_append] at hj
      split at hj
      · exact .inr ⟨pc', hj, fun _ h => h, fun h => h, fun _ h => h⟩
      · rename_i hl
        left
        refine ⟨by omega, ?_⟩
        cases hx : j - s.calls.length with
        | zero => rw [hx] at hj; simp at hj; exact hj.2.symm
        | succ x => rw [hx] at hj; simp at hj
    · intro j d hj
      rw [List.getElem?_append_left (List.getElem?_eq_some_iff.mp hj).1]
      exact hj
    · intro p
      simp [occ, stored, msgs, cn]
    · intro n hn
      left
      simpa using hn
  | move _ n c pc pc' hn hm =>
    obtain ⟨h1, h2, h3, h4, h5⟩ := move_msgs hm
    obtain ⟨f1, f2, f3⟩ := set_fields hn rfl h1 h2 h3 h4
    refine .inl ⟨[], rfl, rfl, by simp, rfl, by simp, f1, f2, f3, same_mem (s := s), ?_, fun n hn => .inl hn⟩
    intro p
    have := sum_set (fun c : Call Kw × Pc S => cn p (msgs c.2)) (c, pc') hn
    have := h5 p
    simp only [occ] at *
    omega
  | ret _ n c pc w u x hn hr =>
    have h1 := ret_msgs hr
    obtain ⟨f1, f2, f3⟩ := set_fields (pc' := .over) hn rfl (by simp [msgs]) (by simp [Pc.pre]) (by simp) (by simp)
    refine .inl ⟨[], rfl, rfl, by simp, by simp [requests], by simp [stored], f1, f2, f3, same_mem (s := s), ?_, ?_⟩
    · intro p
      have := sum_set (fun c : Call Kw × Pc S => cn p (msgs c.2)) (c, .over) hn
      simp only [occ, stored_append, msgs] at *
      simp [stored, cn] at *
      omega
    · intro n hn
      left
      simpa using hn
  | throw _ n c pc hn ht =>
    obtain ⟨f1, f2, f3⟩ := set_fields (pc' := .over) hn rfl (by simp [msgs]) (by simp [Pc.pre]) (by simp) (by simp)
    have key : ∀ p, occ { s with calls := s.calls.set n (c, .over), trace := s.trace ++ [.threw n] } p +
        cn p (msgs pc) = occ s p := by
      intro p
      have := sum_set (fun c : Call Kw × Pc S => cn p (msgs c.2)) (c, .over) hn
      simp only [occ, stored_append, msgs] at *
      simp [stored, cn] at *
      omega
    refine .inl ⟨[], rfl, rfl, by simp, by simp [requests], by simp [stored], f1, f2, f3, same_mem (s := s), ?_, ?_⟩
    · intro p
      have := key p
      omega
    · intro n' hn'
      simp only [List.mem_append, List.mem_singleton, Event.threw.injEq] at hn'
      rcases hn' with h | rfl
      · exact .inl h
      · refine .inr ⟨c, pc, hn, ?_, ?_, ?_⟩
        · cases ht with
          | check => exact .inr ⟨_, rfl⟩
          | list => exact .inl rfl
        · have hl := (List.getElem?_eq_some_iff.mp hn).1
          simp [hl]
        · intro m hm
          have h1 := key m.1
          have h2 := cn_pos hm rfl
          have h3 := hb.occ m.1
          split at h3 <;> omega
  | request _ n c pc l pc' hn ha => exact .inr ⟨n, c, pc, l, pc', hn, ha, rfl⟩
  | rpc _ n c m hn =>
    obtain ⟨f1, f2, f3⟩ := set_fields (pc' := .over) hn rfl (by simp [msgs]) (by simp [Pc.pre]) (by simp) (by simp)
    refine .inl ⟨[m], rfl, rfl, ?_, by simp [requests], by simp [stored], f1, f2, f3, same_mem (s := s), ?_, ?_⟩
    · intro m' hm'
      rw [List.mem_singleton] at hm'
      subst hm'
      exact .inl ⟨n, c, _, hn, by simp [msgs]⟩
    · intro p
      have := sum_set (fun c : Call Kw × Pc S => cn p (msgs c.2)) (c, .over) hn
      simp only [occ, stored_append, msgs] at *
      simp [stored, cn, List.count_cons] at *
      omega
    · intro n hn
      left
      simpa using hn
  | rpcLost n c m hn =>
    obtain ⟨f1, f2, f3⟩ := set_fields (pc' := .over) hn rfl (by simp [msgs]) (by simp [Pc.pre]) (by simp) (by simp)
    refine .inl ⟨[], rfl, rfl, by simp, by simp [requests], by simp [stored], f1, f2, f3, same_mem (s := s), ?_, ?_⟩
    · intro p
      have := sum_set (fun c : Call Kw × Pc S => cn p (msgs c.2)) (c, .over) hn
      simp only [occ, stored_append, msgs] at *
      simp [stored, cn] at *
      omega
    · intro n hn
      left
      simpa using hn
  | lock _ n c ms hn hm =>
    obtain ⟨f1, f2, f3⟩ := set_fields (pc' := .write ms) hn rfl (by simp [msgs]) (by simp [Pc.pre]) (by simp) (by simp)
    refine .inl ⟨[], rfl, rfl, by simp, rfl, by simp, f1, f2, f3, same_mem (s := s), ?_, fun n hn => .inl hn⟩
    intro p
    have := sum_set (fun c : Call Kw × Pc S => cn p (msgs c.2)) (c, .write ms) hn
    simp only [occ, msgs] at *
    omega
  | write _ n c m ms k z hn hw hz hd hb =>
    obtain ⟨f1, f2, f3⟩ := set_fields (pc' := .write ms) hn rfl
      (by intro m' hm'; exact List.mem_cons_of_mem _ hm') (by simp [Pc.pre]) (by simp) (by simp)
    refine .inl ⟨[], rfl, rfl, by simp, rfl, by simp, f1, f2, f3, ?_, ?_, fun n hn => .inl hn⟩
    · intro j y hj m' hm'
      rcases getElem?_set_some hz hj with ⟨rfl, rfl⟩ | ⟨-, h⟩
      · simp only [List.mem_append, List.mem_singleton] at hm'
        rcases hm' with hm' | rfl
        · exact .inr ⟨j, z, hz, hm'⟩
        · exact .inl ⟨n, c, _, hn, by simp [msgs]⟩
      · exact .inr ⟨j, y, h, hm'⟩
    · intro p
      have h1 := sum_set (fun c : Call Kw × Pc S => cn p (msgs c.2)) (c, .write ms) hn
      have h2 := sum_set (fun z : Stream S => cn p z.queue) { z with queue := z.queue ++ [m] } hz
      simp only [occ, msgs, cn, List.countP_cons, List.countP_append, List.countP_nil, Nat.zero_add] at *
      omega
  | opened _ n c hn hw =>
    obtain ⟨f1, f2, f3⟩ := set_fields (pc' := .up) hn rfl (by simp [msgs]) (by simp [Pc.pre]) (by simp) (by simp)
    refine .inl ⟨[], rfl, rfl, by simp, rfl, by simp, f1, f2, f3, ?_, ?_, fun n hn => .inl hn⟩
    · intro j y hj m hm
      rw [List.getElem?_append] at hj
      split at hj
      · exact same_mem j y hj m hm
      · have : y = ⟨[], false, false⟩ := by simpa using List.mem_of_getElem? hj
        subst this
        simp at hm
    · intro p
      have := sum_set (fun c : Call Kw × Pc S => cn p (msgs c.2)) (c, .up) hn
      simp only [occ, msgs, List.map_append, List.sum_append] at *
      simp [cn] at *
      omega
  | reopened _ n c k hn hw =>
    obtain ⟨f1, f2, f3⟩ := set_fields (pc' := .up) hn rfl (by simp [msgs]) (by simp [Pc.pre]) (by simp) (by simp)
    refine .inl ⟨[], rfl, rfl, by simp, rfl, by simp, f1, f2, f3, ?_, ?_, fun n hn => .inl hn⟩
    · intro j y hj m hm
      rw [List.getElem?_append] at hj
      split at hj
      · exact cut_mem j y hj m hm
      · have : y = ⟨[], false, false⟩ := by simpa using List.mem_of_getElem? hj
        subst this
        simp at hm
    · intro p
      have h1 := sum_set (fun c : Call Kw × Pc S => cn p (msgs c.2)) (c, .up) hn
      have h2 := cut_sum s.streams p k
      simp only [occ, msgs, List.map_append, List.sum_append] at *
      simp [cn] at *
      omega
  | writesDone _ n c k z hn hw hz hd =>
    obtain ⟨f1, f2, f3⟩ := set_fields (pc' := .wait) hn rfl (by simp [msgs]) (by simp [Pc.pre]) (by simp) (by simp)
    refine .inl ⟨[], rfl, rfl, by simp, rfl, by simp, f1, f2, f3, ?_, ?_, fun n hn => .inl hn⟩
    · exact store_queue_mem hz (fun _ h => h)
    · intro p
      have h1 := sum_set (fun c : Call Kw × Pc S => cn p (msgs c.2)) (c, .wait) hn
      have h2 := sum_set (fun z : Stream S => cn p z.queue) { z with done := true } hz
      simp only [occ, msgs] at *
      omega
  | down _ n c hn =>
    obtain ⟨f1, f2, f3⟩ := set_fields (pc' := .reset) hn rfl (by simp [msgs]) (by simp [Pc.pre]) (by simp) (by simp)
    refine .inl ⟨[], rfl, rfl, by simp, rfl, by simp, f1, f2, f3, same_mem (s := s), ?_, fun n hn => .inl hn⟩
    intro p
    have h1 := sum_set (fun c : Call Kw × Pc S => cn p (msgs c.2)) (c, .reset) hn
    simp only [occ, msgs] at *
    omega
  | search _ n w hn =>
    obtain ⟨f1, f2, f3⟩ := set_fields (pc' := .over) hn rfl (by simp [msgs]) (by simp [Pc.pre]) (by simp) (by simp)
    refine .inl ⟨[], rfl, rfl, by simp, by simp [requests], by simp [stored], f1, f2, f3, same_mem (s := s), ?_, ?_⟩
    · intro p
      have := sum_set (fun c : Call Kw × Pc S => cn p (msgs c.2)) (.search w, .over) hn
      simp only [occ, stored_append, msgs] at *
      simp [stored, cn] at *
      omega
    · intro n hn
      left
      simpa using hn
  | recv _ k m ms d hz =>
    refine .inl ⟨[m], rfl, rfl, ?_, by simp [requests], by simp [stored], ?_, fun _ _ h => h, Nat.le_refl _, ?_, ?_, ?_⟩
    · intro m' hm'
      rw [List.mem_singleton] at hm'
      subst hm'
      exact .inr ⟨k, _, hz, by simp⟩
    · intro j d q hj
      exact .inr ⟨q, hj, fun _ h => h, fun h => h, fun _ h => h⟩
    · exact store_queue_mem hz (fun _ h => List.mem_cons_of_mem _ h)
    · intro p
      have h2 := sum_set (fun z : Stream S => cn p z.queue) ⟨ms, d, false⟩ hz
      simp only [occ, stored_append] at *
      simp [stored, cn, List.count_cons, List.countP_cons] at *
      omega
    · intro n hn
      left
      simpa using hn
  | «break» k =>
    refine .inl ⟨[], rfl, rfl, by simp, rfl, by simp, ?_, fun _ _ h => h, Nat.le_refl _, cut_mem, ?_,
      fun n hn => .inl hn⟩
    · intro j d q hj
      exact .inr ⟨q, hj, fun _ h => h, fun h => h, fun _ h => h⟩
    · intro p
      have h2 := cut_sum s.streams p k
      simp only [occ]
      omega
  | nullWrite | nullDone | nullWait | lateWrite | lateDone =>
    refine .inl ⟨[], rfl, rfl, by simp, rfl, by simp, ?_, fun _ _ h => h, Nat.le_refl _, same_mem (s := s),
      fun _ => Nat.le_refl _, fun n hn => .inl hn⟩
    intro j d q hj
    exact .inr ⟨q, hj, fun _ h => h, fun h => h, fun _ h => h⟩

theorem requestedBy_append {t : List (Event Kw)} {n : Nat} {l : List (Kw × Index)} {p j : Nat} :
    RequestedBy (t ++ l.map (fun x => Event.requested n x.1 x.2)) p j ↔
      RequestedBy t p j ∨ (j = n ∧ numReqs t ≤ p ∧ p < numReqs t + l.length) := by
  unfold RequestedBy
  rw [requests_append, requests_map, numReqs_eq]
  constructor
  · rintro ⟨w, i, h⟩
    rw [List.getElem?_append] at h
    split at h
    · exact .inl ⟨w, i, h⟩
    · rename_i hl
      right
      rw [List.getElem?_map] at h
      cases hx : l[p - (requests t).length]? with
      | none => simp [hx] at h
      | some x =>
        simp [hx] at h
        have := (List.getElem?_eq_some_iff.mp hx).1
        exact ⟨h.1.symm, by omega, by omega⟩
  · rintro (⟨w, i, h⟩ | ⟨rfl, h1, h2⟩)
    · refine ⟨w, i, ?_⟩
      rw [List.getElem?_append_left (List.getElem?_eq_some_iff.mp h).1]
      exact h
    · obtain ⟨x, hx⟩ : ∃ x, l[p - (requests t).length]? = some x :=
        ⟨_, List.getElem?_eq_getElem (by omega)⟩
      refine ⟨x.1, x.2, ?_⟩
      rw [List.getElem?_append_right h1, List.getElem?_map, hx]
      rfl

theorem requestedBy_lt {t : List (Event Kw)} {p n : Nat} (h : RequestedBy t p n) : p < numReqs t := by
  obtain ⟨w, i, h⟩ := h
  rw [numReqs_eq]
  exact (List.getElem?_eq_some_iff.mp h).1

theorem requestedBy_unique {t : List (Event Kw)} {p n m : Nat} (h : RequestedBy t p n)
    (h' : RequestedBy t p m) : n = m := by
  obtain ⟨w, i, h⟩ := h
  obtain ⟨w', i', h'⟩ := h'
  rw [h] at h'
  simp at h'
  exact h'.1

/-- The number of occurrences after new requests -/
theorem occ_request {s : State S} (hb : Base s) {n : Nat} {c : Call Kw} {pc : Pc S} {l : List (Kw × Index)}
    {pc' : List (Msg S) → Pc S} (hn : s.calls[n]? = some (c, pc)) (ha : Asks c pc l pc') (p : Nat) :
    occ { s with calls := s.calls.set n (c, pc' (number (numReqs s.trace) (cliRun S s.cli l).1)),
                 cli := (cliRun S s.cli l).2,
                 trace := s.trace ++ l.map (fun x => Event.requested n x.1 x.2) } p =
      if numReqs s.trace ≤ p ∧ p < numReqs s.trace + l.length then 1 else occ s p := by
  obtain ⟨h1, -, h3, -⟩ := asks_msgs ha (numReqs s.trace) s.cli
  have h := sum_set (fun c : Call Kw × Pc S => cn p (msgs c.2))
    (c, pc' (number (numReqs s.trace) (cliRun S s.cli l).1)) hn
  simp only [h1, h3, cn_number, cliRun_length] at h
  have h0 := hb.occ p
  simp only [occ, stored_append, stored_map, List.append_nil] at *
  simp only [cn, List.countP_nil, Nat.add_zero] at h
  split at h
  · rename_i hc
    rw [if_neg (by omega)] at h0
    rw [if_pos hc]
    simp only [cn] at *
    omega
  · rename_i hc
    rw [if_neg hc]
    simp only [cn] at *
    omega

theorem Base.request {s : State S} (hb : Base s) {n : Nat} {c : Call Kw} {pc : Pc S} {l : List (Kw × Index)}
    {pc' : List (Msg S) → Pc S} (hn : s.calls[n]? = some (c, pc)) (ha : Asks c pc l pc') :
    Base { s with calls := s.calls.set n (c, pc' (number (numReqs s.trace) (cliRun S s.cli l).1)),
                  cli := (cliRun S s.cli l).2,
                  trace := s.trace ++ l.map (fun x => Event.requested n x.1 x.2) } := by
  obtain ⟨a1, a2, a3, a4⟩ := asks_msgs ha (numReqs s.trace) s.cli
  have hh : hist (s.trace ++ l.map (fun x => Event.requested n x.1 x.2)) = hist s.trace ++ l := by
    simp [hist, requests_append, requests_map, Function.comp_def]
  have hu : upds S (s.trace ++ l.map (fun x => Event.requested n x.1 x.2)) =
      upds S s.trace ++ (cliRun S s.cli l).1 := by
    rw [upds, hh, cliRun_append, ← hb.cli]
    rfl
  have hlen : (upds S s.trace).length = numReqs s.trace := upds_length _
  have hst : stored (s.trace ++ l.map (fun x => Event.requested n x.1 x.2)) = stored s.trace := by
    rw [stored_append, stored_map, List.append_nil]
  have hmono : ∀ {p : Nat} {u}, (upds S s.trace)[p]? = some u →
      (upds S (s.trace ++ l.map (fun x => Event.requested n x.1 x.2)))[p]? = some u := by
    intro p u h
    rw [hu, List.getElem?_append_left (List.getElem?_eq_some_iff.mp h).1]
    exact h
  have hnum : numReqs (s.trace ++ l.map (fun x => Event.requested n x.1 x.2)) = numReqs s.trace + l.length := by
    rw [numReqs_eq, requests_append, requests_map, numReqs_eq]
    simp
  constructor
  · show (cliRun S s.cli l).2 = _
    rw [hh, cliRun_append, ← hb.cli]
  · show s.srv = _
    rw [hst, hb.srv]
    congr 1
    apply List.filterMap_congr
    intro p hp
    have h0 := hb.occ p
    have hpos : 0 < (stored s.trace).count p := List.count_pos_iff.mpr hp
    have : p < numReqs s.trace := by
      by_contra hc
      rw [if_neg hc] at h0
      simp only [Sess.occ] at h0
      omega
    rw [hu, List.getElem?_append_left (by omega)]
  · intro j d q hj m hm
    rcases getElem?_set_some hn hj with ⟨rfl, he⟩ | ⟨hne, h⟩
    · cases he
      rw [a1] at hm
      obtain ⟨m1, m2⟩ := number_mem hm
      have m3 := (List.getElem?_eq_some_iff.mp m2).1
      rw [cliRun_length] at m3
      constructor
      · rw [hu, List.getElem?_append_right (by omega), hlen]
        exact m2
      · exact requestedBy_append.mpr (.inr ⟨rfl, m1, by omega⟩)
    · obtain ⟨h1, h2⟩ := hb.msgC j d q h m hm
      exact ⟨hmono h1, requestedBy_append.mpr (.inl h2)⟩
  · intro k z hz m hm
    exact hmono (hb.msgS k z hz m hm)
  · intro p
    rw [occ_request hb hn ha, hnum]
    have h0 := hb.occ p
    split
    · rename_i hc
      rw [if_pos (by omega)]
      exact Nat.le_refl 1
    · rename_i hc
      split at h0 <;> split <;> omega
  · intro j d q hj hp p hr
    rcases getElem?_set_some hn hj with ⟨rfl, he⟩ | ⟨hne, h⟩
    · cases he
      rw [a4] at hp
      cases hp
    · rcases requestedBy_append.mp hr with hr | ⟨rfl, _⟩
      · exact hb.pre j d q h hp p hr
      · exact hne rfl
  · intro j hj p hr
    have hl : s.calls.length ≤ j := by simpa using hj
    rcases requestedBy_append.mp hr with hr | ⟨rfl, _⟩
    · exact hb.fresh j hl p hr
    · have := (List.getElem?_eq_some_iff.mp hn).1
      omega
  · intro j d ms hj p hr
    rcases getElem?_set_some hn hj with ⟨rfl, he⟩ | ⟨hne, h⟩
    · have hpc : pc' (number (numReqs s.trace) (cliRun S s.cli l).1) = .check ms := by
        rw [Prod.mk.injEq] at he; exact he.2.symm
      have hms : ms = number (numReqs s.trace) (cliRun S s.cli l).1 := by
        rw [← a1, hpc]; rfl
      rcases requestedBy_append.mp hr with hr | ⟨_, h1, h2⟩
      · exact absurd hr (hb.pre j c pc hn a2 p)
      · apply mem_of_cn
        rw [hms, cn_number, cliRun_length, if_pos ⟨h1, h2⟩]
        omega
    · rcases requestedBy_append.mp hr with hr | ⟨rfl, _⟩
      · exact hb.chk j d ms h p hr
      · exact absurd rfl hne
  · intro j hj
    have hj' : Event.threw j ∈ s.trace := by
      simpa using hj
    obtain ⟨⟨d, hd⟩, h0⟩ := hb.threw j hj'
    have hne : j ≠ n := by
      rintro rfl
      rw [hd] at hn
      cases hn
      cases ha
    refine ⟨⟨d, ?_⟩, fun p hr => ?_⟩
    · show (s.calls.set n _)[j]? = _
      rw [List.getElem?_set, if_neg (fun e => hne e.symm)]
      exact hd
    · rcases requestedBy_append.mp hr with hr | ⟨rfl, _⟩
      · rw [occ_request hb hn ha, if_neg (by have := requestedBy_lt hr; omega)]
        exact h0 p hr
      · exact absurd rfl hne

theorem Base.tr {s s' : State S} {g : Bool} (hb : Base s) (h : Tr s g s') : Base s' := by
  rcases tr_quiet hb h with ⟨st, q⟩ | ⟨n, c, pc, l, pc', hn, ha, rfl⟩
  · exact hb.quiet q
  · exact hb.request hn ha

theorem Base.step {s : State S} (hb : Base s) (a : Act Kw) : Base (s.step a) := by
  rcases step_tr s a with h | ⟨-, h⟩
  · rw [h]; exact hb
  · exact hb.tr h

theorem Base.run {s : State S} (hb : Base s) (acts : List (Act Kw)) : Base (s.run acts) := by
  unfold State.run
  induction acts generalizing s with
  | nil => exact hb
  | cons a acts ih => exact ih (hb.step a)

theorem tr_trace {s s' : State S} {g : Bool} (h : Tr s g s') : ∃ u, s'.trace = s.trace ++ u := by
  cases h <;> first | exact ⟨_, rfl⟩ | exact ⟨_, List.append_assoc ..⟩ | exact ⟨[], by simp⟩

end Verif.Runner.Sess
