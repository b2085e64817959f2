import Verif.Vec.BuffersInv

/-!
# The steps preserve the invariant of the memory of the asynchronous accesses
-/

namespace Verif.Vec.Buf

variable {c : Cfg} {s : State}

theorem count_rest {u : Call} (hn : u.bufs.Nodup) (b : Nat) :
    u.rest.count b = if b ∈ u.bufs ∧ b ∉ u.sub then 1 else 0 := by
  unfold Call.rest
  split
  next h => exact count_one (hn.sublist List.filter_sublist) (by simp [h])
  next h =>
    refine List.count_eq_zero_of_not_mem (fun hb => h ?_)
    simpa using hb

theorem count_set {α : Type} {l : List α} {f : α → Nat} {i : Nat} {a a' : α} (h : l[i]? = some a)
    (hf : f a' = f a) : (l.set i a').map f = l.map f := by
  induction l generalizing i with
  | nil => simp at h
  | cons x l ih =>
    cases i with
    | zero =>
      simp at h; subst h
      simp [hf]
    | succ i =>
      simp at h
      simp [ih h]

theorem nodup_eraseIdx {calls : List Call} (h : (calls.flatMap Call.bufs).Nodup) (j : Nat) :
    ((calls.eraseIdx j).flatMap Call.bufs).Nodup := by
  induction calls generalizing j with
  | nil => simp
  | cons a l ih =>
    simp only [List.flatMap_cons, List.nodup_append, List.mem_flatMap] at h
    cases j with
    | zero => exact h.2.1
    | succ j =>
      simp only [List.eraseIdx_cons_succ, List.flatMap_cons, List.nodup_append, List.mem_flatMap]
      refine ⟨h.1, ih h.2.1 j, ?_⟩
      rintro x hx y ⟨v, hv, hy⟩
      exact h.2.2 x hx y ⟨v, List.mem_of_mem_eraseIdx hv, hy⟩

theorem mem_set {α : Type} {l : List α} {i : Nat} {a x : α} (h : x ∈ l.set i a) : x = a ∨ x ∈ l := by
  rcases List.mem_or_eq_of_mem_set h with h | h
  · exact .inr h
  · exact .inl h

theorem Inv.submit (h : Inv c s) (j n : Nat) : Inv c (s.step c (.submit j n)) := by
  simp only [State.step]
  cases hj : s.calls[j]? with
  | none => exact h
  | some u =>
    simp only
    split
    · exact h
    next hcond =>
    have hu := List.mem_of_getElem? hj
    have hc := h.calls u hu
    generalize hm : max 1 n = m
    generalize hnow : u.todo.take m = now
    have hnd := List.nodup_append.1 (hc.nodup.sublist hc.subl)
    have hsub : ∀ b ∈ now, b ∈ u.todo := fun b hb => List.mem_of_mem_take (hnow ▸ hb)
    have hnn : now.Nodup := by
      rw [← hnow]
      exact hnd.2.1.sublist (List.take_sublist _ _)
    have hS : ∀ b, (now.map Event.submitted).countP (Event.isSub b) = now.count b := by
      intro b
      simp [List.countP_map, Function.comp_def, Event.isSub, List.count]
    have h0 : ∀ P : Event → Bool, (∀ b, P (.submitted b) = false) →
        (s.trace ++ now.map Event.submitted).countP P = s.trace.countP P := by
      intro P hP
      have : (now.map Event.submitted).countP P = 0 := by
        rw [List.countP_eq_zero]
        intro e he
        obtain ⟨b, -, rfl⟩ := List.mem_map.1 he
        simp [hP]
      rw [List.countP_append, this]
      rfl
    have hI : ∀ b, ((s.inflight ++ now.map (fun b => (⟨b, u.kind, none⟩ : Req))).map Req.buf).count b =
        inflN s b + now.count b := by
      intro b
      simp [inflN, List.count_append, Function.comp_def]
    refine h.mk' (l := now.map Event.submitted) rfl rfl (by simp) ?_ ?_ ?_ ?_ ?_ ?_ ?_ ?_ ?_ ?_ (by simp)
      (by simp) (by simp)
    · intro b
      simp [List.countP_map, Function.comp_def, Event.isNew]
    · intro b hb
      rw [hS] at hb
      exact ⟨u, hu, hsub b (List.count_pos_iff.1 hb)⟩
    · intro b
      rw [hS]
      exact List.nodup_iff_count.1 hnn b
    · intro b
      have h1 := h.part b
      have h2 := pend_set { u with todo := u.todo.drop m, sub := u.sub ++ now } hj b
      rw [count_rest hc.nodup, count_rest (by exact hc.nodup)] at h2
      dsimp only at h2 ⊢
      rw [h0 _ (by simp [Event.releases]), h0 _ (by simp [Event.forgets])]
      unfold inflN
      dsimp only
      rw [hI]
      by_cases hb : b ∈ now
      · have h3 := hc.todo (hsub b hb)
        rw [if_pos ⟨h3.1, h3.2.1⟩, if_neg (by simp [hb])] at h2
        rw [count_one hnn hb]
        omega
      · rw [List.count_eq_zero_of_not_mem hb]
        have : (b ∈ u.bufs ∧ b ∉ u.sub ++ now) ↔ (b ∈ u.bufs ∧ b ∉ u.sub) := by
          simp [hb]
        simp only [this] at h2
        omega
    · intro b
      dsimp only
      rw [List.countP_append, hS, h0 _ (by simp [Event.isCb]), h0 _ (by simp [Event.isWrote])]
      unfold inflN
      dsimp only
      rw [hI]
      have := h.subm b
      omega
    · intro hp b
      dsimp only
      rw [List.countP_append, hS, h0 _ (by simp [Event.isDel])]
      unfold inflN
      dsimp only
      rw [hI]
      have := h.reqs hp b
      omega
    · intro v hv
      rcases disj_set h.disj hj hv with rfl | ⟨hv, hd⟩
      · refine ⟨?_, hc.nodup, ?_, ?_, hc.single, ?_, ?_⟩
        · dsimp only
          rw [← hnow, List.append_assoc, List.take_append_drop]
          exact hc.subl
        · intro b hb
          exact List.mem_append_left _ (hc.alloc b hb)
        · intro b hb
          dsimp only
          rw [List.countP_append, hS, List.count_append, hc.subm b hb]
        · intro hp b hb
          dsimp only
          rw [h0 _ (by simp [Event.isNew])]
          exact hc.req hp b (List.mem_of_mem_drop hb)
        · intro hf
          simp at hf
          simp [hf] at hcond
      · refine (h.calls v hv).mono ?_ ?_
        · intro b hb
          rw [hS]
          refine List.count_eq_zero_of_not_mem (fun hbn => ?_)
          exact hd b (hc.todo (hsub b hbn)).1 hb
        · intro b _
          simp [List.countP_map, Function.comp_def, Event.isNew]
    · dsimp only
      rw [bufs_set (w := { u with todo := u.todo.drop m, sub := u.sub ++ now }) hj rfl]
      exact h.disj
    · intro r hr
      rcases List.mem_append.1 hr with hr | hr
      · exact h.kinds r hr
      · obtain ⟨b, hb, rfl⟩ := List.mem_map.1 hr
        exact hc.alloc b (hc.todo (hsub b hb)).1
    · refine h.safe.append ?_
      intro e he b
      obtain ⟨b', -, rfl⟩ := List.mem_map.1 he
      rfl

theorem Inv.error (h : Inv c s) (j : Nat) : Inv c (s.step c (.error j)) := by
  simp only [State.step]
  cases hj : s.calls[j]? with
  | none => exact h
  | some u =>
    cases hpg : c.page with
    | none => exact h
    | some p =>
    simp only
    split
    · exact h
    next hcond =>
    have hu := List.mem_of_getElem? hj
    have hc := h.calls u hu
    refine h.mk' (l := []) rfl (by simp) (by simp) (by simp) (by simp) (by simp) ?_ ?_ ?_ ?_ ?_ ?_ ?_ (by simp)
      (by simp) (by simp)
    · intro b
      have h2 := pend_set { u with todo := [], failed := true } hj b
      have h3 : Call.rest { u with todo := [], failed := true } = u.rest := rfl
      rw [h3] at h2
      have := h.part b
      dsimp only
      unfold inflN at this ⊢
      dsimp only
      omega
    · exact h.subm
    · exact h.reqs
    · intro v hv
      rcases disj_set h.disj hj hv with rfl | ⟨hv, hd⟩
      · refine ⟨?_, hc.nodup, hc.alloc, hc.subm, hc.single, by simp, ?_⟩
        · dsimp only
          rw [List.append_nil]
          exact (List.sublist_append_left _ _).trans hc.subl
        · intro _
          have h1 := hc.subl.length_le
          rw [List.length_append] at h1
          have h2 : u.todo ≠ [] := fun h => hcond (.inr h)
          have := List.length_pos_iff.2 h2
          dsimp only
          omega
      · exact h.calls v hv
    · dsimp only
      rw [bufs_set (w := { u with todo := [], failed := true }) hj rfl]
      exact h.disj
    · exact h.kinds
    · exact h.safe

theorem Inv.finish (h : Inv c s) (j : Nat) (hall : AllOrNothing (s.step c (.finish j)).trace) :
    Inv c (s.step c (.finish j)) := by
  simp only [State.step] at hall ⊢
  cases hj : s.calls[j]? with
  | none => exact h
  | some u =>
    have hu := List.mem_of_getElem? hj
    have hc := h.calls u hu
    rw [hj] at hall
    simp only at hall ⊢
    by_cases htodo : u.todo ≠ []
    · rw [if_pos htodo]
      exact h
    rw [if_neg htodo] at hall ⊢
    have htodo : u.todo = [] := by simpa using htodo
    have hsubl : u.sub.Sublist u.bufs := (List.sublist_append_left _ _).trans hc.subl
    split
    next hok =>
      have hsb : u.sub = u.bufs := hsubl.eq_of_length hok.2
      have hr : ∀ b, u.rest.count b = 0 := by
        intro b
        rw [count_rest hc.nodup, hsb, if_neg (fun h => h.2 h.1)]
      have h0 : ∀ P : Event → Bool, P (.returned u.kind u.bufs) = false →
          (s.trace ++ [Event.returned u.kind u.bufs]).countP P = s.trace.countP P := by
        intro P hP
        simp [List.countP_append, hP]
      refine h.mk' (l := [.returned u.kind u.bufs]) rfl rfl (by simp) (by simp [Event.isNew])
        (by simp [Event.isSub]) (by simp [Event.isSub]) ?_ ?_ ?_ ?_ ?_ h.kinds ?_ (by simp) ?_ (by simp)
      · intro b
        dsimp only
        rw [h0 _ rfl, h0 _ rfl]
        have h1 := h.part b
        have h2 := pend_eraseIdx hj b
        rw [hr] at h2
        unfold inflN at h1 ⊢
        dsimp only
        omega
      · intro b
        dsimp only
        rw [h0 _ rfl, h0 _ rfl, h0 _ rfl]
        exact h.subm b
      · intro hp b
        dsimp only
        rw [h0 _ rfl, h0 _ rfl]
        exact h.reqs hp b
      · intro v hv
        obtain ⟨hv, -⟩ := disj_eraseIdx h.disj hj hv
        exact (h.calls v hv).mono (by simp [Event.isSub]) (by simp [Event.isNew])
      · exact nodup_eraseIdx h.disj j
      · exact h.safe.append (by simp [Event.uses])
      · intro k bs hb b hbb
        simp at hb
        obtain ⟨rfl, rfl⟩ := hb
        dsimp only
        rw [h0 _ rfl]
        exact ⟨hc.alloc b hbb, by rw [hc.subm b hbb, hsb, count_one hc.nodup hbb]⟩
    next hfail =>
      rw [if_neg hfail] at hall
      generalize hfr : (if u.kind = Kind.push then [] else u.bufs.map Event.free) = frees at hall
      have hlt : u.sub.length < u.bufs.length := by
        have h1 := hsubl.length_le
        cases hf : u.failed with
        | true => exact hc.fail hf
        | false =>
          have : u.sub.length ≠ u.bufs.length := fun h => hfail ⟨hf, h⟩
          omega
      have hfrm : ∀ e ∈ frees, ∃ b, e = .free b := by
        intro e he
        rw [← hfr] at he
        split at he
        · simp at he
        · obtain ⟨b, -, rfl⟩ := List.mem_map.1 he
          exact ⟨b, rfl⟩
      have hno : ∀ b ∈ u.bufs, b ∉ u.sub := by
        intro b hb hbs
        by_cases hk : u.kind = .gets
        · have := hall b false u.bufs (by simp [hk]) hb
          apply this
          dsimp only
          rw [List.append_assoc]
          refine List.mem_append_left _ ?_
          rw [mem_of_isSub, hc.subm b hb]
          exact List.count_pos_iff.2 hbs
        · have h1 := hc.single hk
          have : u.sub.length = 0 := by omega
          rw [List.length_eq_zero_iff.1 this] at hbs
          simp at hbs
      have hrest : ∀ b, u.rest.count b = u.bufs.count b := by
        intro b
        rw [count_rest hc.nodup]
        split
        next h => rw [count_one hc.nodup h.1]
        next h =>
          rw [List.count_eq_zero_of_not_mem]
          exact fun hb => h ⟨hb, hno b hb⟩
      have hrel0 : ∀ b ∈ u.bufs, s.trace.countP (Event.releases b) = 0 := by
        intro b hb
        have h1 := h.part b
        have h2 := rest_le_pend hu b
        rw [hrest, count_one hc.nodup hb] at h2
        split at h1 <;> omega
      have h0 : ∀ P : Event → Bool, P (.threw u.kind false u.bufs) = false → (∀ b, P (.free b) = false) →
          (s.trace ++ frees ++ [Event.threw u.kind false u.bufs]).countP P = s.trace.countP P := by
        intro P hP hP'
        have : frees.countP P = 0 := by
          rw [List.countP_eq_zero]
          intro e he
          obtain ⟨b, rfl⟩ := hfrm e he
          simp [hP']
        rw [List.countP_append, List.countP_append, this]
        simp [hP]
      have hgain : ∀ b, (s.trace ++ frees ++ [Event.threw u.kind false u.bufs]).countP (Event.releases b) +
          (s.trace ++ frees ++ [Event.threw u.kind false u.bufs]).countP (Event.forgets b) =
          s.trace.countP (Event.releases b) + s.trace.countP (Event.forgets b) + u.bufs.count b := by
        intro b
        rw [← hfr]
        split
        next hk =>
          rw [hk]
          by_cases hb : b ∈ u.bufs
          · simp [List.countP_append, Event.releases, Event.forgets, hb, count_one hc.nodup hb]
            omega
          · simp [List.countP_append, Event.releases, Event.forgets, hb, List.count_eq_zero_of_not_mem hb]
        next hk =>
          have hk' : (u.kind == Kind.push) = false := by simp [hk]
          have h2 : (u.bufs.map Event.free).countP (Event.forgets b) = 0 := by
            simp [List.countP_map, Function.comp_def, Event.forgets]
          rw [List.countP_append, List.countP_append, List.countP_append, List.countP_append,
            releases_frees, h2]
          simp [Event.releases, Event.forgets, hk']
          omega
      refine h.mk' (l := frees ++ [.threw u.kind false u.bufs]) rfl (by simp) ?_ ?_ ?_ ?_ ?_ ?_ ?_ ?_ ?_
        h.kinds ?_ ?_ ?_ ?_
      · intro b k hb
        simp at hb
        obtain ⟨_, hb⟩ := hfrm _ hb
        cases hb
      · intro b
        have := h0 (Event.isNew b) rfl (fun _ => rfl)
        rw [List.append_assoc, List.countP_append] at this
        omega
      · intro b hb
        have := h0 (Event.isSub b) rfl (fun _ => rfl)
        rw [List.append_assoc, List.countP_append] at this
        omega
      · intro b
        have := h0 (Event.isSub b) rfl (fun _ => rfl)
        rw [List.append_assoc, List.countP_append] at this
        omega
      · intro b
        dsimp only
        have h1 := h.part b
        have h2 := pend_eraseIdx hj b
        have h3 := hgain b
        rw [hrest] at h2
        unfold inflN at h1 ⊢
        dsimp only
        omega
      · intro b
        dsimp only
        rw [h0 _ rfl (fun _ => rfl), h0 _ rfl (fun _ => rfl), h0 _ rfl (fun _ => rfl)]
        exact h.subm b
      · intro hp b
        dsimp only
        rw [h0 _ rfl (fun _ => rfl), h0 _ rfl (fun _ => rfl)]
        exact h.reqs hp b
      · intro v hv
        obtain ⟨hv, -⟩ := disj_eraseIdx h.disj hj hv
        dsimp only
        rw [List.append_assoc]
        refine (h.calls v hv).mono ?_ ?_
        · intro b _
          have := h0 (Event.isSub b) rfl (fun _ => rfl)
          rw [List.append_assoc, List.countP_append] at this
          omega
        · intro b _
          have := h0 (Event.isNew b) rfl (fun _ => rfl)
          rw [List.append_assoc, List.countP_append] at this
          omega
      · exact nodup_eraseIdx h.disj j
      · refine Safe.append ?_ (by simp [Event.uses])
        rw [← hfr]
        split
        · simpa using h.safe
        · exact h.safe.frees hc.nodup (fun b hb => ⟨⟨_, hc.alloc b hb⟩, hrel0 b hb⟩)
      · intro b hb
        simp at hb
        obtain ⟨_, hb⟩ := hfrm _ hb
        cases hb
      · intro k bs hb
        simp at hb
        obtain ⟨_, hb⟩ := hfrm _ hb
        cases hb
      · intro k e bs hb b hbb
        rcases List.mem_append.1 hb with hb | hb
        · obtain ⟨_, hb⟩ := hfrm _ hb
          cases hb
        · simp at hb
          obtain ⟨rfl, rfl, rfl⟩ := hb
          dsimp only
          rw [h0 _ rfl (fun _ => rfl), hgain, count_one hc.nodup hbb, hc.subm b hbb]
          exact ⟨List.count_eq_zero_of_not_mem (hno b hbb), by omega, hc.alloc b hbb⟩

theorem Inv.infl (h : Inv c s) {r : Req} (hr : r ∈ s.inflight) :
    Allocated s.trace r.buf ∧ s.trace.countP (Event.releases r.buf) = 0 := by
  refine ⟨⟨_, h.kinds r hr⟩, ?_⟩
  have h1 := h.part r.buf
  have h2 : 0 < inflN s r.buf := List.count_pos_iff.2 (List.mem_map_of_mem hr)
  split at h1 <;> omega

theorem Inv.io (h : Inv c s) (i : Nat) (res : Int) : Inv c (s.step c (.io i res)) := by
  simp only [State.step]
  split
  next b k hi =>
    have hr := List.mem_of_getElem? hi
    have hI : ∀ b', ((s.inflight.set i ⟨b, k, some res⟩).map Req.buf).count b' = inflN s b' := by
      intro b'
      rw [count_set (f := Req.buf) (a' := ⟨b, k, some res⟩) hi rfl]
      rfl
    have h0 : ∀ P : Event → Bool, P (.io b) = false →
        (s.trace ++ [Event.io b]).countP P = s.trace.countP P := by
      intro P hP
      simp [List.countP_append, hP]
    refine h.mk' (l := [.io b]) rfl rfl (by simp) (by simp [Event.isNew])
      (by simp [Event.isSub]) (by simp [Event.isSub]) ?_ ?_ ?_ ?_ h.disj ?_ ?_ (by simp) (by simp) (by simp)
    · intro b'
      unfold inflN
      dsimp only
      rw [h0 _ rfl, h0 _ rfl, hI]
      exact h.part b'
    · intro b'
      unfold inflN
      dsimp only
      rw [h0 _ rfl, h0 _ rfl, h0 _ rfl, hI]
      exact h.subm b'
    · intro hp b'
      unfold inflN
      dsimp only
      rw [h0 _ rfl, h0 _ rfl, hI]
      exact h.reqs hp b'
    · intro v hv
      exact (h.calls v hv).mono (by simp [Event.isSub]) (by simp [Event.isNew])
    · intro r' hr'
      rcases mem_set hr' with rfl | hr'
      · exact h.kinds ⟨b, k, none⟩ hr
      · exact h.kinds _ hr'
    · refine h.safe.snoc ?_
      intro b' hb'
      have : b = b' := by simpa [Event.uses] using hb'
      subst this
      exact h.infl hr
  · exact h

theorem Inv.drop (h : Inv c s) (i : Nat) : Inv c (s.step c (.drop i)) := by
  simp only [State.step]
  split
  next b hi =>
    have hr := List.mem_of_getElem? hi
    have hO := fun b' => count_eraseIdx (f := fun x => x) hi b'
    simp only [List.map_id'] at hO
    have h0 : ∀ P : Event → Bool, P (.delete b) = false →
        (s.trace ++ [Event.delete b]).countP P = s.trace.countP P := by
      intro P hP
      simp [List.countP_append, hP]
    have hrel : ∀ b', (s.trace ++ [Event.delete b]).countP (Event.releases b') =
        s.trace.countP (Event.releases b') + if b = b' then 1 else 0 := by
      intro b'
      by_cases hb : b = b' <;> simp [List.countP_append, Event.releases, hb]
    have hpos : 0 < s.owned.count b := List.count_pos_iff.2 hr
    have hlt : b < s.next := by
      have := h.part b
      split at this
      · assumption
      · omega
    refine h.mk' (l := [.delete b]) rfl rfl (by simp) (by simp [Event.isNew])
      (by simp [Event.isSub]) (by simp [Event.isSub]) ?_ ?_ ?_ ?_ h.disj h.kinds ?_ (by simp) (by simp) (by simp)
    · intro b'
      unfold inflN
      dsimp only
      rw [hrel, h0 _ rfl]
      have h1 := h.part b'
      have h2 := hO b'
      unfold inflN at h1
      omega
    · intro b'
      dsimp only
      rw [h0 _ rfl, h0 _ rfl, h0 _ rfl]
      exact h.subm b'
    · intro hp b'
      dsimp only
      rw [h0 _ rfl, h0 _ rfl]
      exact h.reqs hp b'
    · intro v hv
      exact (h.calls v hv).mono (by simp [Event.isSub]) (by simp [Event.isNew])
    · refine h.safe.snoc ?_
      intro b' hb'
      have : b = b' := by simpa [Event.uses] using hb'
      subst this
      have h1 := h.part b
      rw [if_pos hlt] at h1
      exact ⟨h.all b hlt, by unfold Buf.releases; omega⟩
  · exact h

theorem Inv.notify (h : Inv c s) (i : Nat) : Inv c (s.step c (.notify i)) := by
  simp only [State.step]
  split
  next b k res hi =>
    have hr := List.mem_of_getElem? hi
    have hI := fun b' => count_eraseIdx (f := Req.buf) hi b'
    have hE : ∀ r' ∈ s.inflight.eraseIdx i, r' ∈ s.inflight := fun r' => List.mem_of_mem_eraseIdx
    dsimp only at hI
    generalize (res == (c.sz : Int)) = full
    generalize hcb : inner b k full = cb
    unfold inner at hcb
    generalize hdl : (if c.page.isSome = true then [Event.delReq b] else []) = dl
    have hka := h.kinds _ hr
    have hinf := h.infl hr
    dsimp only at hka hinf
    have hdl0 : ∀ P : Event → Bool, P (.delReq b) = false → dl.countP P = 0 := by
      intro P hP
      rw [← hdl]
      split <;> simp [hP]
    have hdl1 : c.page.isSome = true → ∀ b', dl.countP (Event.isDel b') = if b = b' then 1 else 0 := by
      intro hp b'
      rw [← hdl, if_pos hp]
      by_cases hb : b = b' <;> simp [Event.isDel, hb]
    have hcb0 : ∀ P : Event → Bool, P (.callback b k full) = false → P (.free b) = false →
        P (.wrote b) = false → cb.countP P = 0 := by
      intro P h1 h2 h3
      rw [← hcb]
      cases k <;> cases full <;> simp [h1, h2, h3]
    -- what the callback does to the counts
    have hcbp : ∀ b', cb.countP (Event.releases b') + cb.countP (Event.forgets b') +
        (if k ≠ .push ∧ full = true then s.owned ++ [b] else s.owned).count b' =
        s.owned.count b' + if b = b' then 1 else 0 := by
      intro b'
      rw [← hcb]
      by_cases hb : b = b' <;> cases k <;> cases full <;>
        simp [Event.releases, Event.forgets, hb, List.count_append] <;> omega
    have hcbs : ∀ b', cb.countP (Event.isCb b') + cb.countP (Event.isWrote b') =
        if b = b' then 1 else 0 := by
      intro b'
      rw [← hcb]
      by_cases hb : b = b' <;> cases k <;> cases full <;> simp [Event.isCb, Event.isWrote, hb]
    have hcbw : ∀ b', Event.wrote b' ∈ cb → b' = b ∧ k = .push := by
      intro b'
      rw [← hcb]
      cases k <;> cases full <;> simp
    have hcbn : ∀ e ∈ cb, (∀ b' k', e ≠ .alloc b' k') ∧ (∀ k' bs, e ≠ .returned k' bs) ∧
        (∀ k' x bs, e ≠ .threw k' x bs) := by
      intro e
      rw [← hcb]
      cases k <;> cases full <;> simp <;> (try rintro (rfl | rfl)) <;> (try rintro rfl) <;> simp
    have hdln : ∀ e ∈ dl, e = .delReq b := by
      intro e
      rw [← hdl]
      split <;> simp
    have hsafe : Safe (s.trace ++ cb) := by
      rw [← hcb]
      cases k with
      | gets =>
        refine h.safe.snoc ?_
        intro b' hb'
        have : b = b' := by simp [Event.uses] at hb'; exact hb'.2
        subst this
        exact hinf
      | get =>
        cases full with
        | true =>
          refine h.safe.snoc ?_
          intro b' hb'
          have : b = b' := by simpa [Event.uses] using hb'
          subst this
          exact hinf
        | false =>
          have : s.trace ++ [Event.free b, .callback b .get false] =
            (s.trace ++ [.free b]) ++ [.callback b .get false] := by simp
          simp only [Bool.false_eq_true, if_false]
          rw [this]
          refine Safe.append (h.safe.snoc ?_) (by simp [Event.uses])
          intro b' hb'
          have : b = b' := by simpa [Event.uses] using hb'
          subst this
          exact hinf
      | push =>
        have : s.trace ++ [Event.free b, .wrote b] = (s.trace ++ [.free b]) ++ [.wrote b] := by simp
        simp only
        rw [this]
        refine Safe.append (h.safe.snoc ?_) (by simp [Event.uses])
        intro b' hb'
        have : b = b' := by simpa [Event.uses] using hb'
        subst this
        exact hinf
    refine h.mk' (l := cb ++ dl) rfl (by simp) ?_ ?_ ?_ ?_ ?_ ?_ ?_ ?_ h.disj ?_ ?_ ?_ ?_ ?_
    · intro b' k' hb
      rcases List.mem_append.1 hb with hb | hb
      · exact (hcbn _ hb).1 _ _ rfl
      · cases hdln _ hb
    · intro b'
      rw [List.countP_append, hcb0 _ rfl rfl rfl, hdl0 _ rfl]
    · intro b' hb
      rw [List.countP_append, hcb0 _ rfl rfl rfl, hdl0 _ rfl] at hb
      omega
    · intro b'
      rw [List.countP_append, hcb0 _ rfl rfl rfl, hdl0 _ rfl]
      omega
    · intro b'
      unfold inflN
      dsimp only
      rw [List.countP_append, List.countP_append, List.countP_append, List.countP_append, hdl0 _ rfl,
        hdl0 _ rfl]
      have h1 := h.part b'
      have h2 := hI b'
      have h3 := hcbp b'
      unfold inflN at h1
      omega
    · intro b'
      unfold inflN
      dsimp only
      rw [List.countP_append, List.countP_append, List.countP_append, List.countP_append,
        List.countP_append, List.countP_append, hdl0 _ rfl, hdl0 _ rfl, hdl0 _ rfl,
        hcb0 (Event.isSub b') rfl rfl rfl]
      have h1 := h.subm b'
      have h2 := hI b'
      have h3 := hcbs b'
      unfold inflN at h1
      omega
    · intro hp b'
      unfold inflN
      dsimp only
      rw [List.countP_append, List.countP_append, List.countP_append, List.countP_append, hdl0 _ rfl,
        hcb0 (Event.isSub b') rfl rfl rfl, hcb0 (Event.isDel b') rfl rfl rfl,
        hdl1 hp]
      have h1 := h.reqs hp b'
      have h2 := hI b'
      unfold inflN at h1
      omega
    · intro v hv
      dsimp only
      rw [List.append_assoc]
      refine (h.calls v hv).mono ?_ ?_
      · intro b' _
        rw [List.countP_append, hcb0 _ rfl rfl rfl, hdl0 _ rfl]
      · intro b' _
        rw [List.countP_append, hcb0 _ rfl rfl rfl, hdl0 _ rfl]
    · intro r' hr'
      exact h.kinds r' (hE r' hr')
    · refine hsafe.append ?_
      intro e he b'
      rw [hdln e he]
      rfl
    · intro b' hb
      rcases List.mem_append.1 hb with hb | hb
      · obtain ⟨rfl, rfl⟩ := hcbw b' hb
        exact hka
      · cases hdln _ hb
    · intro k' bs hb
      rcases List.mem_append.1 hb with hb | hb
      · exact absurd rfl ((hcbn _ hb).2.1 _ _)
      · cases hdln _ hb
    · intro k' x bs hb
      rcases List.mem_append.1 hb with hb | hb
      · exact absurd rfl ((hcbn _ hb).2.2 _ _ _)
      · cases hdln _ hb
  · exact h

theorem Inv.early (h : Inv c s) (k : Kind) :
    Inv c { s with trace := s.trace ++ [.threw k true []] } := by
  have h0 : ∀ P : Event → Bool, P (.threw k true []) = false →
      (s.trace ++ [Event.threw k true []]).countP P = s.trace.countP P := by
    intro P hP
    simp [List.countP_append, hP]
  have h1 : ∀ b, (s.trace ++ [Event.threw k true []]).countP (Event.forgets b) =
      s.trace.countP (Event.forgets b) := fun b => h0 _ (by simp [Event.forgets])
  refine h.mk' (l := [.threw k true []]) rfl rfl (by simp) (by simp [Event.isNew])
    (by simp [Event.isSub]) (by simp [Event.isSub]) ?_ ?_ ?_ ?_ h.disj h.kinds ?_ (by simp) (by simp) ?_
  · intro b
    dsimp only
    rw [h0 _ rfl, h1]
    exact h.part b
  · intro b
    dsimp only
    rw [h0 _ rfl, h0 _ rfl, h0 _ rfl]
    exact h.subm b
  · intro hp b
    dsimp only
    rw [h0 _ rfl, h0 _ rfl]
    exact h.reqs hp b
  · intro v hv
    exact (h.calls v hv).mono (by simp [Event.isSub]) (by simp [Event.isNew])
  · exact h.safe.append (by simp [Event.uses])
  · intro k' e bs hb b hbb
    simp at hb
    obtain ⟨-, -, rfl⟩ := hb
    simp at hbb

/-- The other fields do not matter. -/
theorem Inv.congr (h : Inv c s) (size : Nat) (committed stop : Bool) :
    Inv c { s with size := size, committed := committed, stop := stop } :=
  ⟨h.part, h.subm, h.once, h.reqs, h.calls, h.disj, h.kinds, h.bound, h.all, h.uniq, h.safe, h.newReq, h.fresh,
    h.wrote, h.returned, h.threw⟩

theorem Inv.step (h : Inv c s) (a : Act)
    (hall : ∀ j, a = .finish j → AllOrNothing (s.step c (.finish j)).trace) : Inv c (s.step c a) := by
  cases a with
  | get i mem =>
    simp only [State.step]
    split
    · exact h.early .get
    · exact h.start .get _ (by simp)
  | gets rs =>
    simp only [State.step]
    split
    · exact h.early .gets
    · exact h.start .gets _ (by simp)
  | push mem =>
    simp only [State.step]
    split
    · exact h.early .push
    · exact (h.start .push [(s.size, mem)] (by simp)).congr _ _ _
  | submit j n => exact h.submit j n
  | error j => exact h.error j
  | finish j => exact h.finish j (hall j rfl)
  | io i res => exact h.io i res
  | notify i => exact h.notify i
  | drop i => exact h.drop i
  | wait => exact h.congr _ _ _
  | renew cm =>
    simp only [State.step]
    split
    · exact h.congr _ _ _
    · exact h

theorem AllOrNothing.prefix {t l : List Event} (h : AllOrNothing (t ++ l)) : AllOrNothing t :=
  fun b e bs h1 h2 h3 => h b e bs (List.mem_append_left _ h1) h2 (List.mem_append_left _ h3)

theorem Inv.allOrNothing (h : Inv c s) : AllOrNothing s.trace := by
  intro b e bs hb hbb hs
  have := (h.threw _ _ _ hb b hbb).1
  have := mem_of_isSub.1 hs
  omega

/-- The trace only grows. -/
theorem step_trace (c : Cfg) (s : State) (a : Act) : ∃ l, (s.step c a).trace = s.trace ++ l := by
  have hst : ∀ k p, ∃ l, (s.start c k p).trace = s.trace ++ l := by
    intro k p
    unfold State.start
    split
    · exact ⟨_, List.append_assoc ..⟩
    · exact ⟨_, List.append_assoc ..⟩
  have triv : ∃ l, s.trace = s.trace ++ l := ⟨[], by simp⟩
  cases a with
  | get i mem =>
    simp only [State.step]
    split
    · exact ⟨_, rfl⟩
    · exact hst _ _
  | gets rs =>
    simp only [State.step]
    split
    · exact ⟨_, rfl⟩
    · exact hst _ _
  | push mem =>
    simp only [State.step]
    split
    · exact ⟨_, rfl⟩
    · exact hst _ _
  | submit j n =>
    simp only [State.step]
    cases s.calls[j]? with
    | none => exact triv
    | some u =>
      simp only
      split
      · exact triv
      · exact ⟨_, rfl⟩
  | error j =>
    simp only [State.step]
    cases s.calls[j]? with
    | none => exact triv
    | some u =>
      cases c.page with
      | none => exact triv
      | some p =>
        simp only
        split <;> exact triv
  | finish j =>
    simp only [State.step]
    cases s.calls[j]? with
    | none => exact triv
    | some u =>
      simp only
      split
      · exact triv
      · split
        · exact ⟨_, rfl⟩
        · exact ⟨_, List.append_assoc ..⟩
  | io i res =>
    simp only [State.step]
    split
    · exact ⟨_, rfl⟩
    · exact triv
  | notify i =>
    simp only [State.step]
    split
    · exact ⟨_, List.append_assoc ..⟩
    · exact triv
  | drop i =>
    simp only [State.step]
    split
    · exact ⟨_, rfl⟩
    · exact triv
  | wait => exact triv
  | renew cm =>
    simp only [State.step]
    split <;> exact triv

theorem run_trace (c : Cfg) (s : State) (acts : List Act) : ∃ l, (s.run c acts).trace = s.trace ++ l := by
  induction acts generalizing s with
  | nil => exact ⟨[], by simp [State.run]⟩
  | cons a acts ih =>
    obtain ⟨l1, h1⟩ := step_trace c s a
    obtain ⟨l2, h2⟩ := ih (s.step c a)
    refine ⟨l1 ++ l2, ?_⟩
    have : s.run c (a :: acts) = (s.step c a).run c acts := rfl
    rw [this, h2, h1, List.append_assoc]

theorem Inv.run (h : Inv c s) (acts : List Act) (hall : AllOrNothing (s.run c acts).trace) :
    Inv c (s.run c acts) := by
  induction acts generalizing s with
  | nil => exact h
  | cons a acts ih =>
    have hr : s.run c (a :: acts) = (s.step c a).run c acts := rfl
    rw [hr] at hall ⊢
    obtain ⟨l, hl⟩ := run_trace c (s.step c a) acts
    refine ih (h.step a (fun j hj => ?_)) hall
    subst hj
    rw [hl] at hall
    exact hall.prefix

end Verif.Vec.Buf
