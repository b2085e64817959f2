import Verif.Vec.BuffersLemmas

/-!
# The invariant of the memory of the asynchronous accesses
-/

namespace Verif.Vec.Buf

variable {c : Cfg} {s : State}

theorem count_one {l : List Nat} {b : Nat} (hl : l.Nodup) (hb : b ∈ l) : l.count b = 1 := by
  have h1 := List.nodup_iff_count.1 hl b
  have h2 := List.count_pos_iff.2 hb
  omega

theorem inv_init (c : Cfg) (size : Nat) (committed sched : Bool) : Inv c (init size committed sched) where
  part := by simp [init, inflN, pend]
  subm := by simp [init, inflN]
  once := by simp [init]
  reqs := by simp [init, inflN]
  calls := by simp [init]
  disj := by simp [init]
  kinds := by simp [init]
  bound := by simp [init]
  all := by simp [init]
  uniq := by simp [init]
  safe := by
    intro p e q h
    simp [init] at h
  newReq := by simp [init]
  fresh := by simp [init]
  wrote := by simp [init]
  returned := by simp [init]
  threw := by simp [init]

theorem CallInv.mono {t l : List Event} {u : Call} (h : CallInv c t u)
    (hs : ∀ b ∈ u.bufs, l.countP (Event.isSub b) = 0) (hn : ∀ b ∈ u.bufs, l.countP (Event.isNew b) = 0) :
    CallInv c (t ++ l) u where
  subl := h.subl
  nodup := h.nodup
  alloc := fun b hb => List.mem_append_left _ (h.alloc b hb)
  subm := fun b hb => by rw [List.countP_append, hs b hb, h.subm b hb, Nat.add_zero]
  single := h.single
  req := fun hp b hb => by
    rw [List.countP_append, hn b (h.subl.subset (List.mem_append_right _ hb)), h.req hp b hb]
  fail := h.fail

theorem CallInv.todo {t : List Event} {u : Call} (h : CallInv c t u) {b : Nat} (hb : b ∈ u.todo) :
    b ∈ u.bufs ∧ b ∉ u.sub ∧ b ∈ u.rest ∧ t.countP (Event.isSub b) = 0 := by
  have h1 := h.subl.subset (List.mem_append_right _ hb)
  have h2 := List.nodup_append.1 (h.nodup.sublist h.subl)
  have h3 : b ∉ u.sub := fun hs => h2.2.2 b hs b hb rfl
  refine ⟨h1, h3, ?_, ?_⟩
  · simp [Call.rest, h1, h3]
  · rw [h.subm b h1, List.count_eq_zero_of_not_mem h3]

theorem Inv.todo (h : Inv c s) {u : Call} (hu : u ∈ s.calls) {b : Nat} (hb : b ∈ u.todo) :
    b < s.next ∧ s.trace.countP (Event.releases b) = 0 ∧ s.trace.countP (Event.forgets b) = 0 ∧
      s.trace.countP (Event.isSub b) = 0 := by
  have h1 := (h.calls u hu).todo hb
  have h2 := h.bound _ _ ((h.calls u hu).alloc b h1.1)
  have h3 := List.count_pos_iff.2 h1.2.2.1
  have h4 := rest_le_pend hu b
  have h5 := h.part b
  rw [if_pos h2] at h5
  exact ⟨h2, by omega, by omega, h1.2.2.2⟩

/-- The parts of the invariant that only depend on the new events -/
theorem Inv.mk' (h : Inv c s) {s' : State} {l : List Event} (hnx : s'.next = s.next)
    (ht : s'.trace = s.trace ++ l) (hal : ∀ b k, Event.alloc b k ∉ l)
    (hnew : ∀ b, l.countP (Event.isNew b) = 0)
    (hsub : ∀ b, 0 < l.countP (Event.isSub b) → ∃ u ∈ s.calls, b ∈ u.todo)
    (hle : ∀ b, l.countP (Event.isSub b) ≤ 1)
    (part : ∀ b, s'.trace.countP (Event.releases b) + s'.trace.countP (Event.forgets b) + inflN s' b +
      s'.owned.count b + pend s'.calls b = if b < s.next then 1 else 0)
    (subm : ∀ b, s'.trace.countP (Event.isSub b) =
      inflN s' b + s'.trace.countP (Event.isCb b) + s'.trace.countP (Event.isWrote b))
    (reqs : c.page.isSome = true → ∀ b, s'.trace.countP (Event.isSub b) =
      inflN s' b + s'.trace.countP (Event.isDel b))
    (calls : ∀ u ∈ s'.calls, CallInv c s'.trace u)
    (disj : (s'.calls.flatMap Call.bufs).Nodup)
    (kinds : ∀ r ∈ s'.inflight, Event.alloc r.buf r.kind ∈ s.trace)
    (safe : Safe s'.trace)
    (wrote : ∀ b, Event.wrote b ∈ l → Event.alloc b .push ∈ s.trace)
    (returned : ∀ k bs, Event.returned k bs ∈ l → ∀ b ∈ bs, Event.alloc b k ∈ s.trace ∧
      s'.trace.countP (Event.isSub b) = 1)
    (threw : ∀ k e bs, Event.threw k e bs ∈ l → ∀ b ∈ bs, s'.trace.countP (Event.isSub b) = 0 ∧
      1 ≤ s'.trace.countP (Event.releases b) + s'.trace.countP (Event.forgets b) ∧
      Event.alloc b k ∈ s.trace) : Inv c s' := by
  have hal' : ∀ b k, Event.alloc b k ∈ s'.trace ↔ Event.alloc b k ∈ s.trace := by
    intro b k
    rw [ht, List.mem_append]
    exact ⟨fun h => h.resolve_right (hal b k), .inl⟩
  have hsub0 : ∀ b, (∀ u ∈ s.calls, b ∉ u.todo) → l.countP (Event.isSub b) = 0 := by
    intro b hb
    rcases Nat.eq_zero_or_pos (l.countP (Event.isSub b)) with h0 | h0
    · exact h0
    · obtain ⟨u, hu, hbu⟩ := hsub b h0
      exact absurd hbu (hb u hu)
  have hone : ∀ b, s'.trace.countP (Event.releases b) + s'.trace.countP (Event.forgets b) ≤ 1 := by
    intro b
    have := part b
    split at this <;> omega
  refine ⟨by rw [hnx]; exact part, subm, ?_, reqs, calls, disj, fun r hr => (hal' _ _).2 (kinds r hr), ?_, ?_,
    ?_, safe, ?_, ?_, ?_, ?_, ?_⟩
  · intro b
    rw [ht, List.countP_append]
    have h1 := h.once b
    have h2 := hle b
    rcases Nat.eq_zero_or_pos (l.countP (Event.isSub b)) with h0 | h0
    · omega
    · obtain ⟨u, hu, hbu⟩ := hsub b h0
      have := (h.todo hu hbu).2.2.2
      omega
  · intro b k hb
    rw [hnx]
    exact h.bound b k ((hal' _ _).1 hb)
  · intro b hb
    rw [hnx] at hb
    obtain ⟨k, hk⟩ := h.all b hb
    exact ⟨k, (hal' _ _).2 hk⟩
  · intro b k k' h1 h2
    exact h.uniq b k k' ((hal' _ _).1 h1) ((hal' _ _).1 h2)
  · intro hp b hb
    rw [ht, List.countP_append] at hb
    rw [ht, List.countP_append, hnew, Nat.add_zero]
    rcases Nat.eq_zero_or_pos (s.trace.countP (Event.isSub b)) with h0 | h0
    · obtain ⟨u, hu, hbu⟩ := hsub b (by omega)
      exact (h.calls u hu).req hp b hbu
    · exact h.newReq hp b h0
  · intro b hb
    rw [hnx] at hb
    have := h.fresh b hb
    rw [ht, List.countP_append, List.countP_append, hnew, this.1, this.2, hsub0]
    · exact ⟨rfl, rfl⟩
    · intro u hu hbu
      have := (h.todo hu hbu).1
      omega
  · intro b hb
    rw [ht, List.mem_append] at hb
    rw [hal']
    rcases hb with hb | hb
    · exact h.wrote b hb
    · exact wrote b hb
  · intro k bs hb b hbb
    rw [hal']
    have hb' := hb
    rw [ht, List.mem_append] at hb'
    rcases hb' with hb' | hb'
    · obtain ⟨h1, h2⟩ := h.returned k bs hb' b hbb
      refine ⟨h1, ?_⟩
      rw [ht, List.countP_append, h2, hsub0]
      intro u hu hbu
      have := (h.todo hu hbu).2.2.2
      omega
    · exact returned k bs hb' b hbb
  · intro k e bs hb b hbb
    rw [hal']
    have hb' := hb
    rw [ht, List.mem_append] at hb'
    rcases hb' with hb' | hb'
    · obtain ⟨h1, h2, h3⟩ := h.threw k e bs hb' b hbb
      refine ⟨?_, ?_, h3⟩
      · rw [ht, List.countP_append, h1, hsub0]
        intro u hu hbu
        have := h.todo hu hbu
        omega
      · have := hone b
        rw [ht, List.countP_append, List.countP_append] at this ⊢
        omega
    · obtain ⟨h1, h2, h3⟩ := threw k e bs hb' b hbb
      have := hone b
      exact ⟨h1, by omega, h3⟩

theorem Inv.start (h : Inv c s) (k : Kind) (rs : List (Nat × Option Nat))
    (hk : k ≠ .gets → rs.length ≤ 1) : Inv c (s.start c k (prepare s.size s.next rs)) := by
  have hb := prepare_bufs s.size s.next rs
  have hlen := prepare_length s.size s.next rs
  have hpass := passing_sublist c s.stop (prepare s.size s.next rs).1
  unfold State.start
  generalize hp : prepare s.size s.next rs = p at *
  obtain ⟨al, ok⟩ := p
  dsimp only at *
  generalize hbufs : al.map (·.1) = bufs at *
  generalize c.passing s.stop al = todo at *
  have hbl : bufs.length = al.length := by rw [hb, List.length_range']
  have hnd : bufs.Nodup := by rw [hb]; exact List.nodup_range'
  have hmem : ∀ b, b ∈ bufs ↔ s.next ≤ b ∧ b < s.next + bufs.length := by
    intro b
    rw [hbl, hb, List.mem_range'_1]
  have hnew : ∀ b, (todo.map Event.newReq).countP (Event.isNew b) = todo.count b := by
    intro b
    simp [List.countP_map, Function.comp_def, Event.isNew, List.count]
  have htodo : ∀ b ∈ todo, s.next ≤ b ∧ b < s.next + bufs.length := fun b hb =>
    (hmem b).1 (hpass.subset hb)
  have hcount : ∀ b, bufs.count b = if s.next ≤ b ∧ b < s.next + bufs.length then 1 else 0 := by
    intro b
    split
    next h => exact count_one hnd ((hmem b).2 h)
    next h => exact List.count_eq_zero_of_not_mem (fun hb => h ((hmem b).1 hb))
  have old : ∀ u ∈ s.calls, ∀ b ∈ u.bufs, b < s.next := fun u hu b hb =>
    h.bound _ _ ((h.calls u hu).alloc b hb)
  have part0 := h.part
  have subN : ∀ b, (bufs.map (fun b => Event.alloc b k)).countP (Event.isSub b) = 0 := by
    simp [List.countP_map, Function.comp_def, Event.isSub]
  have alloc_iff : ∀ b k', Event.alloc b k' ∈ bufs.map (fun b => Event.alloc b k) ↔ b ∈ bufs ∧ k = k' := by
    intro b k'
    simp only [List.mem_map, Event.alloc.injEq]
    constructor
    · rintro ⟨a, ha, rfl, rfl⟩
      exact ⟨ha, rfl⟩
    · rintro ⟨ha, rfl⟩
      exact ⟨b, ha, rfl, rfl⟩
  cases ok with
  | true =>
    simp only [if_true]
    generalize hR : (if c.page.isSome = true then todo.map Event.newReq else []) = R
    have hR1 : ∀ e ∈ R, ∃ b ∈ todo, e = .newReq b := by
      intro e he
      rw [← hR] at he
      split at he
      · obtain ⟨b, hb, rfl⟩ := List.mem_map.1 he
        exact ⟨b, hb, rfl⟩
      · simp at he
    have hR0 : ∀ P : Event → Bool, (∀ b, P (.newReq b) = false) → R.countP P = 0 := by
      intro P hP
      rw [List.countP_eq_zero]
      intro e he
      obtain ⟨b, -, rfl⟩ := hR1 e he
      simp [hP]
    have hA0 : ∀ P : Event → Bool, (∀ b, P (.alloc b k) = false) →
        (bufs.map (fun b => Event.alloc b k)).countP P = 0 := by
      intro P hP
      rw [List.countP_eq_zero]
      intro e he
      obtain ⟨b, -, rfl⟩ := List.mem_map.1 he
      simp [hP]
    have same : ∀ P : Event → Bool, (∀ b, P (.newReq b) = false) → (∀ b, P (.alloc b k) = false) →
        (s.trace ++ bufs.map (fun b => Event.alloc b k) ++ R).countP P = s.trace.countP P := by
      intro P h1 h2
      rw [List.countP_append, List.countP_append, hA0 P h2, hR0 P h1]; rfl
    have memT : ∀ e, (∀ b, e ≠ .newReq b) → (∀ b, e ≠ .alloc b k) →
        (e ∈ s.trace ++ bufs.map (fun b => Event.alloc b k) ++ R ↔ e ∈ s.trace) := by
      intro e h1 h2
      simp only [List.mem_append, List.mem_map]
      constructor
      · rintro ((h | ⟨b, -, rfl⟩) | h)
        · exact h
        · exact absurd rfl (h2 b)
        · obtain ⟨b, -, rfl⟩ := hR1 e h
          exact absurd rfl (h1 b)
      · intro h
        exact .inl (.inl h)
    have memA : ∀ b k', Event.alloc b k' ∈ s.trace ++ bufs.map (fun b => Event.alloc b k) ++ R ↔
        Event.alloc b k' ∈ s.trace ∨ (b ∈ bufs ∧ k = k') := by
      intro b k'
      rw [List.mem_append, List.mem_append, alloc_iff]
      constructor
      · rintro (h | h)
        · exact h
        · obtain ⟨_, _, h⟩ := hR1 _ h
          cases h
      · exact .inl
    have newT : c.page.isSome = true → ∀ b, (s.trace ++ bufs.map (fun b => Event.alloc b k) ++ R).countP
        (Event.isNew b) = s.trace.countP (Event.isNew b) + todo.count b := by
      intro hc b
      rw [if_pos hc] at hR
      rw [List.countP_append, List.countP_append, hA0 _ (by simp [Event.isNew]), ← hR, hnew]
      rfl
    have oldR : ∀ b, b < s.next → (bufs.map (fun b => Event.alloc b k) ++ R).countP (Event.isNew b) = 0 := by
      intro b hb
      rw [List.countP_append, hA0 _ (by simp [Event.isNew]), Nat.zero_add, List.countP_eq_zero]
      intro e he
      obtain ⟨b', hb', rfl⟩ := hR1 e he
      have := htodo b' hb'
      simp only [Event.isNew, beq_iff_eq]
      omega
    refine ⟨?_, ?_, ?_, ?_, ?_, ?_, ?_, ?_, ?_, ?_, ?_, ?_, ?_, ?_, ?_, ?_⟩ <;> dsimp only
    · intro b
      have h0 := h.part b
      rw [same _ (by simp [Event.releases]) (by simp [Event.releases]),
        same _ (by simp [Event.forgets]) (by simp [Event.forgets])]
      have h1 := hcount b
      have h2 : pend (s.calls ++ [⟨k, bufs, todo, [], false⟩]) b = pend s.calls b + bufs.count b := by
        simp [pend, Call.rest]
      rw [h2, h1]
      unfold inflN at h0 ⊢
      dsimp only
      split at h0 <;> split <;> split <;> omega
    · intro b
      rw [same _ (by simp [Event.isSub]) (by simp [Event.isSub]),
        same _ (by simp [Event.isCb]) (by simp [Event.isCb]),
        same _ (by simp [Event.isWrote]) (by simp [Event.isWrote])]
      exact h.subm b
    · intro b
      rw [same _ (by simp [Event.isSub]) (by simp [Event.isSub])]
      exact h.once b
    · intro hc b
      rw [same _ (by simp [Event.isSub]) (by simp [Event.isSub]),
        same _ (by simp [Event.isDel]) (by simp [Event.isDel])]
      exact h.reqs hc b
    · intro u hu
      rcases List.mem_append.1 hu with hu | hu
      · rw [List.append_assoc]
        refine (h.calls u hu).mono ?_ ?_
        · intro b _
          rw [List.countP_append, subN, hR0 _ (by simp [Event.isSub])]
        · intro b hb
          exact oldR b (old u hu b hb)
      · simp at hu
        subst hu
        refine ⟨by simpa using hpass, hnd, ?_, ?_, ?_, ?_, by simp⟩
        · intro b hb
          exact (memA b k).2 (.inr ⟨hb, rfl⟩)
        · intro b hb
          rw [same _ (by simp [Event.isSub]) (by simp [Event.isSub])]
          simpa using (h.fresh b ((hmem b).1 hb).1).2
        · intro hne
          have := hk hne
          dsimp only
          omega
        · intro hc b hb
          rw [newT hc, (h.fresh b (htodo b hb).1).1, Nat.zero_add]
          exact count_one (hnd.sublist hpass) hb
    · rw [List.flatMap_append, List.nodup_append]
      refine ⟨h.disj, by simpa using hnd, ?_⟩
      intro a ha b hb hab
      subst hab
      simp at hb
      obtain ⟨u, hu, hau⟩ := List.mem_flatMap.1 ha
      have := old u hu a hau
      have := ((hmem a).1 hb).1
      omega
    · intro r hr
      exact (memA _ _).2 (.inl (h.kinds r hr))
    · intro b k' hb
      rcases (memA b k').1 hb with hb | hb
      · have := h.bound b k' hb
        omega
      · exact ((hmem b).1 hb.1).2
    · intro b hb
      by_cases hbn : b < s.next
      · exact ((h.all b hbn).append _).append _
      · exact ⟨k, (memA b k).2 (.inr ⟨(hmem b).2 ⟨by omega, hb⟩, rfl⟩)⟩
    · intro b k1 k2 h1 h2
      rcases (memA b k1).1 h1 with h1 | h1 <;> rcases (memA b k2).1 h2 with h2 | h2
      · exact h.uniq b k1 k2 h1 h2
      · have := h.bound b k1 h1
        have := ((hmem b).1 h2.1).1
        omega
      · have := h.bound b k2 h2
        have := ((hmem b).1 h1.1).1
        omega
      · rw [← h1.2, ← h2.2]
    · rw [List.append_assoc]
      refine h.safe.append ?_
      intro e he b
      rcases List.mem_append.1 he with he | he
      · obtain ⟨b', -, rfl⟩ := List.mem_map.1 he
        rfl
      · obtain ⟨b', -, rfl⟩ := hR1 e he
        rfl
    · intro hc b hb
      rw [same _ (by simp [Event.isSub]) (by simp [Event.isSub])] at hb
      rw [newT hc, h.newReq hc b hb]
      have : b ∉ todo := fun hbt => by
        have := (h.fresh b (htodo b hbt).1).2
        omega
      rw [List.count_eq_zero_of_not_mem this]
    · intro b hb
      rw [same (Event.isSub b) (by simp [Event.isSub]) (by simp [Event.isSub])]
      have := h.fresh b (by omega)
      refine ⟨?_, this.2⟩
      rw [List.append_assoc, List.countP_append, this.1, List.countP_append,
        hA0 _ (by simp [Event.isNew]), Nat.zero_add, Nat.zero_add, List.countP_eq_zero]
      intro e he
      obtain ⟨b', hb', rfl⟩ := hR1 e he
      have := htodo b' hb'
      simp only [Event.isNew, beq_iff_eq]
      omega
    · intro b hb
      rw [memT _ (by simp) (by simp)] at hb
      exact (memA _ _).2 (.inl (h.wrote b hb))
    · intro k' bs hb b hbb
      rw [memT _ (by simp) (by simp)] at hb
      rw [same _ (by simp [Event.isSub]) (by simp [Event.isSub])]
      have := h.returned k' bs hb b hbb
      exact ⟨(memA _ _).2 (.inl this.1), this.2⟩
    · intro k' e bs hb b hbb
      rw [memT _ (by simp) (by simp)] at hb
      rw [same _ (by simp [Event.isSub]) (by simp [Event.isSub]),
        same _ (by simp [Event.releases]) (by simp [Event.releases]),
        same _ (by simp [Event.forgets]) (by simp [Event.forgets])]
      have := h.threw k' e bs hb b hbb
      exact ⟨this.1, this.2.1, (memA _ _).2 (.inl this.2.2)⟩
  | false =>
    simp only [Bool.false_eq_true, if_false]
    have hA0 : ∀ P : Event → Bool, (∀ b, P (.alloc b k) = false) →
        (bufs.map (fun b => Event.alloc b k)).countP P = 0 := by
      intro P hP
      rw [List.countP_eq_zero]
      intro e he
      obtain ⟨b, -, rfl⟩ := List.mem_map.1 he
      simp [hP]
    have same : ∀ P : Event → Bool, P (.threw k true bufs) = false → (∀ b, P (.alloc b k) = false) →
        (s.trace ++ bufs.map (fun b => Event.alloc b k) ++ [Event.threw k true bufs]).countP P =
          s.trace.countP P := by
      intro P h1 h2
      rw [List.countP_append, List.countP_append, hA0 P h2]
      simp [h1]
    have forg : ∀ b, (s.trace ++ bufs.map (fun b => Event.alloc b k) ++ [Event.threw k true bufs]).countP
        (Event.forgets b) = s.trace.countP (Event.forgets b) + bufs.count b := by
      intro b
      rw [List.countP_append, List.countP_append, hA0 _ (by simp [Event.forgets])]
      rw [hcount]
      have := hmem b
      by_cases hb : b ∈ bufs
      · rw [if_pos (this.1 hb)]
        simp [Event.forgets, hb]
      · rw [if_neg (fun h => hb (this.2 h))]
        simp [Event.forgets, hb]
    have memT : ∀ e, e ≠ .threw k true bufs → (∀ b, e ≠ .alloc b k) →
        (e ∈ s.trace ++ bufs.map (fun b => Event.alloc b k) ++ [Event.threw k true bufs] ↔ e ∈ s.trace) := by
      intro e h1 h2
      simp only [List.mem_append, List.mem_map, List.mem_singleton]
      constructor
      · rintro ((h | ⟨b, -, rfl⟩) | h)
        · exact h
        · exact absurd rfl (h2 b)
        · exact absurd h h1
      · intro h
        exact .inl (.inl h)
    have memA : ∀ b k', Event.alloc b k' ∈ s.trace ++ bufs.map (fun b => Event.alloc b k) ++
        [Event.threw k true bufs] ↔ Event.alloc b k' ∈ s.trace ∨ (b ∈ bufs ∧ k = k') := by
      intro b k'
      rw [List.mem_append, List.mem_append, alloc_iff]
      simp
    refine ⟨?_, ?_, ?_, ?_, ?_, ?_, ?_, ?_, ?_, ?_, ?_, ?_, ?_, ?_, ?_, ?_⟩ <;> dsimp only
    · intro b
      have h0 := h.part b
      rw [same _ (by simp [Event.releases]) (by simp [Event.releases]), forg, hcount]
      unfold inflN at h0 ⊢
      dsimp only
      split at h0 <;> split <;> split <;> omega
    · intro b
      rw [same _ (by simp [Event.isSub]) (by simp [Event.isSub]),
        same _ (by simp [Event.isCb]) (by simp [Event.isCb]),
        same _ (by simp [Event.isWrote]) (by simp [Event.isWrote])]
      exact h.subm b
    · intro b
      rw [same _ (by simp [Event.isSub]) (by simp [Event.isSub])]
      exact h.once b
    · intro hc b
      rw [same _ (by simp [Event.isSub]) (by simp [Event.isSub]),
        same _ (by simp [Event.isDel]) (by simp [Event.isDel])]
      exact h.reqs hc b
    · intro u hu
      rw [List.append_assoc]
      refine (h.calls u hu).mono ?_ ?_
      · intro b _
        rw [List.countP_append, subN]
        simp [Event.isSub]
      · intro b _
        rw [List.countP_append, hA0 _ (by simp [Event.isNew])]
        simp [Event.isNew]
    · exact h.disj
    · intro r hr
      exact (memA _ _).2 (.inl (h.kinds r hr))
    · intro b k' hb
      rcases (memA b k').1 hb with hb | hb
      · have := h.bound b k' hb
        omega
      · exact ((hmem b).1 hb.1).2
    · intro b hb
      by_cases hbn : b < s.next
      · exact ((h.all b hbn).append _).append _
      · exact ⟨k, (memA b k).2 (.inr ⟨(hmem b).2 ⟨by omega, hb⟩, rfl⟩)⟩
    · intro b k1 k2 h1 h2
      rcases (memA b k1).1 h1 with h1 | h1 <;> rcases (memA b k2).1 h2 with h2 | h2
      · exact h.uniq b k1 k2 h1 h2
      · have := h.bound b k1 h1
        have := ((hmem b).1 h2.1).1
        omega
      · have := h.bound b k2 h2
        have := ((hmem b).1 h1.1).1
        omega
      · rw [← h1.2, ← h2.2]
    · rw [List.append_assoc]
      refine h.safe.append ?_
      intro e he b
      rcases List.mem_append.1 he with he | he
      · obtain ⟨b', -, rfl⟩ := List.mem_map.1 he
        rfl
      · simp at he
        subst he
        rfl
    · intro hc b hb
      rw [same _ (by simp [Event.isSub]) (by simp [Event.isSub])] at hb
      rw [same _ (by simp [Event.isNew]) (by simp [Event.isNew])]
      exact h.newReq hc b hb
    · intro b hb
      rw [same (Event.isSub b) (by simp [Event.isSub]) (by simp [Event.isSub]),
        same (Event.isNew b) (by simp [Event.isNew]) (by simp [Event.isNew])]
      exact h.fresh b (by omega)
    · intro b hb
      rw [memT _ (by simp) (by simp)] at hb
      exact (memA _ _).2 (.inl (h.wrote b hb))
    · intro k' bs hb b hbb
      rw [memT _ (by simp) (by simp)] at hb
      rw [same _ (by simp [Event.isSub]) (by simp [Event.isSub])]
      have := h.returned k' bs hb b hbb
      exact ⟨(memA _ _).2 (.inl this.1), this.2⟩
    · intro k' e bs hb b hbb
      rw [same _ (by simp [Event.isSub]) (by simp [Event.isSub]),
        same _ (by simp [Event.releases]) (by simp [Event.releases]), forg]
      rw [List.mem_append, List.mem_append] at hb
      rcases hb with (hb | hb) | hb
      · have h1 := h.threw k' e bs hb b hbb
        have h2 := h.bound _ _ h1.2.2
        have h3 := hcount b
        rw [if_neg (by omega)] at h3
        exact ⟨h1.1, by omega, (memA _ _).2 (.inl h1.2.2)⟩
      · simp at hb
      · simp at hb
        obtain ⟨rfl, rfl, rfl⟩ := hb
        have h2 := (hmem b).1 hbb
        have h0 := h.part b
        rw [if_neg (by omega)] at h0
        refine ⟨(h.fresh b h2.1).2, ?_, (memA _ _).2 (.inr ⟨hbb, rfl⟩)⟩
        rw [count_one hnd hbb]
        omega

end Verif.Vec.Buf
