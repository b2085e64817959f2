import Verif.Runner.Load
import Verif.ThreadPool.Systems
import Verif.Counter.Lemmas

/-!
# Lemmas on `load_inverted_index`
-/

namespace Verif.Runner

variable {Kw : Type} [DecidableEq Kw]

/-- Invariant of the call -/
structure LoadInv (n : Nat) (file : List (Kw × List Index)) (s : Loader Kw) : Prop where
  pool : ThreadPool.SeqReachable some n [List.range file.length] s.pool
  client : Counter.Reachable (insertions file) s.client
  len : s.client.threads.length = file.length
  lenUnsent : s.unsent.length = file.length
  messages : (s.sent ++ s.lost ++ s.unsent.flatten).Perm s.client.emitted
  bodies : ∀ i ∈ s.pool.pool.finished, s.BodyDone i

theorem loadInv_init (n : Nat) (file : List (Kw × List Index)) : LoadInv n file (Loader.init n file) where
  pool := .refl
  client := .refl
  len := by simp [Loader.init, Counter.Sys.init, insertions]
  lenUnsent := by simp [Loader.init]
  messages := by
    have : (file.map (fun _ => ([] : List (Msg Kw)))).flatten = [] := by
      rw [List.flatten_eq_nil_iff]; simp
    simp only [Loader.init, Counter.Sys.init, List.nil_append, this]
    exact .refl _
  bodies := by simp [Loader.init, ThreadPool.Sys.init, ThreadPool.Pool.new]

theorem flatten_set_perm {α : Type} {l : List (List α)} {i : Nat} {a b : List α} (h : l[i]? = some a) :
    (l.flatten ++ b).Perm ((l.set i b).flatten ++ a) := by
  obtain ⟨pre, post, h1, h2⟩ := Verif.List.set_split h b
  rw [h2, h1]
  simp only [List.flatten_append, List.flatten_cons, List.append_assoc]
  refine List.Perm.append_left _ ?_
  have h3 : (a ++ (post.flatten ++ b)).Perm ((post.flatten ++ b) ++ a) := List.perm_append_comm
  have h4 : ((post.flatten ++ b) ++ a).Perm ((b ++ post.flatten) ++ a) :=
    List.Perm.append_right _ List.perm_append_comm
  rw [List.append_assoc b] at h4
  exact h3.trans h4

theorem loadInv_step {n : Nat} {file : List (Kw × List Index)} {s s' : Loader Kw} (hinv : LoadInv n file s)
    (h : LoadStep s s') : LoadInv n file s' := by
  have hbody : ∀ (i : Nat), (s.client.threads[i]? ≠ some ⟨[], none⟩ ∨ s.unsent[i]? ≠ some []) →
      ∀ j ∈ s.pool.pool.finished, j ≠ i := by
    rintro i hi j hj rfl
    obtain ⟨h1, h2⟩ := hinv.bodies j hj
    rcases hi with hi | hi
    · exact hi h1
    · exact hi h2
  cases h with
  | pool l p h hfin =>
    exact ⟨hinv.pool.tail ⟨l, h⟩, hinv.client, hinv.len, hinv.lenUnsent, hinv.messages, hfin⟩
  | read i w d rest hs h =>
    refine ⟨hinv.pool, hinv.client.tail (Counter.Step.read _ i w d rest h), by simpa using hinv.len,
      hinv.lenUnsent, hinv.messages, ?_⟩
    intro j hj
    have hne := hbody i (.inl (by rw [h]; simp)) j hj
    obtain ⟨h1, h2⟩ := hinv.bodies j hj
    exact ⟨by rw [List.getElem?_set_ne (Ne.symm hne)]; exact h1, h2⟩
  | put i w d v rest out h ho =>
    refine ⟨hinv.pool, hinv.client.tail (Counter.Step.write _ i w d v rest h), by simpa using hinv.len,
      by simpa using hinv.lenUnsent, ?_, ?_⟩
    · dsimp only
      have h1 : ((s.unsent.set i (out ++ [(w, d, v)])).flatten ++ out).Perm
          ((s.unsent.flatten ++ [(w, d, v)]) ++ out) := by
        refine (flatten_set_perm (b := out ++ [(w, d, v)]) ho).symm.trans ?_
        rw [List.append_assoc]
        exact List.Perm.append_left _ List.perm_append_comm
      have h2 := (List.perm_append_right_iff out).mp h1
      refine (List.Perm.append_left _ h2).trans ?_
      rw [← List.append_assoc]
      exact List.Perm.append_right _ hinv.messages
    · intro j hj
      have hne := hbody i (.inl (by rw [h]; simp)) j hj
      obtain ⟨h1, h2⟩ := hinv.bodies j hj
      exact ⟨by rw [List.getElem?_set_ne (Ne.symm hne)]; exact h1,
        by rw [List.getElem?_set_ne (Ne.symm hne)]; exact h2⟩
  | write i m out ho =>
    refine ⟨hinv.pool, hinv.client, hinv.len, by simpa using hinv.lenUnsent, ?_, ?_⟩
    · dsimp only
      refine List.Perm.trans ?_ hinv.messages
      have h1 : (s.unsent.flatten).Perm (m :: (s.unsent.set i out).flatten) := by
        have h2 := flatten_set_perm (b := out) ho
        have h3 : (s.unsent.flatten ++ out).Perm ((m :: (s.unsent.set i out).flatten) ++ out) :=
          h2.trans List.perm_middle
        exact (List.perm_append_right_iff out).mp h3
      refine List.Perm.trans ?_ (List.Perm.append_left _ h1.symm)
      rw [List.append_assoc, List.append_assoc, List.append_assoc]
      refine List.Perm.append_left _ ?_
      show (m :: (s.lost ++ _)).Perm _
      exact List.perm_middle.symm
    · intro j hj
      have hne := hbody i (.inr (by rw [ho]; simp)) j hj
      obtain ⟨h1, h2⟩ := hinv.bodies j hj
      exact ⟨h1, by rw [List.getElem?_set_ne (Ne.symm hne)]; exact h2⟩
  | fail i m out ho =>
    refine ⟨hinv.pool, hinv.client, hinv.len, by simpa using hinv.lenUnsent, ?_, ?_⟩
    · dsimp only
      refine List.Perm.trans ?_ hinv.messages
      have h1 : (s.unsent.flatten).Perm (m :: (s.unsent.set i out).flatten) := by
        have h2 := flatten_set_perm (b := out) ho
        have h3 : (s.unsent.flatten ++ out).Perm ((m :: (s.unsent.set i out).flatten) ++ out) :=
          h2.trans List.perm_middle
        exact (List.perm_append_right_iff out).mp h3
      refine List.Perm.trans ?_ (List.Perm.append_left _ h1.symm)
      rw [List.append_assoc, List.append_assoc, List.append_assoc]
      refine List.Perm.append_left _ (List.Perm.append_left _ ?_)
      exact .refl _
    · intro j hj
      have hne := hbody i (.inr (by rw [ho]; simp)) j hj
      obtain ⟨h1, h2⟩ := hinv.bodies j hj
      exact ⟨h1, by rw [List.getElem?_set_ne (Ne.symm hne)]; exact h2⟩

theorem loadReachable_inv {n : Nat} {file : List (Kw × List Index)} {s : Loader Kw}
    (h : LoadReachable n file s) : LoadInv n file s := by
  induction h with
  | refl => exact loadInv_init n file
  | tail _ hst ih => exact loadInv_step ih hst

omit [DecidableEq Kw] in
theorem result_true {s : Loader Kw} {r : Bool} (h : s.result = some r) :
    s.pool.pool.joiner = .returned ∧ r = true := by
  unfold Loader.result at h
  split at h
  · rename_i hj; cases h; exact ⟨hj, rfl⟩
  · cases h

/-- When the call returns, all the bodies have returned, provided there is a worker. -/
theorem load_done {n : Nat} (hn : 1 ≤ n) {file : List (Kw × List Index)} {s : Loader Kw}
    (hinv : LoadInv n file s) (hr : s.pool.pool.joiner = .returned) :
    s.client.Done ∧ (s.sent ++ s.lost).Perm s.client.emitted := by
  obtain ⟨hpool, hrej, hj⟩ := ThreadPool.seqReachable_inv hinv.pool
  have hne : s.pool.pool.workers ≠ [] := by
    intro h0; have := hpool.len; simp [h0] at this; omega
  obtain ⟨h1, -⟩ := ThreadPool.returned_all hpool.pool hne hr
  have hacc : s.pool.pool.accepted.Perm (List.range file.length) := by
    have h2 := hpool.conserve
    rw [hrej, hj (by rw [hr]; simp)] at h2
    simpa using h2
  have hbodies : ∀ i < file.length, s.BodyDone i := by
    intro i hi
    exact hinv.bodies i ((h1.trans hacc).mem_iff.mpr (List.mem_range.mpr hi))
  constructor
  · intro th hth
    obtain ⟨i, hi⟩ := List.getElem?_of_mem hth
    have hlt := (List.getElem?_eq_some_iff.mp hi).1
    obtain ⟨h3, -⟩ := hbodies i (by rw [hinv.len] at hlt; exact hlt)
    rw [h3] at hi
    cases hi
    exact ⟨rfl, rfl⟩
  · have hnil : s.unsent.flatten = [] := by
      rw [List.flatten_eq_nil_iff]
      intro l hl
      obtain ⟨i, hi⟩ := List.getElem?_of_mem hl
      have hlt := (List.getElem?_eq_some_iff.mp hi).1
      obtain ⟨-, h3⟩ := hbodies i (by rw [hinv.lenUnsent] at hlt; exact hlt)
      rw [h3] at hi
      exact (Option.some.inj hi).symm
    have := hinv.messages
    rw [hnil, List.append_nil] at this
    exact this

/-- The insertions are those requested, or still to be requested, in every schedule. -/
theorem counter_conserve {Ls : List (List (Kw × Index))} {s : Counter.Sys Kw Index}
    (h : Counter.Reachable Ls s) :
    (s.emitted.map (fun e => (e.1, e.2.1)) ++ s.threads.flatMap Counter.Thread.remaining).Perm Ls.flatten := by
  induction h with
  | refl =>
    have h : (Counter.Sys.init Ls).threads.flatMap Counter.Thread.remaining = Ls.flatten := by
      simp only [Counter.Sys.init, List.flatMap_map]
      rw [List.flatten_eq_flatMap]
      apply List.flatMap_congr
      intro L _
      simp [Counter.Thread.remaining]
    rw [h]
    exact .refl _
  | @tail a b _ hst ih =>
    refine List.Perm.trans ?_ ih
    cases hst with
    | read t w i rest h =>
      have := Counter.set_perm_flatMap a.threads t _
        (⟨rest, some (w, i, Counter.nextValue (Counter.get a.counters w))⟩ : Counter.Thread Kw Index)
        Counter.Thread.remaining [] h (by simp [Counter.Thread.remaining])
      exact List.Perm.append_left _ (by simpa using this.symm)
    | write t w i v rest h =>
      have := Counter.set_perm_flatMap a.threads t _ (⟨rest, none⟩ : Counter.Thread Kw Index)
        Counter.Thread.remaining [(w, i)] h (by simp [Counter.Thread.remaining])
      simp only [List.map_append, List.map_cons, List.map_nil, List.append_assoc]
      exact List.Perm.append_left _ this.symm

theorem emitted_perm {n : Nat} (hn : 1 ≤ n) {file : List (Kw × List Index)} {s : Loader Kw}
    (hinv : LoadInv n file s) (hr : s.pool.pool.joiner = .returned) :
    ((s.sent ++ s.lost).map (fun e => (e.1, e.2.1))).Perm (insertions file).flatten := by
  obtain ⟨hdone, hperm⟩ := load_done hn hinv hr
  refine (hperm.map _).trans ?_
  have h := counter_conserve hinv.client
  have h0 : s.client.threads.flatMap Counter.Thread.remaining = [] := by
    rw [List.flatMap_eq_nil_iff]
    intro th hth
    obtain ⟨h1, h2⟩ := hdone th hth
    simp [Counter.Thread.remaining, h1, h2]
  rwa [h0, List.append_nil] at h

/-- A rearrangement of the images is the image of a rearrangement. -/
theorem perm_map_exists {α β : Type} (f : α → β) (l : List β) : ∀ r : List α, l.Perm (r.map f) →
    ∃ D : List α, D.Perm r ∧ l = D.map f := by
  induction l with
  | nil =>
    intro r h
    have : r = [] := by simpa using h.symm.length_eq
    exact ⟨[], by rw [this], rfl⟩
  | cons a l ih =>
    intro r h
    have ha : a ∈ r.map f := h.mem_iff.mp (List.mem_cons_self ..)
    obtain ⟨x, hx, hxa⟩ := List.mem_map.mp ha
    obtain ⟨r1, r2, hr⟩ := List.append_of_mem hx
    have h1 : l.Perm ((r1 ++ r2).map f) := by
      rw [hr, List.map_append, List.map_cons, hxa] at h
      rw [List.map_append]
      exact List.Perm.cons_inv (h.trans List.perm_middle)
    obtain ⟨D, hD, hl⟩ := ih _ h1
    refine ⟨x :: D, ?_, by rw [List.map_cons, hxa, hl]⟩
    rw [hr]
    exact (hD.cons x).trans List.perm_middle.symm

theorem no_worker_pool {Ls : List (List Nat)} {p : ThreadPool.Sys Nat Nat}
    (h : ThreadPool.SeqReachable some 0 Ls p) : p.pool.workers = [] ∧ p.pool.emitted = [] := by
  induction h with
  | refl => exact ⟨rfl, rfl⟩
  | @tail a b hra hst ih =>
    have h1 := ih.1
    have h2 := ih.2
    obtain ⟨l, h⟩ := hst
    have hinv := ThreadPool.seqReachable_inv (hra.tail ⟨l, h⟩)
    refine ⟨List.eq_nil_of_length_eq_zero hinv.1.len, ?_⟩
    cases h with
    | step hstep hj =>
      cases hstep with
      | produce t x rest p' hh hp => exact hp.emitted.trans h2
      | reject t x rest p' hh hp => exact hp.emitted.trans h2
      | join p' hp => exact hp.emitted.trans h2
      | internal p' hp => exact hp.emitted.trans h2
      | emit x p' hp => cases hp with | emit i y _ hi => rw [h1] at hi; cases hi
      | spurious p' hp => exact hp.emitted.trans h2

/-- Without worker, nothing happens but in the parsing thread. -/
theorem no_worker_inv {file : List (Kw × List Index)} {s : Loader Kw} (h : LoadReachable 0 file s) :
    s.pool.pool.workers = [] ∧ s.pool.pool.emitted = [] ∧ s.sent = [] ∧ s.lost = [] ∧
      (∀ l ∈ s.unsent, l = []) ∧ ∀ th ∈ s.client.threads, th.pending = none := by
  induction h with
  | refl =>
    refine ⟨rfl, rfl, rfl, rfl, by simp [Loader.init], ?_⟩
    intro th hth
    simp only [Loader.init, Counter.Sys.init, List.mem_map] at hth
    obtain ⟨L, -, rfl⟩ := hth
    rfl
  | @tail a b hra hst ih =>
    obtain ⟨h1, h2, h3, h4, h5, h6⟩ := ih
    cases hst with
    | pool l p h hfin =>
      have hw := no_worker_pool ((loadReachable_inv hra).pool.tail ⟨l, h⟩)
      exact ⟨hw.1, hw.2, h3, h4, h5, h6⟩
    | read i w d rest hs h => rw [h2] at hs; cases hs
    | put i w d v rest out h ho =>
      have := h6 _ (List.mem_of_getElem? h)
      cases this
    | write i m out ho => have := h5 _ (List.mem_of_getElem? ho); cases this
    | fail i m out ho => have := h5 _ (List.mem_of_getElem? ho); cases this

theorem no_worker_lift {file : List (Kw × List Index)} {p : ThreadPool.Sys Nat Nat}
    (h : ThreadPool.SeqReachable some 0 [List.range file.length] p) :
    ∃ s : Loader Kw, LoadReachable 0 file s ∧ s.pool = p := by
  induction h with
  | refl => exact ⟨_, .refl, rfl⟩
  | @tail a b hra hst ih =>
    obtain ⟨s, hs, rfl⟩ := ih
    obtain ⟨l, hst⟩ := hst
    refine ⟨{ s with pool := b }, hs.tail (.pool s l b hst ?_), rfl⟩
    have hinv := ThreadPool.seqReachable_inv (hra.tail ⟨l, hst⟩)
    obtain ⟨hw, he⟩ := no_worker_pool (hra.tail ⟨l, hst⟩)
    intro i hi
    have := hinv.1.pool.effects
    rw [hw, he] at this
    have hnil : b.pool.finished = [] := List.eq_nil_of_length_eq_zero (by simpa using this.length_eq.symm)
    rw [hnil] at hi
    cases hi

/-! ## Termination -/

/-- The tasks that finish have started. -/
structure Started (p : ThreadPool.Pool Nat Nat) : Prop where
  running : ∀ a, ThreadPool.Worker.running a none ∈ p.workers → a ∈ p.emitted
  waiting : ∀ a b, ThreadPool.Worker.running a (some b) ∈ p.workers → b = a
  finished : ∀ a ∈ p.finished, a ∈ p.emitted

theorem started_step {p p' : ThreadPool.Pool Nat Nat} {act : ThreadPool.Act Nat Nat} (hp : Started p)
    (h : ThreadPool.Step some p act p') : Started p' := by
  obtain ⟨h1, h2, h3⟩ := hp
  cases h with
  | enqueue a hs => exact ⟨h1, h2, h3⟩
  | reject a hs => exact ⟨h1, h2, h3⟩
  | notifyWake i hi h =>
    exact ⟨fun a ha => h1 a ((List.mem_or_eq_of_mem_set ha).resolve_right (by simp)),
      fun a b ha => h2 a b ((List.mem_or_eq_of_mem_set ha).resolve_right (by simp)), h3⟩
  | notifyNone hi h => exact ⟨h1, h2, h3⟩
  | spurious i h =>
    exact ⟨fun a ha => h1 a ((List.mem_or_eq_of_mem_set ha).resolve_right (by simp)),
      fun a b ha => h2 a b ((List.mem_or_eq_of_mem_set ha).resolve_right (by simp)), h3⟩
  | pop i a q h hq =>
    refine ⟨fun x ha => h1 x ((List.mem_or_eq_of_mem_set ha).resolve_right (by simp)), ?_, h3⟩
    intro x b ha
    rcases List.mem_or_eq_of_mem_set ha with h | h
    · exact h2 x b h
    · cases h; rfl
  | exit i h hq hs =>
    exact ⟨fun a ha => h1 a ((List.mem_or_eq_of_mem_set ha).resolve_right (by simp)),
      fun a b ha => h2 a b ((List.mem_or_eq_of_mem_set ha).resolve_right (by simp)), h3⟩
  | sleep i h hq hs =>
    exact ⟨fun a ha => h1 a ((List.mem_or_eq_of_mem_set ha).resolve_right (by simp)),
      fun a b ha => h2 a b ((List.mem_or_eq_of_mem_set ha).resolve_right (by simp)), h3⟩
  | emit i a b h =>
    refine ⟨?_, fun x y ha => h2 x y ((List.mem_or_eq_of_mem_set ha).resolve_right (by simp)),
      fun x hx => List.mem_append_left _ (h3 x hx)⟩
    intro x ha
    rcases List.mem_or_eq_of_mem_set ha with h' | h'
    · exact List.mem_append_left _ (h1 x h')
    · cases h'
      cases h2 _ _ (List.mem_of_getElem? h)
      exact List.mem_append_right _ (List.mem_singleton.mpr rfl)
  | finish i a h =>
    refine ⟨fun x ha => h1 x ((List.mem_or_eq_of_mem_set ha).resolve_right (by simp)),
      fun x y ha => h2 x y ((List.mem_or_eq_of_mem_set ha).resolve_right (by simp)), ?_⟩
    intro x hx
    rcases List.mem_append.mp hx with hx | hx
    · exact h3 x hx
    · cases List.mem_singleton.mp hx
      exact h1 _ (List.mem_of_getElem? h)
  | join h => exact ⟨h1, h2, h3⟩
  | notifyAll h =>
    refine ⟨?_, ?_, h3⟩
    · intro a ha
      obtain ⟨w, hw, hwa⟩ := List.mem_map.mp ha
      cases w <;> simp [ThreadPool.wake] at hwa
      obtain ⟨rfl, rfl⟩ := hwa
      exact h1 _ hw
    · intro a b ha
      obtain ⟨w, hw, hwa⟩ := List.mem_map.mp ha
      cases w <;> simp [ThreadPool.wake] at hwa
      obtain ⟨rfl, rfl⟩ := hwa
      exact h2 _ _ hw
  | ret h hw => exact ⟨h1, h2, h3⟩

theorem seq_pool_step {s s' : ThreadPool.Sys Nat Nat} {l : Bool} (h : ThreadPool.SeqStep some l s s') :
    ∃ act, ThreadPool.Step some s.pool act s'.pool := by
  cases h with
  | step h _ => cases h <;> exact ⟨_, by assumption⟩

theorem seq_started {n : Nat} {Ls : List (List Nat)} {s : ThreadPool.Sys Nat Nat}
    (h : ThreadPool.SeqReachable some n Ls s) : Started s.pool := by
  induction h with
  | refl =>
    refine ⟨?_, ?_, fun a ha => nomatch ha⟩
    · intro a ha
      have := List.eq_of_mem_replicate ha
      cases this
    · intro a b ha
      have := List.eq_of_mem_replicate ha
      cases this
  | tail _ hst ih =>
    obtain ⟨l, hst⟩ := hst
    obtain ⟨act, hst⟩ := seq_pool_step hst
    exact started_step ih hst

/-- What a body has still to do -/
def bodyWeight (th : Counter.Thread Kw Index) : Nat := 3 * th.todo.length + 2 * th.pending.toList.length

/-- Bound on the number of remaining steps, not counting the spurious wake-ups -/
def Loader.weight (s : Loader Kw) : Nat :=
  s.pool.weight + (s.client.threads.map bodyWeight).sum + s.unsent.flatten.length

theorem sum_set {α : Type} (f : α → Nat) {l : List α} {i : Nat} {a b : α} (h : l[i]? = some a) :
    ((l.set i b).map f).sum + f a = (l.map f).sum + f b := by
  obtain ⟨pre, post, h1, h2⟩ := Verif.List.set_split h b
  rw [h2, h1]
  simp only [List.map_append, List.map_cons, List.sum_append, List.sum_cons]
  omega

theorem length_flatten_set {α : Type} {l : List (List α)} {i : Nat} {a b : List α} (h : l[i]? = some a) :
    (l.set i b).flatten.length + a.length = l.flatten.length + b.length := by
  have := (flatten_set_perm (b := b) h).length_eq
  simp only [List.length_append] at this
  omega

/-- As long as the call has not returned, some thread can make a step, and the remaining number of steps
decreases; the stream may be up or down. -/
theorem load_progress {n : Nat} {file : List (Kw × List Index)} {s : Loader Kw} (hinv : LoadInv n file s)
    (hj : s.pool.pool.joiner ≠ .returned) (up : Bool) :
    ∃ s', LoadStep s s' ∧ s'.weight < s.weight ∧ (up = true → s'.lost = s.lost) ∧ (up = false → s'.sent = s.sent) := by
  by_cases hu : ∃ (i : Nat) (m : Msg Kw) (out : List (Msg Kw)), s.unsent[i]? = some (m :: out)
  · obtain ⟨i, m, out, hu⟩ := hu
    have := length_flatten_set (b := out) hu
    simp only [List.length_cons] at this
    cases up with
    | true => exact ⟨_, .write s i m out hu, by simp only [Loader.weight]; omega, fun _ => rfl, (by intro h; cases h)⟩
    | false => exact ⟨_, .fail s i m out hu, by simp only [Loader.weight]; omega, (by intro h; cases h), fun _ => rfl⟩
  by_cases hp : ∃ (i : Nat) (rest : List (Kw × Index)) (x : Kw × Index × UInt32),
      s.client.threads[i]? = some ⟨rest, some x⟩
  · obtain ⟨i, rest, ⟨w, d, v⟩, hp⟩ := hp
    have hlt : i < s.unsent.length := by
      rw [hinv.lenUnsent, ← hinv.len]; exact (List.getElem?_eq_some_iff.mp hp).1
    refine ⟨_, .put s i w d v rest _ hp (List.getElem?_eq_getElem hlt), ?_, fun _ => rfl, fun _ => rfl⟩
    have h1 := sum_set bodyWeight (b := ⟨rest, none⟩) hp
    have h2 := length_flatten_set (b := s.unsent[i] ++ [(w, d, v)]) (List.getElem?_eq_getElem hlt)
    simp only [bodyWeight, Option.toList, List.length_append, List.length_cons, List.length_nil] at h1 h2
    simp only [Loader.weight]
    omega
  by_cases hr : ∃ (i : Nat) (w : Kw) (d : Index) (rest : List (Kw × Index)), i ∈ s.pool.pool.emitted ∧
      s.client.threads[i]? = some ⟨(w, d) :: rest, none⟩
  · obtain ⟨i, w, d, rest, hs, hr⟩ := hr
    refine ⟨_, .read s i w d rest hs hr, ?_, fun _ => rfl, fun _ => rfl⟩
    have h1 := sum_set bodyWeight
      (b := ⟨rest, some (w, d, Counter.nextValue (Counter.get s.client.counters w))⟩) hr
    simp only [bodyWeight, Option.toList, List.length_cons, List.length_nil] at h1
    simp only [Loader.weight]
    omega
  -- all the bodies that have started have returned
  have hbody : ∀ i ∈ s.pool.pool.emitted, i < file.length → s.BodyDone i := by
    intro i hi hlt
    have hl1 : i < s.client.threads.length := by rw [hinv.len]; exact hlt
    have hl2 : i < s.unsent.length := by rw [hinv.lenUnsent]; exact hlt
    have e1 := List.getElem?_eq_getElem hl1
    have e2 := List.getElem?_eq_getElem hl2
    refine ⟨?_, ?_⟩
    · generalize s.client.threads[i] = th at e1
      obtain ⟨todo, pending⟩ := th
      cases pending with
      | some x => exact absurd ⟨i, todo, x, e1⟩ hp
      | none =>
        cases todo with
        | nil => exact e1
        | cons x rest => exact absurd ⟨i, x.1, x.2, rest, hi, e1⟩ hr
    · cases ho : s.unsent[i] with
      | nil => rw [e2, ho]
      | cons m out => rw [ho] at e2; exact absurd ⟨i, m, out, e2⟩ hu
  have hstep : ∃ p, ThreadPool.SeqStep some false s.pool p := by
    refine Classical.byContradiction fun hno => hj ?_
    exact (ThreadPool.seq_stuck hinv.pool (fun p h => hno ⟨p, h⟩)).1
  obtain ⟨p, hstep⟩ := hstep
  have hw : p.weight < s.pool.weight := by
    cases hstep with | step h _ => exact ThreadPool.sys_weight_step h
  have hreach := hinv.pool.tail ⟨false, hstep⟩
  refine ⟨_, .pool s false p hstep ?_, by simp only [Loader.weight]; omega, fun _ => rfl, fun _ => rfl⟩
  intro i hi
  by_cases hold : i ∈ s.pool.pool.finished
  · exact hinv.bodies i hold
  · have hpinv := (ThreadPool.seqReachable_inv hreach).1
    have hlt : i < file.length := by
      have h1 := hpinv.pool.tasks.mem_iff (a := i)
      have h2 := hpinv.conserve.mem_iff (a := i)
      have h3 : i ∈ p.pool.accepted := h1.mpr (by simp [hi])
      have h4 := h2.mp (by simp [h3])
      simpa using h4
    refine hbody i ?_ hlt
    have hem := (seq_started hreach).finished i hi
    obtain ⟨act, hst⟩ := seq_pool_step hstep
    generalize p.pool = q at hst hem hi
    cases hst <;> first | exact hem | exact absurd hi hold

/-- Every reachable state leads to the end of the call, without a failed write if the stream is up and
without a successful one if it is down. -/
theorem load_completes {n : Nat} {file : List (Kw × List Index)} (up : Bool) (s : Loader Kw)
    (hs : LoadReachable n file s) :
    ∃ s', Relation.ReflTransGen LoadStep s s' ∧ s'.result = some true ∧ (up = true → s'.lost = s.lost) ∧
      (up = false → s'.sent = s.sent) := by
  induction hm : s.weight using Nat.strongRecOn generalizing s with
  | ind m ih =>
    by_cases hj : s.pool.pool.joiner = .returned
    · exact ⟨s, .refl, by unfold Loader.result; rw [hj], fun _ => rfl, fun _ => rfl⟩
    · obtain ⟨s1, h1, h2, h3, h4⟩ := load_progress (loadReachable_inv hs) hj up
      obtain ⟨s', g1, g2, g3, g4⟩ := ih s1.weight (hm ▸ h2) s1 (hs.tail h1) rfl
      exact ⟨s', .head h1 g1, g2, fun h => (g3 h).trans (h3 h), fun h => (g4 h).trans (h4 h)⟩

end Verif.Runner
