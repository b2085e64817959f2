import Verif.ThreadPool.Lemmas

/-! # Invariants of systems built from thread pools -/

namespace Verif.ThreadPool

variable {α β γ : Type} {f : α → Option β} {g : β → Option γ}

theorem Step.accepted {p p' : Pool α β} {act : Act α β} (h : Step f p act p') :
    p'.accepted = match act with
      | .enqueue a => p.accepted ++ [a]
      | _ => p.accepted := by
  cases h <;> rfl

theorem Step.emitted {p p' : Pool α β} {act : Act α β} (h : Step f p act p') :
    p'.emitted = match act with
      | .emit b => p.emitted ++ [b]
      | _ => p.emitted := by
  cases h <;> rfl

theorem step_joiner {p p' : Pool α β} {act : Act α β} (h : Step f p act p') (hj : act ≠ .join) :
    p'.joiner ≠ .idle → p.joiner ≠ .idle := by
  intro hne hidle
  cases h <;> simp_all

/-- Invariant of the system with one pool. -/
structure SysInv (f : α → Option β) (n : Nat) (Ls : List (List α)) (s : Sys α β) : Prop where
  pool : Inv f s.pool
  len : s.pool.workers.length = n
  conserve : (s.pool.accepted ++ s.rejected ++ s.producers.flatten).Perm Ls.flatten
  rej : s.pool.joiner = .idle → s.rejected = []

theorem flatten_set {l : List (List α)} {t : Nat} {a : α} {rest : List α}
    (h : l[t]? = some (a :: rest)) : l.flatten.Perm (a :: (l.set t rest).flatten) := by
  obtain ⟨pre, post, h1, h2⟩ := Verif.List.set_split h rest
  rw [h2, h1]
  simp only [List.flatten_append, List.flatten_cons, List.cons_append]
  exact List.perm_middle

theorem sysInv_init (n : Nat) (Ls : List (List α)) : SysInv f n Ls (Sys.init n Ls) :=
  ⟨inv_new f n, by simp [Sys.init, Pool.new], by simp [Sys.init, Pool.new], fun _ => rfl⟩

theorem sysInv_step {n : Nat} {Ls : List (List α)} {s s' : Sys α β} {l : Bool}
    (hinv : SysInv f n Ls s) (h : SysStep f l s s') : SysInv f n Ls s' := by
  have other : ∀ (act : Act α β) (p' : Pool α β), Step f s.pool act p' →
      (∀ a, act ≠ .enqueue a) → SysInv f n Ls { s with pool := p' } := by
    intro act p' hp hne
    refine ⟨inv_step hinv.pool hp, by rw [workers_length hp]; exact hinv.len, ?_, ?_⟩
    · have : p'.accepted = s.pool.accepted := by
        rw [hp.accepted]; cases act <;> simp_all
      simpa only [this] using hinv.conserve
    · intro hidle
      apply hinv.rej
      cases hp <;> simp_all
  cases h with
  | produce t a rest p' h hp =>
    refine ⟨inv_step hinv.pool hp, by rw [workers_length hp]; exact hinv.len, ?_, ?_⟩
    · have hacc : p'.accepted = s.pool.accepted ++ [a] := hp.accepted
      simp only [hacc]
      refine List.Perm.trans ?_ hinv.conserve
      have h1 := flatten_set h
      classical
      apply Verif.List.perm_of_count
      intro x
      have := List.perm_iff_count.mp h1 x
      simp [List.count_cons] at this ⊢
      omega
    · intro hidle
      apply hinv.rej
      cases hp; exact hidle
  | reject t a rest p' h hp =>
    have hpp : p' = s.pool := by cases hp; rfl
    subst hpp
    refine ⟨hinv.pool, hinv.len, ?_, ?_⟩
    · refine List.Perm.trans ?_ hinv.conserve
      have h1 := flatten_set h
      classical
      apply Verif.List.perm_of_count
      intro x
      have := List.perm_iff_count.mp h1 x
      simp [List.count_cons] at this ⊢
      omega
    · intro hidle
      have hst : s.pool.stop = true := by cases hp; assumption
      exact absurd hidle (hinv.pool.stopped.mp hst)
  | join p' hp => exact other _ _ hp (by simp)
  | internal p' hp => exact other _ _ hp (by simp)
  | emit b p' hp => exact other _ _ hp (by simp)
  | spurious p' hp => exact other _ _ hp (by simp)

theorem reachable_inv {n : Nat} {Ls : List (List α)} {s : Sys α β} (h : Reachable f n Ls s) :
    SysInv f n Ls s := by
  induction h with
  | refl => exact sysInv_init n Ls
  | tail _ hst ih => obtain ⟨l, hst⟩ := hst; exact sysInv_step ih hst

/-- Bound on the number of steps of the system. -/
def Sys.weight (s : Sys α β) : Nat := 6 * s.producers.flatten.length + s.pool.weight 1

theorem sys_weight_step {s s' : Sys α β} (h : SysStep f false s s') : s'.weight < s.weight := by
  cases h with
  | produce t a rest p' h hp =>
    have h1 := (flatten_set h).length_eq
    have h2 := weight_step 1 hp
    simp only [List.length_cons] at h1
    simp only [Sys.weight] at h2 ⊢
    omega
  | reject t a rest p' h hp =>
    have h1 := (flatten_set h).length_eq
    have h2 : p' = s.pool := by cases hp; rfl
    simp only [List.length_cons] at h1
    simp only [Sys.weight, h2]
    omega
  | join p' hp => have h2 := weight_step 1 hp; simp only [Sys.weight] at h2 ⊢; omega
  | internal p' hp => have h2 := weight_step 1 hp; simp only [Sys.weight] at h2 ⊢; omega
  | emit b p' hp => have h2 := weight_step 1 hp; simp only [Sys.weight] at h2 ⊢; omega

theorem steps_bounded {σ : Type} {R : Bool → σ → σ → Prop} {μ : σ → Nat}
    (hμ : ∀ s s', R false s s' → μ s' < μ s) {k : Nat} {s s' : σ} (h : Steps R k s s') :
    k + μ s' ≤ μ s := by
  induction h with
  | zero => omega
  | succ k s s' s'' h hs ih => have := hμ _ _ hs; omega

/-- Every state leads to a state without further (non-spurious) step. -/
theorem exists_stuck {σ : Type} {R : Bool → σ → σ → Prop} {μ : σ → Nat}
    (hμ : ∀ s s', R false s s' → μ s' < μ s) (s : σ) :
    ∃ s', Relation.ReflTransGen (fun a b => ∃ l, R l a b) s s' ∧ ∀ s'', ¬ R false s' s'' := by
  induction h : μ s using Nat.strongRecOn generalizing s with
  | ind m ih =>
    by_cases hs : ∃ s'', R false s s''
    · obtain ⟨s'', hs⟩ := hs
      obtain ⟨s', h1, h2⟩ := ih (μ s'') (h ▸ hμ s s'' hs) s'' rfl
      exact ⟨s', Relation.ReflTransGen.head ⟨false, hs⟩ h1, h2⟩
    · exact ⟨s, .refl, fun s'' h => hs ⟨s'', h⟩⟩

/-- A state from which no step is possible (spurious wake-ups excluded) is final. -/
theorem sys_stuck {n : Nat} {Ls : List (List α)} {s : Sys α β} (hinv : SysInv f n Ls s)
    (hstuck : ∀ s', ¬ SysStep f false s s') :
    s.pool.joiner = .returned ∧ s.producers.flatten = [] := by
  have hprod : s.producers.flatten = [] := by
    rw [List.flatten_eq_nil_iff]
    intro l hl
    obtain ⟨t, ht⟩ := List.getElem?_of_mem hl
    cases l with
    | nil => rfl
    | cons a rest =>
      exfalso
      cases hs : s.pool.stop with
      | false => exact hstuck _ (.produce t a rest _ ht (.enqueue s.pool a hs))
      | true => exact hstuck _ (.reject t a rest _ ht (.reject s.pool a hs))
  refine ⟨?_, hprod⟩
  by_cases hi : s.pool.joiner = .idle
  · exact absurd (SysStep.join _ (.join s.pool hi)) (hstuck _)
  · by_cases hr : s.pool.joiner = .returned
    · exact hr
    · exfalso
      obtain ⟨p', h | ⟨b, h⟩⟩ := progress_join hinv.pool hi hr
      · exact hstuck _ (.internal p' h)
      · exact hstuck _ (.emit b p' h)

/-! ### Join after the producers -/

/-- Invariant of the sequential discipline: nothing is rejected. -/
def SeqInv (f : α → Option β) (n : Nat) (Ls : List (List α)) (s : Sys α β) : Prop :=
  SysInv f n Ls s ∧ s.rejected = [] ∧ (s.pool.joiner ≠ .idle → s.producers.flatten = [])

theorem seqInv_step {n : Nat} {Ls : List (List α)} {b c : Sys α β} {l : Bool}
    (hi : SeqInv f n Ls b) (hst : SeqStep f l b c) : SeqInv f n Ls c := by
  obtain ⟨hinv, hrej, hj⟩ := hi
  cases hst with
  | step hstep hjoin =>
    refine ⟨sysInv_step hinv hstep, ?_⟩
    have prodNe : ∀ (t : Nat) a rest, b.producers[t]? = some (a :: rest) →
        b.producers.flatten ≠ [] := by
      intro t a rest h h0
      have := flatten_set h
      rw [h0] at this
      simp at this
    cases hstep with
    | produce t a rest p' h hp =>
      refine ⟨hrej, ?_⟩
      intro hne
      have : b.pool.joiner ≠ .idle := by cases hp; exact hne
      exact absurd (hj this) (prodNe t a rest h)
    | reject t a rest p' h hp =>
      exfalso
      have hst : b.pool.stop = true := by cases hp; assumption
      exact prodNe t a rest h (hj (hinv.pool.stopped.mp hst))
    | join p' hp =>
      refine ⟨hrej, ?_⟩
      intro _
      have hidle : b.pool.joiner = .idle := by cases hp; assumption
      have hst : p'.joiner = .stopped := by cases hp; rfl
      rcases hjoin with h | h | h
      · simp [hst, hidle] at h
      · exact absurd hidle h
      · exact List.flatten_eq_nil_iff.mpr h
    | internal p' hp => exact ⟨hrej, fun hne => hj (step_joiner hp (by simp) hne)⟩
    | emit x p' hp => exact ⟨hrej, fun hne => hj (step_joiner hp (by simp) hne)⟩
    | spurious p' hp => exact ⟨hrej, fun hne => hj (step_joiner hp (by simp) hne)⟩

theorem seqReachable_inv {n : Nat} {Ls : List (List α)} {s : Sys α β}
    (h : SeqReachable f n Ls s) : SeqInv f n Ls s := by
  induction h with
  | refl => exact ⟨sysInv_init n Ls, rfl, by simp [Sys.init, Pool.new]⟩
  | tail _ hst ih => obtain ⟨l, hst⟩ := hst; exact seqInv_step ih hst

theorem seq_stuck {n : Nat} {Ls : List (List α)} {s : Sys α β} (h : SeqReachable f n Ls s)
    (hstuck : ∀ s', ¬ SeqStep f false s s') :
    s.pool.joiner = .returned ∧ s.producers.flatten = [] := by
  obtain ⟨hinv, -, hj⟩ := seqReachable_inv h
  have hprod : s.producers.flatten = [] := by
    rw [List.flatten_eq_nil_iff]
    intro l hl
    obtain ⟨t, ht⟩ := List.getElem?_of_mem hl
    cases l with
    | nil => rfl
    | cons a rest =>
      exfalso
      cases hs : s.pool.stop with
      | false =>
        exact hstuck _ (.step (.produce t a rest _ ht (.enqueue s.pool a hs)) (Or.inl rfl))
      | true =>
        exact hstuck _ (.step (.reject t a rest _ ht (.reject s.pool a hs)) (Or.inl rfl))
  refine ⟨?_, hprod⟩
  by_cases hi : s.pool.joiner = .idle
  · refine absurd (SeqStep.step (SysStep.join _ (.join s.pool hi)) ?_) (hstuck _)
    exact Or.inr (Or.inr (List.flatten_eq_nil_iff.mp hprod))
  · by_cases hr : s.pool.joiner = .returned
    · exact hr
    · exfalso
      obtain ⟨p', h | ⟨b, h⟩⟩ := progress_join hinv.pool hi hr
      · exact hstuck _ (.step (.internal p' h) (Or.inr (Or.inl hi)))
      · exact hstuck _ (.step (.emit b p' h) (Or.inr (Or.inl hi)))

/-! ### Pipeline -/

/-- Invariant of the pipeline. -/
structure PipeInv (f : α → Option β) (g : β → Option γ) (nA nB : Nat) (Ls : List (List α))
    (s : Pipe α β γ) : Prop where
  A : Inv f s.A
  B : Inv g s.B
  lenA : s.A.workers.length = nA
  lenB : s.B.workers.length = nB
  conserve : (s.A.accepted ++ s.producers.flatten).Perm Ls.flatten
  link : s.B.accepted = s.A.emitted
  rejA : s.rejA = []
  rejB : s.rejB = []
  joinA : s.A.joiner ≠ .idle → s.producers.flatten = []
  joinB : s.B.joiner ≠ .idle → s.A.joiner = .returned

theorem pipeInv_init (nA nB : Nat) (Ls : List (List α)) :
    PipeInv f g nA nB Ls (Pipe.init nA nB Ls) :=
  ⟨inv_new f nA, inv_new g nB, by simp [Pipe.init, Pool.new], by simp [Pipe.init, Pool.new],
    by simp [Pipe.init, Pool.new], rfl, rfl, rfl, by simp [Pipe.init, Pool.new],
    by simp [Pipe.init, Pool.new]⟩

/-- After `join` has returned nothing moves in the pool, except rejected calls. -/
theorem step_returned {p p' : Pool α β} {act : Act α β} (_hinv : Inv f p)
    (hr : p.joiner = .returned) (h : Step f p act p') : p'.joiner = .returned := by
  cases h <;> simp_all

theorem no_emit_after_return {p p' : Pool α β} {b : β} (hinv : Inv f p)
    (hr : p.joiner = .returned) : ¬ Step f p (.emit b) p' := by
  intro h
  cases h with
  | emit i a b h =>
    have := hinv.returned hr _ (List.mem_of_getElem? h)
    cases this

theorem pipeInv_step {nA nB : Nat} {Ls : List (List α)} {s s' : Pipe α β γ} {l : Bool}
    (hinv : PipeInv f g nA nB Ls s) (h : PipeStep f g l s s') : PipeInv f g nA nB Ls s' := by
  have prodNe : ∀ (t : Nat) a rest, s.producers[t]? = some (a :: rest) → s.producers.flatten ≠ [] := by
    intro t a rest h h0
    have := flatten_set h
    rw [h0] at this
    simp at this
  have stepA : ∀ (act : Act α β) (A' : Pool α β), Step f s.A act A' →
      (act = .internal ∨ act = .spurious) → PipeInv f g nA nB Ls { s with A := A' } := by
    intro act A' hp hact
    have hacc : A'.accepted = s.A.accepted := by
      rw [hp.accepted]; rcases hact with rfl | rfl <;> rfl
    have hem : A'.emitted = s.A.emitted := by
      rw [hp.emitted]; rcases hact with rfl | rfl <;> rfl
    have hne : act ≠ .join := by rcases hact with rfl | rfl <;> simp
    refine ⟨inv_step hinv.A hp, hinv.B, by rw [workers_length hp]; exact hinv.lenA, hinv.lenB, ?_,
      ?_, hinv.rejA, hinv.rejB, ?_, ?_⟩
    · simpa only [hacc] using hinv.conserve
    · simpa only [hem] using hinv.link
    · intro hi; exact hinv.joinA (step_joiner hp hne hi)
    · intro hi; exact step_returned hinv.A (hinv.joinB hi) hp
  have stepB : ∀ (act : Act β γ) (B' : Pool β γ), Step g s.B act B' →
      (act = .internal ∨ act = .spurious ∨ ∃ c, act = .emit c) →
      PipeInv f g nA nB Ls { s with B := B' } := by
    intro act B' hp hact
    have hacc : B'.accepted = s.B.accepted := by
      rw [hp.accepted]; rcases hact with rfl | rfl | ⟨c, rfl⟩ <;> rfl
    have hne : act ≠ .join := by rcases hact with rfl | rfl | ⟨c, rfl⟩ <;> simp
    refine ⟨hinv.A, inv_step hinv.B hp, hinv.lenA, by rw [workers_length hp]; exact hinv.lenB,
      hinv.conserve, ?_, hinv.rejA, hinv.rejB, hinv.joinA, ?_⟩
    · simpa only [hacc] using hinv.link
    · intro hi; exact hinv.joinB (step_joiner hp hne hi)
  cases h with
  | produce t a rest A' h hp =>
    refine ⟨inv_step hinv.A hp, hinv.B, by rw [workers_length hp]; exact hinv.lenA, hinv.lenB, ?_,
      ?_, hinv.rejA, hinv.rejB, ?_, ?_⟩
    · have hacc : A'.accepted = s.A.accepted ++ [a] := hp.accepted
      simp only [hacc]
      refine List.Perm.trans ?_ hinv.conserve
      have h1 := flatten_set h
      classical
      apply Verif.List.perm_of_count
      intro x
      have := List.perm_iff_count.mp h1 x
      simp [List.count_cons] at this ⊢
      omega
    · have : A'.emitted = s.A.emitted := hp.emitted
      simpa only [this] using hinv.link
    · intro hi
      exact absurd (hinv.joinA (step_joiner hp (by simp) hi)) (prodNe t a rest h)
    · intro hi; exact step_returned hinv.A (hinv.joinB hi) hp
  | produceReject t a rest A' h hp =>
    exfalso
    have hst : s.A.stop = true := by cases hp; assumption
    exact prodNe t a rest h (hinv.joinA (hinv.A.stopped.mp hst))
  | internalA A' hp => exact stepA _ _ hp (Or.inl rfl)
  | spuriousA A' hp => exact stepA _ _ hp (Or.inr rfl)
  | post b A' B' hA hB =>
    refine ⟨inv_step hinv.A hA, inv_step hinv.B hB, by rw [workers_length hA]; exact hinv.lenA,
      by rw [workers_length hB]; exact hinv.lenB, ?_, ?_, hinv.rejA, hinv.rejB, ?_, ?_⟩
    · have : A'.accepted = s.A.accepted := hA.accepted
      simpa only [this] using hinv.conserve
    · have h1 : A'.emitted = s.A.emitted ++ [b] := hA.emitted
      have h2 : B'.accepted = s.B.accepted ++ [b] := hB.accepted
      simp only [h1, h2, hinv.link]
    · intro hi; exact hinv.joinA (step_joiner hA (by simp) hi)
    · intro hi
      exact step_returned hinv.A (hinv.joinB (step_joiner hB (by simp) hi)) hA
  | postReject b A' B' hA hB =>
    exfalso
    have hst : s.B.stop = true := by cases hB; assumption
    exact no_emit_after_return hinv.A (hinv.joinB (hinv.B.stopped.mp hst)) hA
  | internalB B' hp => exact stepB _ _ hp (Or.inl rfl)
  | spuriousB B' hp => exact stepB _ _ hp (Or.inr (Or.inl rfl))
  | emitB c B' hp => exact stepB _ _ hp (Or.inr (Or.inr ⟨c, rfl⟩))
  | joinA A' h hp =>
    have hacc : A'.accepted = s.A.accepted := hp.accepted
    have hem : A'.emitted = s.A.emitted := hp.emitted
    refine ⟨inv_step hinv.A hp, hinv.B, by rw [workers_length hp]; exact hinv.lenA, hinv.lenB, ?_,
      ?_, hinv.rejA, hinv.rejB, ?_, ?_⟩
    · simpa only [hacc] using hinv.conserve
    · simpa only [hem] using hinv.link
    · intro _; exact List.flatten_eq_nil_iff.mpr h
    · intro hi; exact step_returned hinv.A (hinv.joinB hi) hp
  | joinB B' h hp =>
    have hacc : B'.accepted = s.B.accepted := hp.accepted
    refine ⟨hinv.A, inv_step hinv.B hp, hinv.lenA, by rw [workers_length hp]; exact hinv.lenB,
      hinv.conserve, ?_, hinv.rejA, hinv.rejB, hinv.joinA, fun _ => h⟩
    simpa only [hacc] using hinv.link

theorem pipeReachable_inv {nA nB : Nat} {Ls : List (List α)} {s : Pipe α β γ}
    (h : PipeReachable f g nA nB Ls s) : PipeInv f g nA nB Ls s := by
  induction h with
  | refl => exact pipeInv_init nA nB Ls
  | tail _ hst ih => obtain ⟨l, hst⟩ := hst; exact pipeInv_step ih hst

/-- Bound on the number of steps of the pipeline. -/
def Pipe.weight (s : Pipe α β γ) : Nat :=
  11 * s.producers.flatten.length + s.A.weight 6 + s.B.weight 1

theorem pipe_weight_step {s s' : Pipe α β γ} (h : PipeStep f g false s s') :
    s'.weight < s.weight := by
  cases h with
  | produce t a rest A' h hp =>
    have h1 := (flatten_set h).length_eq
    have h2 := weight_step 6 hp
    simp only [List.length_cons] at h1
    simp only [Pipe.weight] at h2 ⊢
    omega
  | produceReject t a rest A' h hp =>
    have h1 := (flatten_set h).length_eq
    have h2 : A' = s.A := by cases hp; rfl
    simp only [List.length_cons] at h1
    simp only [Pipe.weight, h2]
    omega
  | internalA A' hp => have h2 := weight_step 6 hp; simp only [Pipe.weight] at h2 ⊢; omega
  | post b A' B' hA hB =>
    have h1 := weight_step 6 hA; have h2 := weight_step 1 hB
    simp only [Pipe.weight] at h1 h2 ⊢; omega
  | postReject b A' B' hA hB =>
    have h1 := weight_step 6 hA
    have h2 : B' = s.B := by cases hB; rfl
    simp only [Pipe.weight, h2] at h1 ⊢; omega
  | internalB B' hp => have h2 := weight_step 1 hp; simp only [Pipe.weight] at h2 ⊢; omega
  | emitB c B' hp => have h2 := weight_step 1 hp; simp only [Pipe.weight] at h2 ⊢; omega
  | joinA A' h hp => have h2 := weight_step 6 hp; simp only [Pipe.weight] at h2 ⊢; omega
  | joinB B' h hp => have h2 := weight_step 1 hp; simp only [Pipe.weight] at h2 ⊢; omega

theorem pipe_stuck {nA nB : Nat} {Ls : List (List α)} {s : Pipe α β γ}
    (hinv : PipeInv f g nA nB Ls s) (hstuck : ∀ s', ¬ PipeStep f g false s s') :
    s.A.joiner = .returned ∧ s.B.joiner = .returned ∧ s.producers.flatten = [] := by
  have hprod : s.producers.flatten = [] := by
    rw [List.flatten_eq_nil_iff]
    intro l hl
    obtain ⟨t, ht⟩ := List.getElem?_of_mem hl
    cases l with
    | nil => rfl
    | cons a rest =>
      exfalso
      cases hs : s.A.stop with
      | false => exact hstuck _ (.produce t a rest _ ht (.enqueue s.A a hs))
      | true => exact hstuck _ (.produceReject t a rest _ ht (.reject s.A a hs))
  have hA : s.A.joiner = .returned := by
    by_cases hi : s.A.joiner = .idle
    · exact absurd (PipeStep.joinA _ (List.flatten_eq_nil_iff.mp hprod) (.join s.A hi)) (hstuck _)
    · by_cases hr : s.A.joiner = .returned
      · exact hr
      · exfalso
        obtain ⟨p', h | ⟨b, h⟩⟩ := progress_join hinv.A hi hr
        · exact hstuck _ (.internalA p' h)
        · cases hs : s.B.stop with
          | false => exact hstuck _ (.post b p' _ h (.enqueue s.B b hs))
          | true => exact hstuck _ (.postReject b p' _ h (.reject s.B b hs))
  refine ⟨hA, ?_, hprod⟩
  by_cases hi : s.B.joiner = .idle
  · exact absurd (PipeStep.joinB _ hA (.join s.B hi)) (hstuck _)
  · by_cases hr : s.B.joiner = .returned
    · exact hr
    · exfalso
      obtain ⟨p', h | ⟨b, h⟩⟩ := progress_join hinv.B hi hr
      · exact hstuck _ (.internalB p' h)
      · exact hstuck _ (.emitB b p' h)

/-- When the main thread is through, every effect has been performed exactly once. -/
theorem pipe_returned {nA nB : Nat} {Ls : List (List α)} {s : Pipe α β γ}
    (hinv : PipeInv f g nA nB Ls s) (hA : 0 < nA) (hB : 0 < nB) (hr : s.B.joiner = .returned) :
    s.B.emitted.Perm ((Ls.flatten.filterMap f).filterMap g) := by
  have hrA : s.A.joiner = .returned := hinv.joinB (by simp [hr])
  have hp : s.producers.flatten = [] := hinv.joinA (by simp [hrA])
  have neA : s.A.workers ≠ [] := by
    intro h; have := hinv.lenA; simp [h] at this; omega
  have neB : s.B.workers ≠ [] := by
    intro h; have := hinv.lenB; simp [h] at this; omega
  obtain ⟨-, eA⟩ := returned_all hinv.A neA hrA
  obtain ⟨-, eB⟩ := returned_all hinv.B neB hr
  have hc := hinv.conserve
  rw [hp, List.append_nil] at hc
  rw [hinv.link] at eB
  exact eB.trans ((eA.trans (hc.filterMap f)).filterMap g)

/-! ### Threads without a pool -/

theorem threads_inv {Ls : List (List α)} {s : Threads α β} (h : ThreadsReachable f Ls s) :
    (s.emitted ++ s.todo.flatten.filterMap f).Perm (Ls.flatten.filterMap f) := by
  induction h with
  | refl => simp
  | tail _ hst ih =>
    cases hst with
    | step t a rest h =>
      rename_i b c
      refine List.Perm.trans ?_ ih
      have h1 := (flatten_set h).filterMap f
      refine List.Perm.trans ?_ (h1.symm.append_left _)
      rw [List.filterMap_cons]
      cases f a <;> simp

end Verif.ThreadPool
