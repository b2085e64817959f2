import Verif.Diana.Props

/-!
# C49: `get_match_count`

`DianaClient::get_match_count` (`/repo/lib/include/sse/schemes/diana/diana_client.hpp` L122-130)
should give the number of documents matching a keyword.  It returns the counter of the keyword,
which is the number of the last insertion, starting from 0.
-/

set_option linter.unusedSectionVars false

namespace Verif.Diana

open Verif

variable {Kw V : Type} [DecidableEq Kw]

namespace Spec

/-- Number of insertions requested for `w` since it was last forgotten, when `n` were requested
before the history. -/
def live (w : Kw) : Nat → List (Op Kw V) → Nat
  | n, [] => n
  | n, .insert v _ :: ops => live w (if v = w then n + 1 else n) ops
  | n, .lost v _ :: ops => live w (if v = w then n + 1 else n) ops
  | n, .search _ :: ops => live w n ops
  | n, .searchDelete _ :: ops => live w n ops
  | n, .searchForget v :: ops => live w (if v = w then 0 else n) ops

end Spec

theorem counters_put_ofNat (m : Map Kw UInt32) (n : Kw → Nat)
    (h : ∀ w, m w = Counter.counterOf (n w)) (v w : Kw) :
    (m.put v (UInt32.ofNat (n v))) w = Counter.counterOf (if v = w then n w + 1 else n w) := by
  by_cases hv : v = w
  · subst hv; simp [Counter.counterOf]
  · rw [Map.put_of_ne _ _ (Ne.symm hv), if_neg hv, h]

/-- The counters after a history. -/
theorem run_counters (c : Crypto Kw V) (ops : List (Op Kw V)) (s s' : Sys Kw V)
    (outs : List (List V)) (n : Kw → Nat) (hs : ∀ w, s.counters w = Counter.counterOf (n w))
    (h : run c s ops = some (s', outs)) (w : Kw) :
    s'.counters w = Counter.counterOf (Spec.live w (n w) ops) := by
  induction ops generalizing s outs n with
  | nil => simp only [run, Option.some.injEq, Prod.mk.injEq] at h; rw [← h.1]; exact hs w
  | cons op ops ih =>
    simp only [run, Option.bind_eq_some_iff, Option.map_eq_some_iff] at h
    obtain ⟨⟨s1, out⟩, h1, ⟨s2, outs2⟩, h2, h3⟩ := h
    simp only [Prod.mk.injEq] at h3
    obtain ⟨rfl, _⟩ := h3
    cases op with
    | insert v i =>
      simp only [step, insertionRequest, Counter.getAndIncrement_spec _ _ _ (hs v),
        Option.some.injEq, Prod.mk.injEq] at h1
      obtain ⟨rfl, _⟩ := h1
      exact ih _ _ (fun w => if v = w then n w + 1 else n w)
        (counters_put_ofNat s.counters n hs v) h2
    | lost v i =>
      simp only [step, insertionRequest, Counter.getAndIncrement_spec _ _ _ (hs v),
        Option.some.injEq, Prod.mk.injEq] at h1
      obtain ⟨rfl, _⟩ := h1
      exact ih _ _ (fun w => if v = w then n w + 1 else n w)
        (counters_put_ofNat s.counters n hs v) h2
    | search v =>
      simp only [step, Option.map_eq_some_iff, Prod.mk.injEq] at h1
      obtain ⟨r, _, rfl, _⟩ := h1
      exact ih { s with edb := r.2 } _ n hs h2
    | searchDelete v =>
      simp only [step, Option.map_eq_some_iff, Prod.mk.injEq] at h1
      obtain ⟨r, _, rfl, _⟩ := h1
      exact ih { s with edb := r.2 } _ n hs h2
    | searchForget v =>
      simp only [step, Option.map_eq_some_iff, Prod.mk.injEq] at h1
      obtain ⟨r, _, rfl, _⟩ := h1
      refine ih _ _ (fun w => if v = w then 0 else n w) ?_ h2
      intro u
      simp only [removeKeyword, Counter.removeKey]
      by_cases hv : v = u
      · subst hv; simp [Counter.counterOf]
      · rw [Map.erase_of_ne _ (Ne.symm hv), if_neg hv, hs]

/-- **C49**: what `get_match_count` returns, after every history: one less than the number of
insertions requested for the keyword since it was forgotten, and 0 if there is none. -/
theorem C49_value (c : Crypto Kw V) (ops : List (Op Kw V)) (s' : Sys Kw V)
    (outs : List (List V)) (h : run c Sys.init ops = some (s', outs)) (w : Kw)
    (hfit : Spec.live w 0 ops ≤ 2 ^ 32) :
    (getMatchCount s'.counters w).toNat = Spec.live w 0 ops - 1 := by
  have := run_counters c ops Sys.init s' outs (fun _ => 0)
    (by intro w; simp [Sys.init, Counter.counterOf]) h w
  unfold getMatchCount Counter.get
  rw [this]
  unfold Counter.counterOf
  by_cases h0 : Spec.live w 0 ops = 0
  · simp [h0]
  · rw [if_neg h0]
    simp only [UInt32.toNat_ofNat']
    omega

theorem live_inserts (H : List (Kw × V)) (w : Kw) (n : Nat) :
    Spec.live w n (H.map (fun e => Op.insert e.1 e.2)) = n + (Spec.docs w H).length := by
  induction H generalizing n with
  | nil => rfl
  | cons e H ih =>
    simp only [List.map_cons, Spec.live]
    by_cases h : e.1 = w
    · simp [ih, Spec.docs, h]; omega
    · simp [ih, Spec.docs, h]

theorem run_inserts (c : Crypto Kw V) (H : List (Kw × V)) (s : Sys Kw V) :
    ∃ s', run c s (H.map (fun e => Op.insert e.1 e.2)) = some (s', []) := by
  induction H generalizing s with
  | nil => exact ⟨s, rfl⟩
  | cons e H ih =>
    obtain ⟨s', h⟩ := ih { counters := (insertionRequest c s.counters e.1 e.2).2,
                           edb := serverInsert s.edb (insertionRequest c s.counters e.1 e.2).1 }
    refine ⟨s', ?_⟩
    simp [run, step, h]

/-- **C49 violated**: `get_match_count` is right only for keywords without documents.  After the
insertions `H` it is the number of documents of `w` (which a search returns, `C07_search_exact`) iff
there is none; otherwise it is one less. -/
theorem C49_violated (c : Crypto Kw V) (H : List (Kw × V)) (w : Kw)
    (hfit : (Spec.docs w H).length ≤ 2 ^ 32) :
    ∃ s', run c Sys.init (H.map (fun e => Op.insert e.1 e.2)) = some (s', []) ∧
      ((getMatchCount s'.counters w).toNat = (Spec.docs w H).length ↔ Spec.docs w H = []) ∧
      (Spec.docs w H ≠ [] →
        (getMatchCount s'.counters w).toNat + 1 = (Spec.docs w H).length) := by
  obtain ⟨s', h⟩ := run_inserts c H Sys.init
  have hl := live_inserts H w 0
  have hv := C49_value c _ s' [] h w (by rw [hl]; omega)
  rw [hl] at hv
  refine ⟨s', h, ?_, ?_⟩
  · rw [hv, ← List.length_eq_zero_iff]; omega
  · intro hne
    have := List.length_pos_iff.mpr hne
    omega

/-- **C49**: a keyword with one document cannot be told from a keyword with none. -/
theorem C49_one_looks_like_none (c : Crypto Kw V) (w : Kw) (i : V) :
    ∃ s', run c Sys.init [.insert w i] = some (s', []) ∧
      getMatchCount s'.counters w = getMatchCount (Sys.init : Sys Kw V).counters w := by
  refine ⟨_, rfl, ?_⟩
  simp [getMatchCount, Counter.get, Counter.nextValue, Sys.init]

/-- Non-vacuity: three insertions for `true`, a fourth after it was forgotten. -/
example : ∃ s', run Toy.crypto Sys.init
    [.insert true 5, .lost true 6, .insert false 1, .insert true 7, .search true] =
      some (s', [[5, 7]]) ∧ (getMatchCount s'.counters true).toNat = 2 := by
  obtain ⟨s', h⟩ := C07_histories Toy.crypto
    [.insert true 5, .lost true 6, .insert false 1, .insert true 7, .search true]
    (by intro w; cases w <;> decide) (Toy.noCollision _ (by intro w; cases w <;> decide))
  exact ⟨s', h, C49_value _ _ s' _ h true (by decide)⟩

end Verif.Diana
