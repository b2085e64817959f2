import Verif.Ideal.RandomPerm
import Verif.Ideal.SophosAdaptive
import Verif.Ideal.SophosKeys
import Verif.Ideal.Uniform

/-!
# Sophos with a random permutation: C78, C79, C80, C81, C82

The trapdoor permutation is uniformly chosen among all permutations of the search tokens, and the bounds need no hypothesis on its
cycles. Observers know the permutation and its inverse: strategies and events depend on it.
-/

namespace Verif.Ideal.Sophos

open Verif Verif.Sophos Verif.Leak

variable {Kw Seed ST DK : Type} [DecidableEq Kw]

/-- The term for `k` first search tokens on cycles shorter than `n` -/
noncomputable def cycleBound (ST : Type) [Fintype ST] (k n : Nat) : ℚ := k * ((n : ℚ) / (Fintype.card ST - n))

/-- The bound of C78 with a random permutation -/
noncomputable def randomBound [Fintype Seed] [Fintype DK] (ST : Type) [Fintype ST] (H : List (Kw × Index)) (n : Nat) : ℚ :=
  let k := (keywords H).card
  (k.choose 2 : ℚ) / Fintype.card Seed + cycleBound ST k n + (k.choose 2 : ℚ) / Fintype.card DK + (H.length.choose 2 : ℚ) / 256 ^ 16

/-- The bound of C79 and C82 with a random permutation -/
noncomputable def randomHiding (Seed DK ST : Type) [Fintype Seed] [Fintype DK] [Fintype ST] (k n : Nat) : ℚ :=
  (k.choose 2 : ℚ) / Fintype.card Seed + cycleBound ST k n + (k.choose 2 : ℚ) / Fintype.card DK

/-- The bound of C81 with a random permutation -/
noncomputable def randomDict (Seed DK ST : Type) [Fintype Seed] [Fintype DK] [Fintype ST] (k n : Nat) : ℚ :=
  (k.choose 2 : ℚ) / Fintype.card Seed + cycleBound ST k n + (k.choose 2 : ℚ) / Fintype.card DK + ((k * n).choose 2 : ℚ) / 256 ^ 16

variable [Fintype Seed] [Fintype ST] [Fintype DK] [DecidableEq Seed] [DecidableEq ST] [DecidableEq DK]

omit [DecidableEq Seed] [DecidableEq DK] in
theorem average_randomBound (H : List (Kw × Index)) (n : Nat) (hN : n < Fintype.card ST) :
    (∑ π : Equiv.Perm ST, bound (Seed := Seed) (DK := DK) (ofPerm π) H n) / Fintype.card (Equiv.Perm ST) ≤
      randomBound (Seed := Seed) (DK := DK) ST H n := by
  have h := average_bound (ST := ST) (((keywords H).card.choose 2 : ℚ) / Fintype.card Seed) (keywords H).card
    (((keywords H).card.choose 2 : ℚ) / Fintype.card DK + (H.length.choose 2 : ℚ) / 256 ^ 16) (by positivity) n hN
  unfold bound randomBound cycleBound
  simp only [← add_assoc] at h ⊢
  exact h

omit [DecidableEq Seed] [DecidableEq DK] in
theorem average_randomHiding (k n : Nat) (hN : n < Fintype.card ST) :
    (∑ π : Equiv.Perm ST, hidingBound Seed DK (ofPerm π) k n) / Fintype.card (Equiv.Perm ST) ≤ randomHiding Seed DK ST k n :=
  average_bound (ST := ST) ((k.choose 2 : ℚ) / Fintype.card Seed) k ((k.choose 2 : ℚ) / Fintype.card DK) (by positivity) n hN

omit [DecidableEq Seed] [DecidableEq DK] in
theorem average_randomDict (k n : Nat) (hN : n < Fintype.card ST) :
    (∑ π : Equiv.Perm ST, dictBound Seed DK (ofPerm π) k n) / Fintype.card (Equiv.Perm ST) ≤ randomDict Seed DK ST k n := by
  have h := average_bound (ST := ST) ((k.choose 2 : ℚ) / Fintype.card Seed) k
    ((k.choose 2 : ℚ) / Fintype.card DK + ((k * n).choose 2 : ℚ) / 256 ^ 16) (by positivity) n hN
  unfold dictBound randomDict cycleBound
  simp only [← add_assoc] at h ⊢
  exact h

/-- **C78**, Sophos: with random functions and a random permutation, a history of insertions and searches gives a wrong result with a
probability of at most `randomBound`. -/
theorem C78_sophos_random {U : Finset Kw} (g : Kw → Seed) (garbage : ST × DK) (ops : List (Op Kw)) (n : Nat)
    (hN : n < Fintype.card ST) (hn32 : n < 2 ^ 32) (hU : keywords (Spec.insertions ops) ⊆ U)
    (hn : ∀ w, (Spec.docs w (Spec.insertions ops)).length ≤ n) :
    prob (fun x : Equiv.Perm ST × Choice U Seed ST DK =>
      (run (crypto (ofPerm x.1) g x.2) garbage Sys.init ops).2 ≠ Spec.run [] ops) ≤
      randomBound (Seed := Seed) (DK := DK) ST (Spec.insertions ops) n :=
  average_le (fun (π : Equiv.Perm ST) (ω : Choice U Seed ST DK) => (run (crypto (ofPerm π) g ω) garbage Sys.init ops).2 ≠ Spec.run [] ops)
    _ (fun π => C78_sophos_search (ofPerm π) g garbage ops n hn32 hU hn) (average_randomBound _ n hN)

/-- **C78**, Sophos, random permutation: the same when only some of the updates reach the server, in any order. -/
theorem C78_sophos_random_delivered {U : Finset Kw} (g : Kw → Seed) (garbage : ST × DK) (H : List (Kw × Index)) (D : List Nat)
    (n : Nat) (hN : n < Fintype.card ST) (hU : keywords H ⊆ U) (hn32 : n < 2 ^ 32) (hn : ∀ w, (Spec.docs w H).length ≤ n) :
    prob (fun x : Equiv.Perm ST × Choice U Seed ST DK => ∃ w, search (crypto (ofPerm x.1) g x.2) (deliver (crypto (ofPerm x.1) g x.2) H D)
      (searchRequest (crypto (ofPerm x.1) g x.2) garbage (clientRun (crypto (ofPerm x.1) g x.2) Map.empty H).2 w) ≠
        Spec.expectedDelivered w H D) ≤
      randomBound (Seed := Seed) (DK := DK) ST H n :=
  average_le (fun (π : Equiv.Perm ST) (ω : Choice U Seed ST DK) => ∃ w, search (crypto (ofPerm π) g ω) (deliver (crypto (ofPerm π) g ω) H D)
      (searchRequest (crypto (ofPerm π) g ω) garbage (clientRun (crypto (ofPerm π) g ω) Map.empty H).2 w) ≠ Spec.expectedDelivered w H D)
    _ (fun π => C78_sophos_delivered (ofPerm π) g garbage H D n hU hn32 hn) (average_randomBound _ n hN)

/-- **C79** (Sophos), random permutation: two histories with the same leakage are distinguished with an advantage of at most the sum of
the bounds, also by an observer who knows the permutation and its inverse. -/
theorem C79_sophos_random {U : Finset Kw} (g : Kw → Seed) (garbage : ST × DK)
    (H H' : List (Cmd Kw Index)) (n n' : Nat) (hN : n < Fintype.card ST) (hN' : n' < Fintype.card ST) (hleak : leak H = leak H')
    (hU : cmdKeywords H ⊆ U) (hU' : cmdKeywords H' ⊆ U)
    (hn32 : n < 2 ^ 32) (hn32' : n' < 2 ^ 32) (hn : ∀ w, count w H ≤ n) (hn' : ∀ w, count w H' ≤ n')
    (E : Equiv.Perm ST → List (Msg Token Index (SearchReq ST DK) × List (Token × Token)) → Prop) :
    |prob (fun x : Equiv.Perm ST × Choice U Seed ST DK => E x.1 (view (crypto (ofPerm x.1) g x.2) garbage H)) -
        prob (fun x : Equiv.Perm ST × Choice U Seed ST DK => E x.1 (view (crypto (ofPerm x.1) g x.2) garbage H'))| ≤
      randomHiding Seed DK ST (cmdKeywords H).card n + randomHiding Seed DK ST (cmdKeywords H').card n' := by
  refine average_dist (fun (π : Equiv.Perm ST) (ω : Choice U Seed ST DK) => E π (view (crypto (ofPerm π) g ω) garbage H))
    (fun π ω => E π (view (crypto (ofPerm π) g ω) garbage H'))
    _ (fun π => C79_sophos (ofPerm π) g garbage H H' n n' hleak hU hU' hn32 hn32' hn hn' (E π)) ?_
  rw [Finset.sum_add_distrib, add_div]
  exact add_le_add (average_randomHiding _ n hN) (average_randomHiding _ n' hN')

/-- **C80** (Sophos), random permutation: searches are exact except with small probability, with the two random keys. -/
theorem C80_sophos_random {Z X Y : Type} [Fintype Z] [Nonempty Z] [Fintype X] [Fintype Y] {U : Finset Kw} (a : Z ≃ DK × X) (b : Z ≃ ST × Y)
    (g : Kw → Seed) (garbage : ST × DK) (ops : List (Op Kw)) (n : Nat) (hN : n < Fintype.card ST) (hn32 : n < 2 ^ 32)
    (hU : keywords (Spec.insertions ops) ⊆ U) (hn : ∀ w, (Spec.docs w (Spec.insertions ops)).length ≤ n) :
    prob (fun x : Equiv.Perm ST × Keyed U Seed ST DK Z =>
      (run (crypto (ofPerm x.1) g (keyed a b x.2)) garbage Sys.init ops).2 ≠ Spec.run [] ops) ≤
      randomBound (Seed := Seed) (DK := DK) ST (Spec.insertions ops) n + 1 / 256 ^ 32 := by
  refine average_le (fun (π : Equiv.Perm ST) (x : Keyed U Seed ST DK Z) =>
      (run (crypto (ofPerm π) g (keyed a b x)) garbage Sys.init ops).2 ≠ Spec.run [] ops)
    _ (fun π => C80_sophos_search a b (ofPerm π) g garbage ops n hn32 hU hn) ?_
  have hp : (0 : ℚ) < Fintype.card (Equiv.Perm ST) := by exact_mod_cast Fintype.card_pos
  rw [Finset.sum_add_distrib, add_div, Finset.sum_const, Finset.card_univ, nsmul_eq_mul, mul_div_cancel_left₀ _ hp.ne']
  exact add_le_add_left (average_randomBound _ n hN) _

/-- **C81**, Sophos, random permutation: the probability that some history over the dictionary is answered wrongly. -/
theorem C81_sophos_random_search {U : Finset Kw} (g : Kw → Seed) (W : Finset Kw) (hU : W ⊆ U) (n : Nat) (hN : n < Fintype.card ST)
    (hn32 : n < 2 ^ 32) :
    prob (fun x : Equiv.Perm ST × Choice U Seed ST DK => ∃ (garbage : ST × DK) (ops : List (Op Kw)),
      (∀ w, (Spec.docs w (Spec.insertions ops)).length ≤ quota W n w) ∧
      (run (crypto (ofPerm x.1) g x.2) garbage Sys.init ops).2 ≠ Spec.run [] ops) ≤ randomDict Seed DK ST W.card n :=
  average_le (fun (π : Equiv.Perm ST) (ω : Choice U Seed ST DK) => ∃ (garbage : ST × DK) (ops : List (Op Kw)),
      (∀ w, (Spec.docs w (Spec.insertions ops)).length ≤ quota W n w) ∧
      (run (crypto (ofPerm π) g ω) garbage Sys.init ops).2 ≠ Spec.run [] ops)
    _ (fun π => C81_sophos_search (ofPerm π) g W hU n hn32) (average_randomDict _ n hN)

/-- **C81**, Sophos, random permutation: the same under failures of RocksDB (C50). -/
theorem C81_sophos_random_faults {U : Finset Kw} (g : Kw → Seed) (W : Finset Kw) (hU : W ⊆ U) (n : Nat) (hN : n < Fintype.card ST)
    (hn32 : n < 2 ^ 32) :
    prob (fun x : Equiv.Perm ST × Choice U Seed ST DK => ∃ (garbage : ST × DK) (ops : List (Faults.Op Kw Index)),
      (∀ w, Faults.Spec.attempts w ops ≤ quota W n w) ∧
      Faults.sophosRun (crypto (ofPerm x.1) g x.2) garbage Sys.init ops ≠ Faults.Spec.Slots.init.run Faults.Spec.newestFirst ops) ≤
      randomDict Seed DK ST W.card n :=
  average_le (fun (π : Equiv.Perm ST) (ω : Choice U Seed ST DK) => ∃ (garbage : ST × DK) (ops : List (Faults.Op Kw Index)),
      (∀ w, Faults.Spec.attempts w ops ≤ quota W n w) ∧
      Faults.sophosRun (crypto (ofPerm π) g ω) garbage Sys.init ops ≠ Faults.Spec.Slots.init.run Faults.Spec.newestFirst ops)
    _ (fun π => C81_sophos_faults (ofPerm π) g W hU n hn32) (average_randomDict _ n hN)

/-- **C81**, Sophos, random permutation: the same under loss of power (C57). -/
theorem C81_sophos_random_power {U : Finset Kw} (g : Kw → Seed) (W : Finset Kw) (hU : W ⊆ U) (n : Nat) (hN : n < Fintype.card ST)
    (hn32 : n < 2 ^ 32) :
    prob (fun x : Equiv.Perm ST × Choice U Seed ST DK => ∃ (garbage : ST × DK) (ops : List (Power.Op Kw)) (w : Kw),
      (∀ w, (Power.Spec.inserted ops w).length ≤ quota W n w) ∧
      Power.search (Runner.Sess.sophos (crypto (ofPerm x.1) g x.2) garbage) ops w ≠ some ((Power.Spec.Slots.run ops).search w).reverse) ≤
      randomDict Seed DK ST W.card n :=
  average_le (fun (π : Equiv.Perm ST) (ω : Choice U Seed ST DK) => ∃ (garbage : ST × DK) (ops : List (Power.Op Kw)) (w : Kw),
      (∀ w, (Power.Spec.inserted ops w).length ≤ quota W n w) ∧
      Power.search (Runner.Sess.sophos (crypto (ofPerm π) g ω) garbage) ops w ≠ some ((Power.Spec.Slots.run ops).search w).reverse)
    _ (fun π => C81_sophos_power (ofPerm π) g W hU n hn32) (average_randomDict _ n hN)

/-- **C81**, Sophos, random permutation: the same for the searches of any number of clients over the network (C56). -/
theorem C81_sophos_random_session {U : Finset Kw} (g : Kw → Seed) (W : Finset Kw) (hU : W ⊆ U) (n : Nat) (hN : n < Fintype.card ST)
    (hn32 : n < 2 ^ 32) :
    prob (fun x : Equiv.Perm ST × Choice U Seed ST DK => ∃ (garbage : ST × DK) (acts : List (Runner.Sess.Act Kw))
        (p q : List (Runner.Sess.Event Kw)) (m : Nat) (w : Kw) (r : Option (List Index)),
      ((Runner.Sess.init (Runner.Sess.sophos (crypto (ofPerm x.1) g x.2) garbage)).run acts).trace = p ++ .found m w r :: q ∧
      (∀ v, (Spec.docs v (Runner.Sess.hist p)).length ≤ quota W n v) ∧
      r ≠ some (Runner.Sess.storedDocs w p).reverse) ≤
      randomDict Seed DK ST W.card n :=
  average_le (fun (π : Equiv.Perm ST) (ω : Choice U Seed ST DK) => ∃ (garbage : ST × DK) (acts : List (Runner.Sess.Act Kw))
        (p q : List (Runner.Sess.Event Kw)) (m : Nat) (w : Kw) (r : Option (List Index)),
      ((Runner.Sess.init (Runner.Sess.sophos (crypto (ofPerm π) g ω) garbage)).run acts).trace = p ++ .found m w r :: q ∧
      (∀ v, (Spec.docs v (Runner.Sess.hist p)).length ≤ quota W n v) ∧
      r ≠ some (Runner.Sess.storedDocs w p).reverse)
    _ (fun π => C81_sophos_session (ofPerm π) g W hU n hn32) (average_randomDict _ n hN)

/-- **C82** (Sophos), random permutation: a strategy that knows the permutation and its inverse and sees what the server sees finds out
which of two histories with the same leakage is executed with an advantage of at most the bound for the dictionary. -/
theorem C82_sophos_random [Nonempty Seed] [Nonempty ST] [Nonempty DK] {U : Finset Kw} (g : Kw → Seed) (garbage : ST × DK)
    (W : Finset Kw) (hU : W ⊆ U) (n : Nat) (hN : n < Fintype.card ST) (hn32 : n < 2 ^ 32)
    (σ : Equiv.Perm ST → List (Msg Token Index (SearchReq ST DK) × List (Token × Token)) → Option (Cmd Kw Index × Cmd Kw Index))
    (steps : Nat) (E : Equiv.Perm ST → List (Msg Token Index (SearchReq ST DK) × List (Token × Token)) → Prop) :
    |prob (fun x : Equiv.Perm ST × Choice U Seed ST DK => E x.1 (view (crypto (ofPerm x.1) g x.2) garbage ((play (Rules W n) (σ x.1)
          (fun P => view (crypto (ofPerm x.1) g x.2) garbage (P.map Prod.fst)) steps).map Prod.fst))) -
        prob (fun x : Equiv.Perm ST × Choice U Seed ST DK => E x.1 (view (crypto (ofPerm x.1) g x.2) garbage ((play (Rules W n) (σ x.1)
          (fun P => view (crypto (ofPerm x.1) g x.2) garbage (P.map Prod.snd)) steps).map Prod.snd)))| ≤
      randomHiding Seed DK ST W.card n :=
  average_dist (fun (π : Equiv.Perm ST) (ω : Choice U Seed ST DK) => E π (view (crypto (ofPerm π) g ω) garbage ((play (Rules W n) (σ π)
          (fun P => view (crypto (ofPerm π) g ω) garbage (P.map Prod.fst)) steps).map Prod.fst)))
    (fun π ω => E π (view (crypto (ofPerm π) g ω) garbage ((play (Rules W n) (σ π)
          (fun P => view (crypto (ofPerm π) g ω) garbage (P.map Prod.snd)) steps).map Prod.snd)))
    _ (fun π => C82_sophos (ofPerm π) g garbage W hU n hn32 (σ π) steps (E π)) (average_randomHiding _ n hN)

omit [DecidableEq Kw] in
/-- With keyword indices of 16 bytes, derivation keys of 32 bytes, search tokens of 256 bytes, a million keywords with a thousand insertions each, the
bound of C81 is below `2^-68`. -/
theorem C81_sophos_random_number :
    randomDict (Vector UInt8 16) (Vector UInt8 32) (Vector UInt8 256) (2 ^ 20) (2 ^ 10) < 1 / 2 ^ 68 := by
  unfold randomDict cycleBound
  rw [card_bytes, card_bytes, card_bytes, Nat.choose_two_right, Nat.choose_two_right]
  norm_num

/-- With a million keywords with at most four billion insertions each, the bound of C82 is below `2^-88`. -/
theorem C82_sophos_random_number :
    randomHiding (Vector UInt8 16) (Vector UInt8 32) (Vector UInt8 256) (2 ^ 20) (2 ^ 32 - 1) < 1 / 2 ^ 88 := by
  unfold randomHiding cycleBound
  rw [card_bytes, card_bytes, card_bytes, Nat.choose_two_right]
  norm_num

/-! ## Instances -/

/-- The hypotheses of C78 hold for the history of the example there. -/
example :
    prob (fun x : Equiv.Perm (Vector UInt8 256) × Choice (Finset.range 10) (Vector UInt8 16) (Vector UInt8 256) (Vector UInt8 32) =>
      (run (crypto (ofPerm x.1) (fun _ : Nat => Vector.replicate 16 0) x.2) (Vector.replicate 256 0, Vector.replicate 32 0) Sys.init sampleOps).2 ≠
        [[5], [7, 5]]) ≤ randomBound (Seed := Vector UInt8 16) (DK := Vector UInt8 32) (Vector UInt8 256) (Spec.insertions sampleOps) 3 := by
  have h := C78_sophos_random (U := Finset.range 10) (fun _ : Nat => (Vector.replicate 16 0 : Vector UInt8 16))
    ((Vector.replicate 256 0 : Vector UInt8 256), (Vector.replicate 32 0 : Vector UInt8 32)) sampleOps 3 (by rw [card_bytes]; norm_num)
    (by decide) (by decide) (fun w => le_trans (List.length_map _).le (le_trans (List.length_filter_le _ _) (by decide)))
  rwa [show Spec.run [] sampleOps = [[5], [7, 5]] by decide] at h

/-- The hypotheses of C79 hold for the histories of the example there, and an event that depends on the permutation. -/
example (E : Equiv.Perm (Vector UInt8 256) → List (Msg Token Index (SearchReq (Vector UInt8 256) (Vector UInt8 32)) × List (Token × Token)) → Prop) :
    |prob (fun x : Equiv.Perm (Vector UInt8 256) × Choice (Finset.range 10) (Vector UInt8 16) (Vector UInt8 256) (Vector UInt8 32) =>
        E x.1 (view (crypto (ofPerm x.1) (fun _ : Nat => Vector.replicate 16 0) x.2) (Vector.replicate 256 0, Vector.replicate 32 0) sample)) -
      prob (fun x : Equiv.Perm (Vector UInt8 256) × Choice (Finset.range 10) (Vector UInt8 16) (Vector UInt8 256) (Vector UInt8 32) =>
        E x.1 (view (crypto (ofPerm x.1) (fun _ : Nat => Vector.replicate 16 0) x.2) (Vector.replicate 256 0, Vector.replicate 32 0) sample'))| ≤
      randomHiding (Vector UInt8 16) (Vector UInt8 32) (Vector UInt8 256) (cmdKeywords sample).card 3 +
        randomHiding (Vector UInt8 16) (Vector UInt8 32) (Vector UInt8 256) (cmdKeywords sample').card 3 :=
  C79_sophos_random (U := Finset.range 10) (fun _ : Nat => (Vector.replicate 16 0 : Vector UInt8 16))
    ((Vector.replicate 256 0 : Vector UInt8 256), (Vector.replicate 32 0 : Vector UInt8 32)) sample sample' 3 3
    (by rw [card_bytes]; norm_num) (by rw [card_bytes]; norm_num) (by decide) (by decide) (by decide) (by decide) (by decide)
    (fun w => count_le w _) (fun w => count_le w _) E

/-- The advantage of the strategy of C82 is negligible. -/
example (E : Equiv.Perm (Vector UInt8 256) → List (Msg Token Index (SearchReq (Vector UInt8 256) (Vector UInt8 32)) × List (Token × Token)) → Prop) :
    |prob (fun x : Equiv.Perm (Vector UInt8 256) × Choice (Finset.range 10) (Vector UInt8 16) (Vector UInt8 256) (Vector UInt8 32) =>
        E x.1 (view (crypto (ofPerm x.1) (fun _ : Nat => Vector.replicate 16 0) x.2) (Vector.replicate 256 0, Vector.replicate 32 0)
          ((play (Rules (Finset.range 10) 3) sampleStrategy (fun P => view (crypto (ofPerm x.1) (fun _ : Nat => Vector.replicate 16 0) x.2)
            (Vector.replicate 256 0, Vector.replicate 32 0) (P.map Prod.fst)) 3).map Prod.fst))) -
      prob (fun x : Equiv.Perm (Vector UInt8 256) × Choice (Finset.range 10) (Vector UInt8 16) (Vector UInt8 256) (Vector UInt8 32) =>
        E x.1 (view (crypto (ofPerm x.1) (fun _ : Nat => Vector.replicate 16 0) x.2) (Vector.replicate 256 0, Vector.replicate 32 0)
          ((play (Rules (Finset.range 10) 3) sampleStrategy (fun P => view (crypto (ofPerm x.1) (fun _ : Nat => Vector.replicate 16 0) x.2)
            (Vector.replicate 256 0, Vector.replicate 32 0) (P.map Prod.snd)) 3).map Prod.snd)))| ≤
      randomHiding (Vector UInt8 16) (Vector UInt8 32) (Vector UInt8 256) (Finset.range 10).card 3 :=
  have : Nonempty (Vector UInt8 256) := ⟨Vector.replicate 256 0⟩
  have : Nonempty (Vector UInt8 32) := ⟨Vector.replicate 32 0⟩
  have : Nonempty (Vector UInt8 16) := ⟨Vector.replicate 16 0⟩
  C82_sophos_random (U := Finset.range 10) (fun _ : Nat => (Vector.replicate 16 0 : Vector UInt8 16))
    ((Vector.replicate 256 0 : Vector UInt8 256), (Vector.replicate 32 0 : Vector UInt8 32)) (Finset.range 10) (Finset.Subset.refl _) 3
    (by rw [card_bytes]; norm_num) (by decide) (fun _ => sampleStrategy) 3 E

end Verif.Ideal.Sophos
