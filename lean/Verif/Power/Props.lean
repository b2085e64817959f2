import Verif.Power.Lemmas

/-!
# C57: after a loss of power

Full statement: after any sequence of insertions and losses of power, on either machine, (a) a search for `w`
returns exactly the documents inserted for `w` whose update the server still has, and (b) no search request
sent before an insertion reveals the update of that insertion.

True if only the server loses writes (`_partial`).  False if the client does: it then uses positions again
that it used before, so that documents are not found, are overwritten, or come back, and an update is
revealed by a search request sent before it (`_violated`).
-/

set_option linter.unusedSectionVars false

namespace Verif.Power

open Verif Verif.Runner.Sess

variable {Kw Seed ST DK : Type} [DecidableEq Kw]

/-! ## What a search returns, exactly -/

/-- **C57**: the results of a search in Sophos, under any losses. -/
theorem C57_sophos_refines (c : Sophos.Crypto Kw Seed ST DK) (g : ST × DK) (ops : List (Op Kw))
    (hfit : ∀ w, (Spec.inserted ops w).length < 2 ^ 32)
    (hnc : Faults.SophosNoCollision c (fun w => (Spec.inserted ops w).length)) (w : Kw) :
    search (sophos c g) ops w = some ((Spec.Slots.run ops).search w).reverse :=
  search_slots (lawful_sophos c g _ hfit hnc) ops (fun _ => Nat.le_refl _) w

/-- **C57**: the results of a search in Diana, under any losses. -/
theorem C57_diana_refines (c : Diana.Crypto Kw Index) (ops : List (Op Kw))
    (hfit : ∀ w, (Spec.inserted ops w).length < 2 ^ 32)
    (hnc : Diana.NoCollision c (fun w => (Spec.inserted ops w).length)) (w : Kw) :
    search (diana c) ops w = some ((Spec.Slots.run ops).search w) :=
  search_slots (lawful_diana c _ hfit hnc) ops (fun _ => Nat.le_refl _) w

/-! ## The property -/

/-- **C57** (a) for Sophos, if the client loses nothing. -/
theorem C57_sophos_partial (c : Sophos.Crypto Kw Seed ST DK) (g : ST × DK) (ops : List (Op Kw))
    (hops : Spec.NoClientLoss ops) (hfit : ∀ w, (Spec.inserted ops w).length < 2 ^ 32)
    (hnc : Faults.SophosNoCollision c (fun w => (Spec.inserted ops w).length)) (w : Kw) :
    search (sophos c g) ops w = some (Spec.stored ops w).reverse := by
  rw [C57_sophos_refines c g ops hfit hnc, ← remembered_stored ops hops, ← List.append_nil ops,
    slots_remembered ops [] hops (by simp [Spec.NoServerLoss]) (by simp [Spec.AllDelivered])]

/-- **C57** (a) for Diana, if the client loses nothing. -/
theorem C57_diana_partial (c : Diana.Crypto Kw Index) (ops : List (Op Kw))
    (hops : Spec.NoClientLoss ops) (hfit : ∀ w, (Spec.inserted ops w).length < 2 ^ 32)
    (hnc : Diana.NoCollision c (fun w => (Spec.inserted ops w).length)) (w : Kw) :
    search (diana c) ops w = some (Spec.stored ops w) := by
  rw [C57_diana_refines c ops hfit hnc, ← remembered_stored ops hops, ← List.append_nil ops,
    slots_remembered ops [] hops (by simp [Spec.NoServerLoss]) (by simp [Spec.AllDelivered])]

/-- **C57** for Sophos: if from the first loss of the client on everything is delivered and the server loses
nothing, a search returns the stored documents that the client remembers, as if those it forgot had never
been inserted. -/
theorem C57_sophos_remembered (c : Sophos.Crypto Kw Seed ST DK) (g : ST × DK) (a b : List (Op Kw))
    (ha : Spec.NoClientLoss a) (hb : Spec.NoServerLoss b) (hd : Spec.AllDelivered b)
    (hfit : ∀ w, (Spec.inserted (a ++ b) w).length < 2 ^ 32)
    (hnc : Faults.SophosNoCollision c (fun w => (Spec.inserted (a ++ b) w).length)) (w : Kw) :
    search (sophos c g) (a ++ b) w = some (Spec.remembered (a ++ b) w).reverse := by
  rw [C57_sophos_refines c g _ hfit hnc, slots_remembered a b ha hb hd]

/-- **C57** for Diana: the same. -/
theorem C57_diana_remembered (c : Diana.Crypto Kw Index) (a b : List (Op Kw))
    (ha : Spec.NoClientLoss a) (hb : Spec.NoServerLoss b) (hd : Spec.AllDelivered b)
    (hfit : ∀ w, (Spec.inserted (a ++ b) w).length < 2 ^ 32)
    (hnc : Diana.NoCollision c (fun w => (Spec.inserted (a ++ b) w).length)) (w : Kw) :
    search (diana c) (a ++ b) w = some (Spec.remembered (a ++ b) w) := by
  rw [C57_diana_refines c _ hfit hnc, slots_remembered a b ha hb hd]

/-- **C57** for Sophos: whatever is lost, a search for `w` returns documents inserted for `w` only. -/
theorem C57_sophos_sound (c : Sophos.Crypto Kw Seed ST DK) (g : ST × DK) (ops : List (Op Kw))
    (hfit : ∀ w, (Spec.inserted ops w).length < 2 ^ 32)
    (hnc : Faults.SophosNoCollision c (fun w => (Spec.inserted ops w).length)) (w : Kw) :
    ∃ r, search (sophos c g) ops w = some r ∧ ∀ i ∈ r, i ∈ Spec.inserted ops w :=
  ⟨_, C57_sophos_refines c g ops hfit hnc w,
    fun i hi => search_inserted ops w i (List.mem_reverse.mp hi)⟩

/-- **C57** for Diana: the same. -/
theorem C57_diana_sound (c : Diana.Crypto Kw Index) (ops : List (Op Kw))
    (hfit : ∀ w, (Spec.inserted ops w).length < 2 ^ 32)
    (hnc : Diana.NoCollision c (fun w => (Spec.inserted ops w).length)) (w : Kw) :
    ∃ r, search (diana c) ops w = some r ∧ ∀ i ∈ r, i ∈ Spec.inserted ops w :=
  ⟨_, C57_diana_refines c ops hfit hnc w, fun i hi => search_inserted ops w i hi⟩

/-- **C57** (b) for Sophos, if the client loses nothing between the search request and the insertion: on a
server that has only the update of the insertion, the search request finds nothing. -/
theorem C57_sophos_forward_partial (c : Sophos.Crypto Kw Seed ST DK) (g : ST × DK) (a b : List (Op Kw))
    (hb : Spec.NoClientLoss b) (w : Kw) (j : Index)
    (hfit : ∀ v, (Spec.inserted (a ++ b) v).length + 1 < 2 ^ 32)
    (hnc : Faults.SophosNoCollision c (fun v => (Spec.inserted (a ++ b) v).length + 1)) (v : Kw) :
    Sophos.search c (Sophos.serverInsert Map.empty (request (sophos c g) (a ++ b) w j))
      (Sophos.searchRequest c g (run (sophos c g) a).cli.cur v) = [] := by
  have hle : ∀ v, (Spec.inserted a v).length ≤ (Spec.inserted (a ++ b) v).length + 1 := fun v => by
    rw [inserted_append, List.length_append]; omega
  have := find_update (lawful_sophos c g _ hfit hnc) (by intro x; cases x <;> rfl) a (a ++ b) w j hle
    (fun v => by omega) (by omega) v
  rw [if_neg (fun h => by have := ups_mono a b hb w; omega)] at this
  exact Option.some.inj this

/-- **C57** (b) for Diana: the same. -/
theorem C57_diana_forward_partial (c : Diana.Crypto Kw Index) (a b : List (Op Kw))
    (hb : Spec.NoClientLoss b) (w : Kw) (j : Index)
    (hfit : ∀ v, (Spec.inserted (a ++ b) v).length + 1 < 2 ^ 32)
    (hnc : Diana.NoCollision c (fun v => (Spec.inserted (a ++ b) v).length + 1)) (v : Kw) :
    (diana c).find (run (diana c) a).cli.cur
      (Diana.serverInsert Map.empty (request (diana c) (a ++ b) w j)) v = some [] := by
  have hle : ∀ v, (Spec.inserted a v).length ≤ (Spec.inserted (a ++ b) v).length + 1 := fun v => by
    rw [inserted_append, List.length_append]; omega
  have := find_update (lawful_diana c _ hfit hnc) (by intro x; rfl) a (a ++ b) w j hle
    (fun v => by omega) (by omega) v
  rwa [if_neg (fun h => by have := ups_mono a b hb w; omega)] at this

/-! ## The client loses a write -/

/-- **C57** (a) is false for Sophos, for every keyword and all documents: after the client loses the last
write, the document is not found though the server has it; the next insertion overwrites it. -/
theorem C57_sophos_violated (c : Sophos.Crypto Kw Seed ST DK) (g : ST × DK) (w : Kw) (i j : Index)
    (hnc : Faults.SophosNoCollision c (fun v => if v = w then 2 else 0)) :
    (search (sophos c g) [.insert w i true, .clientLoss 1] w = some [] ∧
      Spec.stored [.insert w i true, .clientLoss 1] w = [i]) ∧
    search (sophos c g) [.insert w i true, .clientLoss 1, .insert w j true] w = some [j] ∧
      Spec.stored [.insert w i true, .clientLoss 1, .insert w j true] w = [i, j] := by
  have hB : ∀ v, (if v = w then 2 else 0) < 2 ^ 32 := fun v => by split <;> omega
  have L := lawful_sophos c g _ hB hnc
  refine ⟨⟨?_, by simp [Spec.stored, Spec.run, Spec.step, Spec.forget]⟩, ?_,
    by simp [Spec.stored, Spec.run, Spec.step, Spec.forget]⟩
  · rw [search_slots L _ (by intro v; by_cases h : v = w <;> simp [Spec.inserted, h, eq_comm])]
    simp [Spec.Slots.run, Spec.Slots.step, Spec.Slots.search]
  · rw [search_slots L _ (by intro v; by_cases h : v = w <;> simp [Spec.inserted, h, eq_comm])]
    simp [Spec.Slots.run, Spec.Slots.step, Spec.Slots.search, Spec.slot]

/-- **C57** (a) is false for Diana: the same. -/
theorem C57_diana_violated (c : Diana.Crypto Kw Index) (w : Kw) (i j : Index)
    (hnc : Diana.NoCollision c (fun v => if v = w then 2 else 0)) :
    (search (diana c) [.insert w i true, .clientLoss 1] w = some [] ∧
      Spec.stored [.insert w i true, .clientLoss 1] w = [i]) ∧
    search (diana c) [.insert w i true, .clientLoss 1, .insert w j true] w = some [j] ∧
      Spec.stored [.insert w i true, .clientLoss 1, .insert w j true] w = [i, j] := by
  have hB : ∀ v, (if v = w then 2 else 0) < 2 ^ 32 := fun v => by split <;> omega
  have L := lawful_diana c _ hB hnc
  refine ⟨⟨?_, by simp [Spec.stored, Spec.run, Spec.step, Spec.forget]⟩, ?_,
    by simp [Spec.stored, Spec.run, Spec.step, Spec.forget]⟩
  · rw [search_slots L _ (by intro v; by_cases h : v = w <;> simp [Spec.inserted, h, eq_comm])]
    simp [Spec.Slots.run, Spec.Slots.step, Spec.Slots.search]
  · rw [search_slots L _ (by intro v; by_cases h : v = w <;> simp [Spec.inserted, h, eq_comm])]
    simp [Spec.Slots.run, Spec.Slots.step, Spec.Slots.search, Spec.slot]

/-- **C57**, Sophos: a document that was not found any more comes back when a later update is lost. -/
theorem C57_sophos_returns (c : Sophos.Crypto Kw Seed ST DK) (g : ST × DK) (w : Kw) (i j : Index)
    (hnc : Faults.SophosNoCollision c (fun v => if v = w then 2 else 0)) :
    search (sophos c g) [.insert w i true, .clientLoss 1, .insert w j true] w = some [j] ∧
    search (sophos c g) [.insert w i true, .clientLoss 1, .insert w j true, .serverLoss 1] w = some [i] := by
  have hB : ∀ v, (if v = w then 2 else 0) < 2 ^ 32 := fun v => by split <;> omega
  have L := lawful_sophos c g _ hB hnc
  refine ⟨(C57_sophos_violated c g w i j hnc).2.1, ?_⟩
  rw [search_slots L _ (by intro v; by_cases h : v = w <;> simp [Spec.inserted, h, eq_comm])]
  simp [Spec.Slots.run, Spec.Slots.step, Spec.Slots.search, Spec.slot]

/-- **C57**, Diana: the same. -/
theorem C57_diana_returns (c : Diana.Crypto Kw Index) (w : Kw) (i j : Index)
    (hnc : Diana.NoCollision c (fun v => if v = w then 2 else 0)) :
    search (diana c) [.insert w i true, .clientLoss 1, .insert w j true] w = some [j] ∧
    search (diana c) [.insert w i true, .clientLoss 1, .insert w j true, .serverLoss 1] w = some [i] := by
  have hB : ∀ v, (if v = w then 2 else 0) < 2 ^ 32 := fun v => by split <;> omega
  have L := lawful_diana c _ hB hnc
  refine ⟨(C57_diana_violated c w i j hnc).2.1, ?_⟩
  rw [search_slots L _ (by intro v; by_cases h : v = w <;> simp [Spec.inserted, h, eq_comm])]
  simp [Spec.Slots.run, Spec.Slots.step, Spec.Slots.search, Spec.slot]

/-- **C57** (b) is false for Sophos, for every keyword and all documents: the search request sent before the
loss reveals the update of an insertion made after it. -/
theorem C57_sophos_forward_violated (c : Sophos.Crypto Kw Seed ST DK) (g : ST × DK) (w : Kw) (i j : Index)
    (hnc : Faults.SophosNoCollision c (fun v => if v = w then 2 else 0)) :
    Sophos.search c
      (Sophos.serverInsert Map.empty (request (sophos c g) [.insert w i true, .clientLoss 1] w j))
      (Sophos.searchRequest c g (run (sophos c g) [.insert w i true]).cli.cur w) = [j] := by
  have hB : ∀ v, (if v = w then 2 else 0) < 2 ^ 32 := fun v => by split <;> omega
  have := find_update (lawful_sophos c g _ hB hnc) (by intro x; cases x <;> rfl) [.insert w i true]
    [.insert w i true, .clientLoss 1] w j
    (by intro v; by_cases h : v = w <;> simp [Spec.inserted, h, eq_comm])
    (by intro v; by_cases h : v = w <;> simp [Spec.inserted, h, eq_comm]) (by simp [Spec.inserted]) w
  simp only [Spec.Slots.run, Spec.Slots.step, List.foldl_cons, List.foldl_nil, List.drop_succ_cons,
    List.drop_zero, List.count_nil, List.count_cons_self, true_and] at this
  exact Option.some.inj this

/-- **C57** (b) is false for Diana: the same. -/
theorem C57_diana_forward_violated (c : Diana.Crypto Kw Index) (w : Kw) (i j : Index)
    (hnc : Diana.NoCollision c (fun v => if v = w then 2 else 0)) :
    (diana c).find (run (diana c) [.insert w i true]).cli.cur
      (Diana.serverInsert Map.empty (request (diana c) [.insert w i true, .clientLoss 1] w j)) w =
      some [j] := by
  have hB : ∀ v, (if v = w then 2 else 0) < 2 ^ 32 := fun v => by split <;> omega
  have := find_update (lawful_diana c _ hB hnc) (by intro x; rfl) [.insert w i true]
    [.insert w i true, .clientLoss 1] w j
    (by intro v; by_cases h : v = w <;> simp [Spec.inserted, h, eq_comm])
    (by intro v; by_cases h : v = w <;> simp [Spec.inserted, h, eq_comm]) (by simp [Spec.inserted]) w
  simp only [Spec.Slots.run, Spec.Slots.step, List.foldl_cons, List.foldl_nil, List.drop_succ_cons,
    List.drop_zero, List.count_nil, List.count_cons_self, true_and] at this
  exact this

/-! ## The hypotheses can be met -/

/-- Four insertions; the third does not arrive; the server then loses one update and goes on. -/
private def exServer : List (Op Bool) :=
  [.insert true 1 true, .insert false 2 true, .insert true 3 false, .insert true 4 true, .serverLoss 1,
    .insert true 5 true]

example : search (sophos Sophos.Toy.crypto (0, false)) exServer true = some [5, 1] ∧
    Spec.stored exServer true = [1, 5] := by
  constructor
  · have := C57_sophos_partial Sophos.Toy.crypto (0, false) exServer (by simp [Spec.NoClientLoss, exServer])
      (by decide +kernel) (Faults.Toy.sophos_noCollision _ (by decide +kernel)) true
    rw [this]
    decide +kernel
  · decide +kernel

example : search (diana Diana.Toy.crypto) exServer true = some [1, 5] := by
  rw [C57_diana_partial Diana.Toy.crypto exServer (by simp [Spec.NoClientLoss, exServer])
      (by decide +kernel) (Diana.Toy.noCollision _ (by decide +kernel)) true]
  decide +kernel

/-- The client loses two writes, and then one. -/
private def exClient : List (Op Bool) :=
  [.insert true 1 true, .insert true 2 false, .insert true 3 true, .serverLoss 1, .insert false 4 true,
    .clientLoss 2, .insert true 5 true, .insert true 6 true, .clientLoss 1, .insert true 7 true]

example : search (sophos Sophos.Toy.crypto (0, false)) exClient true = some [7, 5, 1] ∧
    Spec.stored exClient true = [1, 5, 6, 7] := by
  constructor
  · have := C57_sophos_remembered Sophos.Toy.crypto (0, false) (exClient.take 5) (exClient.drop 5)
      (by simp [Spec.NoClientLoss, exClient]) (by simp [Spec.NoServerLoss, exClient])
      (by simp [Spec.AllDelivered, exClient])
      (by decide +kernel) (Faults.Toy.sophos_noCollision _ (by decide +kernel)) true
    rw [List.take_append_drop] at this
    rw [this]
    decide +kernel
  · decide +kernel

example : search (diana Diana.Toy.crypto) exClient true = some [1, 5, 7] := by
  have := C57_diana_remembered Diana.Toy.crypto (exClient.take 5) (exClient.drop 5)
      (by simp [Spec.NoClientLoss, exClient]) (by simp [Spec.NoServerLoss, exClient])
      (by simp [Spec.AllDelivered, exClient])
      (by decide +kernel) (Diana.Toy.noCollision _ (by decide +kernel)) true
  rw [List.take_append_drop] at this
  rw [this]
  decide +kernel

example : ∃ r, search (sophos Sophos.Toy.crypto (0, false)) (exClient ++ [.serverLoss 2]) true = some r ∧
    ∀ i ∈ r, i ∈ Spec.inserted (exClient ++ [.serverLoss 2]) true :=
  C57_sophos_sound Sophos.Toy.crypto (0, false) _ (by decide +kernel)
    (Faults.Toy.sophos_noCollision _ (by decide +kernel)) true

example : ∃ r, search (diana Diana.Toy.crypto) (exClient ++ [.serverLoss 2]) true = some r ∧
    ∀ i ∈ r, i ∈ Spec.inserted (exClient ++ [.serverLoss 2]) true :=
  C57_diana_sound Diana.Toy.crypto _ (by decide +kernel) (Diana.Toy.noCollision _ (by decide +kernel)) true

example : search (sophos Sophos.Toy.crypto (0, false)) (exClient ++ [.serverLoss 2]) true =
    some [5, 1] :=
  (C57_sophos_refines Sophos.Toy.crypto (0, false) _ (by decide +kernel)
    (Faults.Toy.sophos_noCollision _ (by decide +kernel)) true).trans (by decide +kernel)

example : search (diana Diana.Toy.crypto) (exClient ++ [.serverLoss 2]) true = some [1, 5] :=
  (C57_diana_refines Diana.Toy.crypto _ (by decide +kernel)
    (Diana.Toy.noCollision _ (by decide +kernel)) true).trans (by decide +kernel)

example : Sophos.search Sophos.Toy.crypto (Sophos.serverInsert Map.empty
      (request (sophos Sophos.Toy.crypto (0, false)) (exServer.take 3 ++ exServer.drop 3) true 9))
    (Sophos.searchRequest Sophos.Toy.crypto (0, false)
      (run (sophos Sophos.Toy.crypto (0, false)) (exServer.take 3)).cli.cur true) = [] :=
  C57_sophos_forward_partial Sophos.Toy.crypto (0, false) (exServer.take 3) (exServer.drop 3)
    (by simp [Spec.NoClientLoss, exServer]) true 9 (by decide +kernel)
    (Faults.Toy.sophos_noCollision _ (by decide +kernel)) true

example : (diana Diana.Toy.crypto).find (run (diana Diana.Toy.crypto) (exServer.take 3)).cli.cur
    (Diana.serverInsert Map.empty
      (request (diana Diana.Toy.crypto) (exServer.take 3 ++ exServer.drop 3) true 9)) true = some [] :=
  C57_diana_forward_partial Diana.Toy.crypto (exServer.take 3) (exServer.drop 3)
    (by simp [Spec.NoClientLoss, exServer]) true 9 (by decide +kernel)
    (Diana.Toy.noCollision _ (by decide +kernel)) true

example := C57_sophos_violated Sophos.Toy.crypto (0, false) true 1 2
  (Faults.Toy.sophos_noCollision _ (by decide +kernel))
example := C57_diana_violated Diana.Toy.crypto true 1 2 (Diana.Toy.noCollision _ (by decide +kernel))
example := C57_sophos_returns Sophos.Toy.crypto (0, false) true 1 2
  (Faults.Toy.sophos_noCollision _ (by decide +kernel))
example := C57_diana_returns Diana.Toy.crypto true 1 2 (Diana.Toy.noCollision _ (by decide +kernel))
example := C57_sophos_forward_violated Sophos.Toy.crypto (0, false) true 1 2
  (Faults.Toy.sophos_noCollision _ (by decide +kernel))
example := C57_diana_forward_violated Diana.Toy.crypto true 1 2
  (Diana.Toy.noCollision _ (by decide +kernel))

end Verif.Power
