import Verif.Runner.Message

/-!
# C42: conversion of received messages

The conversions stay inside their arrays exactly when no token is too long and the derivation key is not too
short, which nothing checks.
-/

namespace Verif.Runner

/-! ## Lemmas -/

/-- The array after the copy -/
def filled {n : Nat} (s : List UInt8) (pos : Nat) (b : Buffer n) : Buffer n :=
  Vector.ofFn fun i => if pos ≤ i.val then (match s[i.val - pos]? with | some x => some x | none => b[i]) else b[i]

theorem copyAt_eq {n : Nat} (s : List UInt8) : ∀ (pos : Nat) (b : Buffer n), copyAt s pos b =
    if pos + s.length ≤ n ∨ s = [] then .ok (filled s pos b) else .error .writeOutside := by
  induction s with
  | nil =>
    intro pos b
    simp only [copyAt, or_true, if_true]
    congr 1
    ext i hi
    simp [filled]
  | cons x rest ih =>
    intro pos b
    unfold copyAt
    by_cases h : pos < n
    · rw [dif_pos h, ih]
      by_cases h2 : pos + 1 + rest.length ≤ n ∨ rest = []
      · have h3 : pos + (x :: rest).length ≤ n ∨ x :: rest = [] := by
          left
          rcases h2 with h2 | rfl
          · simp only [List.length_cons]; omega
          · simp; omega
        rw [if_pos h2, if_pos h3]
        congr 1
        ext1 i hi
        simp only [filled, Vector.getElem_ofFn, Fin.getElem_fin]
        by_cases h4 : pos + 1 ≤ i
        · have h5 : i - pos = (i - (pos + 1)) + 1 := by omega
          rw [if_pos h4, if_pos (by omega), h5, List.getElem?_cons_succ]
          rw [Vector.getElem_set_ne _ _ (by omega)]
        · rw [if_neg h4]
          by_cases h6 : pos = i
          · subst h6
            simp
          · rw [Vector.getElem_set_ne _ _ h6, if_neg (by omega)]
      · have h3 : ¬ (pos + (x :: rest).length ≤ n ∨ x :: rest = []) := by
          simp only [List.length_cons, reduceCtorEq, or_false] at *
          intro h; exact h2 (Or.inl (by omega))
        rw [if_neg h2, if_neg h3]
    · rw [dif_neg h, if_neg]
      simp; omega

theorem copyAll_eq {n : Nat} (s : List UInt8) (b : Buffer n) : copyAll s b =
    if s.length ≤ n then .ok (filled s 0 b) else .error .writeOutside := by
  unfold copyAll
  rw [copyAt_eq]
  by_cases h : s.length ≤ n
  · rw [if_pos h, if_pos (by omega)]
  · rw [if_neg h, if_neg]
    rintro (h1 | rfl)
    · omega
    · simp at h

theorem copyFirst_eq {n : Nat} (s : List UInt8) (b : Buffer n) : copyFirst s n b =
    if n ≤ s.length then .ok (filled (s.take n) 0 b) else .error .readOutside := by
  unfold copyFirst
  split
  · have := copyAll_eq (s.take n) b
    unfold copyAll at this
    rw [this, if_pos (by simp; omega)]
  · rfl

theorem filled_exact {n : Nat} (v : Vector UInt8 n) : filled v.toList 0 (Buffer.new n) = v.map some := by
  ext1 i hi
  simp [filled]

theorem read_map_some {n : Nat} (v : Vector UInt8 n) : Buffer.read (v.map some) = .ok v := by
  have h : ∀ i : Fin n, ((v.map some)[i]).isSome := by intro i; simp
  unfold Buffer.read
  rw [dif_pos h]
  congr 1
  ext1 i hi
  simp

/-- A list of the right length is a vector. -/
theorem exists_vector {n : Nat} {s : List UInt8} (h : s.length = n) : ∃ v : Vector UInt8 n, v.toList = s :=
  ⟨⟨s.toArray, by simpa using h⟩, rfl⟩

theorem read_filled_short {n : Nat} {s : List UInt8} (h : s.length < n) :
    Buffer.read (filled s 0 (Buffer.new n)) = .error .uninitialised := by
  unfold Buffer.read
  rw [dif_neg]
  intro hall
  have := hall ⟨s.length, h⟩
  simp [filled, Buffer.new] at this

/-! ## C42 -/

/-- **C42 (part that holds)**, updates: a message with a token of 16 bytes becomes the request with this
token. Missing: other lengths, see `C42_update_iff`. -/
theorem C42_update_partial (mes : UpdateMessage) (h : mes.updateToken.length = 16) :
    ∃ v : Vector UInt8 16, v.toList = mes.updateToken ∧ toUpdate mes = .ok ⟨v.map some, mes.index⟩ := by
  obtain ⟨v, hv⟩ := exists_vector h
  refine ⟨v, hv, ?_⟩
  unfold toUpdate
  rw [← hv, copyAll_eq, if_pos (by simp), filled_exact]
  rfl

/-- **C42, updates, exact**: the conversion writes inside the request if and only if the token has at most 16
bytes. -/
theorem C42_update_iff (mes : UpdateMessage) :
    (toUpdate mes = .error .writeOutside ↔ 16 < mes.updateToken.length) ∧
      ((∃ r, toUpdate mes = .ok r) ↔ mes.updateToken.length ≤ 16) := by
  unfold toUpdate
  rw [copyAll_eq]
  by_cases h : mes.updateToken.length ≤ 16
  · rw [if_pos h]
    exact ⟨⟨fun h' => (by cases h'), fun h' => by omega⟩, ⟨fun _ => h, fun _ => ⟨_, rfl⟩⟩⟩
  · rw [if_neg h]
    exact ⟨⟨fun _ => by omega, fun _ => rfl⟩, ⟨fun ⟨_, h'⟩ => (by cases h'), fun h' => absurd h' h⟩⟩

/-- **C42, insertion handler**: with a token of 16 bytes the entry is stored; a longer token writes outside
the request; a shorter one stores the entry under a token with uninitialised bytes. -/
theorem C42_insert_handler (edb : Map (Vector UInt8 16) Index) (mes : UpdateMessage) :
    (∀ v : Vector UInt8 16, mes.updateToken = v.toList → insertHandler edb mes = .ok (edb.put v mes.index)) ∧
      (16 < mes.updateToken.length → insertHandler edb mes = .error .writeOutside) ∧
      (mes.updateToken.length < 16 → insertHandler edb mes = .error .uninitialised) := by
  refine ⟨?_, ?_, ?_⟩
  · intro v hv
    unfold insertHandler toUpdate
    rw [copyAll_eq, hv, if_pos (by simp), filled_exact]
    simp only [bind, Except.bind, pure, Except.pure]
    rw [read_map_some]
  · intro h
    unfold insertHandler
    rw [((C42_update_iff mes).1).mpr h]
    rfl
  · intro h
    unfold insertHandler toUpdate
    rw [copyAll_eq, if_pos (by omega)]
    simp only [bind, Except.bind, pure, Except.pure]
    rw [read_filled_short h]

/-- **C42 is violated**: one message with a token of 17 bytes makes the server write after the end of an array
on its stack, in `insert` and in `bulk_insert` (both schemes). -/
theorem C42_overlong_token_violated :
    ∃ mes : UpdateMessage, ∀ edb, insertHandler edb mes = .error .writeOutside ∧
      ∀ rest, bulkInsertHandler edb (mes :: rest) = .error .writeOutside := by
  refine ⟨⟨List.replicate 17 0, 0⟩, fun edb => ?_⟩
  have h := (C42_insert_handler edb ⟨List.replicate 17 0, 0⟩).2.1 (by simp)
  refine ⟨h, fun rest => ?_⟩
  rw [bulkInsertHandler, h]

/-- **C42, bulk insertions**: when all the tokens have 16 bytes, every message of the stream is stored, the last one for
a token wins, and the other tokens are as before. Otherwise the first message with a token of another length
is a fault. -/
theorem C42_bulk_handler (edb : Map (Vector UInt8 16) Index) (l : List (Vector UInt8 16 × Index)) :
    (bulkInsertHandler edb (l.map (fun x => ⟨x.1.toList, x.2⟩)) =
      .ok (fun k => match l.reverse.find? (fun x => x.1 = k) with
        | some x => some x.2
        | none => edb k)) ∧
    ∀ bad rest, (16 < bad.updateToken.length → bulkInsertHandler edb
        (l.map (fun x => ⟨x.1.toList, x.2⟩) ++ bad :: rest) = .error .writeOutside) ∧
      (bad.updateToken.length < 16 → bulkInsertHandler edb
        (l.map (fun x => ⟨x.1.toList, x.2⟩) ++ bad :: rest) = .error .uninitialised) := by
  induction l generalizing edb with
  | nil =>
    refine ⟨rfl, fun bad rest => ⟨fun h => ?_, fun h => ?_⟩⟩
    · rw [List.map_nil, List.nil_append, bulkInsertHandler, (C42_insert_handler edb bad).2.1 h]
    · rw [List.map_nil, List.nil_append, bulkInsertHandler, (C42_insert_handler edb bad).2.2 h]
  | cons a l ih =>
    obtain ⟨ih1, ih2⟩ := ih (edb.put a.1 a.2)
    have hstep : ∀ rest, bulkInsertHandler edb (⟨a.1.toList, a.2⟩ :: rest) =
        bulkInsertHandler (edb.put a.1 a.2) rest := by
      intro rest
      rw [bulkInsertHandler, (C42_insert_handler edb ⟨a.1.toList, a.2⟩).1 a.1 rfl]
    refine ⟨?_, fun bad rest => ?_⟩
    · rw [List.map_cons, hstep, ih1]
      congr 1
      funext k
      rw [List.reverse_cons, List.find?_append]
      cases h : l.reverse.find? (fun x => x.1 = k) with
      | some x => rfl
      | none =>
        rw [Option.none_or, List.find?_singleton]
        by_cases hk : a.1 = k
        · subst hk
          simp [Map.put]
        · have : k ≠ a.1 := fun e => hk e.symm
          simp [Map.put, hk, this]
    · rw [List.map_cons, List.cons_append, hstep]
      exact ih2 bad rest

/-- **C42, Sophos searches, exact**, compiled without assertions: the conversion stays in bounds if and only
if the derivation key has at least 32 bytes and the token at most `kSearchTokenSize`. -/
theorem C42_search_iff (t : Nat) (mes : SearchMessage) :
    (toSearch t false mes = .error .readOutside ↔ mes.derivationKey.length < 32) ∧
      (toSearch t false mes = .error .writeOutside ↔ 32 ≤ mes.derivationKey.length ∧ t < mes.searchToken.length) ∧
      ((∃ r, toSearch t false mes = .ok r) ↔ 32 ≤ mes.derivationKey.length ∧ mes.searchToken.length ≤ t) := by
  unfold toSearch
  rw [copyFirst_eq, copyAll_eq]
  by_cases h : 32 ≤ mes.derivationKey.length
  · by_cases h2 : mes.searchToken.length ≤ t
    · simp [h, h2, bind, Except.bind, pure, Except.pure]
    · simp [h, h2, bind, Except.bind]
      omega
  · simp [h, bind, Except.bind]
    omega

/-- With assertions, a derivation key of the wrong size stops the server. -/
theorem C42_search_assertion (t : Nat) (mes : SearchMessage) :
    toSearch t true mes = .error .assertion ↔ mes.derivationKey.length ≠ 32 := by
  unfold toSearch
  rw [copyFirst_eq, copyAll_eq]
  by_cases h : mes.derivationKey.length = 32
  · by_cases h2 : mes.searchToken.length ≤ t
    · simp [h, h2, bind, Except.bind, pure, Except.pure]
    · simp [h, h2, bind, Except.bind]
  · simp [h, bind, Except.bind, throw, throwThe, MonadExceptOf.throw]

/-- **C42 (part that holds)**, round trip: the messages sent by the clients are converted to the requests they
were made from, in Sophos and Diana. -/
theorem C42_roundtrip_partial {CK : Type} (t : Nat) (debug : Bool) (token : Vector UInt8 t) (key : Vector UInt8 32)
    (addCount : UInt32) (update : Vector UInt8 16) (index : Index)
    (wrap : CK → List UInt8) (unwrap : List UInt8 → Option CK) (hwrap : ∀ k, unwrap (wrap k) = some k)
    (kwToken : Vector UInt8 32) (rcprf : CK) :
    searchHandler t debug (ofSearch token key addCount) =
        .ok (if addCount = 0 then none else some token, key, addCount) ∧
      (∀ edb, insertHandler edb (ofUpdate update index) = .ok (edb.put update index)) ∧
      toDianaSearch unwrap (ofDianaSearch wrap kwToken rcprf addCount) =
        .ok ⟨kwToken.map some, rcprf, addCount⟩ := by
  refine ⟨?_, fun edb => (C42_insert_handler edb _).1 update rfl, ?_⟩
  · unfold searchHandler toSearch ofSearch
    have h1 : key.toList.length = 32 := by simp
    have h2 : key.toList.take 32 = key.toList := List.take_of_length_le (by simp)
    simp only [h1, ne_eq, not_true_eq_false, and_false, if_false]
    rw [copyFirst_eq, copyAll_eq, if_pos (by simp), if_pos (by simp), h2, filled_exact, filled_exact]
    simp only [bind, Except.bind, pure, Except.pure]
    rw [read_map_some]
    dsimp only
    split
    · rfl
    · rw [read_map_some]
  · unfold toDianaSearch ofDianaSearch
    rw [hwrap, copyAll_eq, if_pos (by simp), filled_exact]
    rfl

/-- **C42, Diana searches, exact**: with a valid constrained key, the conversion writes inside the request if
and only if the keyword token has at most 32 bytes. -/
theorem C42_diana_search_iff {CK : Type} (unwrap : List UInt8 → Option CK) (mes : DianaSearchMessage) (k : CK)
    (hk : unwrap mes.rcprfRep = some k) :
    (toDianaSearch unwrap mes = .error .writeOutside ↔ 32 < mes.kwToken.length) ∧
      ((∃ r, toDianaSearch unwrap mes = .ok r) ↔ mes.kwToken.length ≤ 32) := by
  unfold toDianaSearch
  rw [hk, copyAll_eq]
  by_cases h : mes.kwToken.length ≤ 32
  · simp [h, bind, Except.bind, pure, Except.pure]
  · simp [h, bind, Except.bind]
    omega

/-- Non-vacuity: the lengths of the tests, and an attack on a Sophos search (`kSearchTokenSize` is 256) -/
example : (toUpdate ⟨List.replicate 16 7, 3⟩).toOption = some ⟨Vector.replicate 16 (some 7), 3⟩ := by decide +kernel

example : (∃ r, toSearch 256 false ⟨List.replicate 256 1, List.replicate 33 2, 1⟩ = .ok r) ∧
    toSearch 256 false ⟨List.replicate 257 1, List.replicate 32 2, 1⟩ = .error .writeOutside ∧
    toSearch 256 false ⟨List.replicate 256 1, List.replicate 31 2, 1⟩ = .error .readOutside :=
  ⟨(C42_search_iff ..).2.2.mpr (by simp only [List.length_replicate]; omega),
    (C42_search_iff ..).2.1.mpr (by simp only [List.length_replicate]; omega),
    (C42_search_iff ..).1.mpr (by simp only [List.length_replicate]; omega)⟩

/-- Three updates, two of them with the same token -/
example : ∃ m, bulkInsertHandler Map.empty [⟨List.replicate 16 1, 10⟩, ⟨List.replicate 16 2, 20⟩,
      ⟨List.replicate 16 1, 30⟩] = .ok m ∧
    m (Vector.replicate 16 1) = some 30 ∧ m (Vector.replicate 16 2) = some 20 ∧ m (Vector.replicate 16 3) = none := by
  refine ⟨_, (C42_bulk_handler Map.empty [(Vector.replicate 16 1, 10), (Vector.replicate 16 2, 20),
    (Vector.replicate 16 1, 30)]).1, ?_, ?_, ?_⟩ <;> decide +kernel

end Verif.Runner
