import Verif.Cli.PrintLemmas
import Verif.Generator.Props
import Mathlib.Data.List.Dedup

/-!
# C60: the command-line clients

`-r N` inserts the generated entries, each once; a search prints each result once, separated by commas, whatever the threads
that call the callback; a client finds the server of its scheme.

The Sophos client does the first (`C60_sophos_random`). The Diana client does not: each generator thread sends its entries by
lists of 50 and the last, incomplete, list is never sent (`C60_diana_partial`, `C60_diana_lost_violated`,
`C60_diana_small_violated`). Both print right (`C60_print`, `C60_print_progress`, `C60_quiet`). The Diana client connects to the
port of the Sophos server (`C60_diana_port_violated`).
-/

namespace Verif.Cli

open Generator (Action Params)

/-! ## Specification -/

/-- The threads that generate entries -/
def Spec.threads (tr : List (Nat × Entry)) : List Nat := (tr.map Prod.fst).dedup

/-- The entries of a thread after the last complete list of 50 -/
def Spec.rest (t : Nat) (tr : List (Nat × Entry)) : List Entry :=
  (Spec.ofThread t tr).drop (50 * ((Spec.ofThread t tr).length / 50))

theorem genDb_exists (P : Params) (threads : UInt32) (hn : threads ≠ 0)
    (hfit : P.entries.toNat + threads.toNat ≤ 2 ^ 64) (rnd : Nat → Nat → UInt64) : ∃ tr, GenDb P threads rnd tr := by
  obtain ⟨tr, Ls, h1, h2, -⟩ := (Generator.C45_terminates_partial P threads hn hfit rnd).1
  obtain ⟨tr', h3⟩ := Generator.interleaves_exists (Ls.mapIdx (fun t L => L.map (fun a => (t, a))))
  exact ⟨tr', Ls, h1, h2, h3⟩

/-! ## Random entries -/

/-- **C60**: what the Sophos client inserts is what the generator gives, in the order in which it gives it: for each of the
`N` documents the keywords of C45. -/
theorem C60_sophos_random (P : Params) (threads : UInt32) (hn : threads ≠ 0)
    (hfit : P.entries.toNat + threads.toNat ≤ 2 ^ 64) (rnd : Nat → Nat → UInt64) (tr : List (Nat × Action))
    (h : GenDb P threads rnd tr) :
    Spec.inserted (Gen.run Gen.sophos (callbacks tr)) = (callbacks tr).map Prod.snd ∧
    ∃ extra : Nat → List String,
      (∀ p, (extra p).length ≤ 5 ∧ ∀ kw ∈ extra p, ∃ rest, kw = "Group-rand-10^" ++ rest) ∧
      (Spec.inserted (Gen.run Gen.sophos (callbacks tr))).Perm ((List.range P.entries.toNat).flatMap fun p =>
        (Generator.Spec.keywords (p % threads.toNat) (p / threads.toNat)
            (rnd (p % threads.toNat) (p / threads.toNat)).toNat ++ extra p).map
          (fun kw => (kw, rnd (p % threads.toNat) (p / threads.toNat)))) := by
  have h1 : Spec.inserted (Gen.run Gen.sophos (callbacks tr)) = (callbacks tr).map Prod.snd := by
    unfold Spec.inserted
    rw [sophos_calls]
    generalize callbacks tr = l
    induction l with
    | nil => rfl
    | cons x l ih => rw [List.map_cons, List.flatMap_cons, ih]; rfl
  refine ⟨h1, ?_⟩
  rw [h1, callbacks_snd]
  exact (Generator.C45_documents_partial P threads hn hfit rnd _ (genDb_forget h)).2.2

/-- **C60** (partial): whatever the threads, the Diana client sends lists of exactly 50 entries; what a thread sends is the
first `50 * (n / 50)` of the `n` entries it was given, in order; and the entries inserted are, with the rest of each thread,
those that were generated, each once. Missing: the rest. -/
theorem C60_diana_partial (tr : List (Nat × Entry)) :
    (∀ c ∈ (Gen.run Gen.diana tr).calls, c.2.length = 50) ∧
    (∀ t, Spec.insertedBy t (Gen.run Gen.diana tr) =
      (Spec.ofThread t tr).take (50 * ((Spec.ofThread t tr).length / 50))) ∧
    (Spec.inserted (Gen.run Gen.diana tr) ++ (Spec.threads tr).flatMap (fun t => Spec.rest t tr)).Perm
      (tr.map Prod.snd) := by
  refine ⟨(diana_calls tr).1, fun t => (diana_thread tr t).1, ?_⟩
  have key := perm_of_threads
    (f := (Gen.run Gen.diana tr).calls ++ (Spec.threads tr).map (fun t => (t, Spec.rest t tr)))
    (g := tr.map (fun x => (x.1, [x.2]))) (F := id) (G := id) (by
      intro t
      have hl : ((tr.map (fun x => (x.1, [x.2]))).filter (fun x => decide (x.1 = t))).flatMap (fun x => id x.2) =
          Spec.ofThread t tr := by
        unfold Spec.ofThread
        generalize tr = l
        induction l with
        | nil => rfl
        | cons x l ih =>
          rw [List.map_cons, List.filter_cons, List.filter_cons]
          by_cases hx : x.1 = t
          · rw [if_pos (by simpa using hx), if_pos (by simpa using hx), List.flatMap_cons, ih]; rfl
          · rw [if_neg (by simpa using hx), if_neg (by simpa using hx), ih]
      rw [hl, List.filter_append, List.flatMap_append]
      have h1 : ((Gen.run Gen.diana tr).calls.filter (fun x => decide (x.1 = t))).flatMap (fun x => id x.2) =
          Spec.insertedBy t (Gen.run Gen.diana tr) := rfl
      rw [h1, (diana_thread tr t).1]
      have h2 : (((Spec.threads tr).map (fun t => (t, Spec.rest t tr))).filter (fun x => decide (x.1 = t))).flatMap
          (fun x => id x.2) = Spec.rest t tr := by
        have hnd : (Spec.threads tr).Nodup := List.nodup_dedup _
        have hz : ∀ l : List Nat, t ∉ l → (l.map (fun t => (t, Spec.rest t tr))).filter (fun x => decide (x.1 = t)) = [] := by
          intro l hl
          rw [List.filter_eq_nil_iff]
          intro x hx
          obtain ⟨u, hu, rfl⟩ := List.mem_map.mp hx
          simp only [decide_eq_true_eq]
          rintro rfl
          exact hl hu
        have ho : ∀ l : List Nat, l.Nodup → t ∈ l → ((l.map (fun t => (t, Spec.rest t tr))).filter
            (fun x => decide (x.1 = t))).flatMap (fun x => id x.2) = Spec.rest t tr := by
          intro l
          induction l with
          | nil => intro _ h; cases h
          | cons u l ih =>
            intro hnd hm
            rw [List.nodup_cons] at hnd
            rw [List.map_cons, List.filter_cons]
            by_cases hu : u = t
            · subst hu
              rw [if_pos (by simp), hz l hnd.1]
              simp
            · rw [if_neg (by simpa using hu)]
              exact ih hnd.2 ((List.mem_cons.mp hm).resolve_left (fun e => hu e.symm))
        by_cases hm : t ∈ Spec.threads tr
        · exact ho _ hnd hm
        · rw [hz _ hm]
          have : Spec.ofThread t tr = [] := by
            unfold Spec.ofThread
            rw [List.map_eq_nil_iff, List.filter_eq_nil_iff]
            intro x hx
            simp only [decide_eq_true_eq]
            rintro rfl
            exact hm (List.mem_dedup.mpr (List.mem_map_of_mem hx))
          unfold Spec.rest
          rw [this]
          rfl
      rw [h2]
      unfold Spec.rest
      rw [List.take_append_drop])
  rw [List.flatMap_append] at key
  have e1 : (tr.map (fun x => (x.1, [x.2]))).flatMap (fun x => id x.2) = tr.map Prod.snd := by
    generalize tr = l
    induction l with
    | nil => rfl
    | cons x l ih => rw [List.map_cons, List.flatMap_cons, ih]; rfl
  have e2 : ((Spec.threads tr).map (fun t => (t, Spec.rest t tr))).flatMap (fun x => id x.2) =
      (Spec.threads tr).flatMap (fun t => Spec.rest t tr) := by
    rw [List.flatMap_map]; rfl
  rw [e1, e2] at key
  exact key

/-- **C60** (partial): when each thread is given a multiple of 50 entries, the Diana client inserts them all, each once. -/
theorem C60_diana_multiple_partial (tr : List (Nat × Entry)) (h : ∀ t, (Spec.ofThread t tr).length % 50 = 0) :
    (Spec.inserted (Gen.run Gen.diana tr)).Perm (tr.map Prod.snd) := by
  have key := (C60_diana_partial tr).2.2
  have : (Spec.threads tr).flatMap (fun t => Spec.rest t tr) = [] := by
    rw [List.flatMap_eq_nil_iff]
    intro t _
    unfold Spec.rest
    rw [List.drop_eq_nil_iff]
    have := h t
    omega
  rwa [this, List.append_nil] at key

/-- **C60** (violated): as soon as a thread is given a number of entries that is no multiple of 50, fewer entries are inserted
than were generated. -/
theorem C60_diana_lost_violated (tr : List (Nat × Entry)) (t : Nat) (h : (Spec.ofThread t tr).length % 50 ≠ 0) :
    (Spec.inserted (Gen.run Gen.diana tr)).length < tr.length := by
  have key := (C60_diana_partial tr).2.2.length_eq
  rw [List.length_append, List.length_map] at key
  have hm : t ∈ Spec.threads tr := by
    unfold Spec.threads
    rw [List.mem_dedup]
    cases hf : tr.filter (fun x => decide (x.1 = t)) with
    | nil => exact absurd (by unfold Spec.ofThread; rw [hf]; rfl) h
    | cons x l =>
      have hx : x ∈ tr.filter (fun x => decide (x.1 = t)) := by rw [hf]; exact List.mem_cons_self
      rw [List.mem_filter] at hx
      have := List.mem_map_of_mem (f := Prod.fst) hx.1
      rwa [show x.1 = t by simpa using hx.2] at this
  have hr : Spec.rest t tr ≠ [] := by
    unfold Spec.rest
    rw [Ne, List.drop_eq_nil_iff]
    omega
  have hpos : 0 < ((Spec.threads tr).flatMap (fun t => Spec.rest t tr)).length := by
    rw [List.length_pos_iff, Ne, List.flatMap_eq_nil_iff]
    exact fun e => hr (e t hm)
  omega

/-- **C60** (violated): a Diana client asked for `N` random documents, `0 < N ≤ 2 * threads`, inserts nothing (the number of
threads is that of the processors, `std::thread::hardware_concurrency`), though the generator gives entries. -/
theorem C60_diana_small_violated (P : Params) (threads : UInt32) (hn : threads ≠ 0) (hpos : 0 < P.entries.toNat)
    (hN : P.entries.toNat ≤ 2 * threads.toNat) (rnd : Nat → Nat → UInt64) (tr : List (Nat × Action))
    (h : GenDb P threads rnd tr) :
    (Gen.run Gen.diana (callbacks tr)).calls = [] ∧ callbacks tr ≠ [] := by
  constructor
  · cases hc : (Gen.run Gen.diana (callbacks tr)).calls with
    | nil => rfl
    | cons c l =>
      exfalso
      have h1 := (diana_calls (callbacks tr)).1 c (by rw [hc]; exact List.mem_cons_self)
      have h2 := (diana_thread (callbacks tr) c.1).1
      have h3 := thread_short hn h hN c.1
      rw [Nat.div_eq_of_lt h3] at h2
      unfold Spec.insertedBy at h2
      rw [hc, List.filter_cons, if_pos (by simp), List.flatMap_cons] at h2
      have := congrArg List.length h2
      rw [List.length_append, h1, Nat.mul_zero, List.take_zero, List.length_nil] at this
      omega
  · intro hnil
    have hfit : P.entries.toNat + threads.toNat ≤ 2 ^ 64 := by have := threads.toNat_lt; omega
    obtain ⟨-, -, extra, -, hp⟩ := Generator.C45_documents_partial P threads hn hfit rnd _ (genDb_forget h)
    rw [← callbacks_snd, hnil, List.map_nil] at hp
    have := hp.nil_eq
    rw [eq_comm, List.flatMap_eq_nil_iff] at this
    have := this 0 (List.mem_range.mpr hpos)
    simp [Generator.Spec.keywords, Generator.Spec.percents] at this

/-! ## Results -/

/-- **C60**: when the calls of the callback are over, however they were interleaved, the results have been written, each once,
and separated by commas. -/
theorem C60_print (acts : List Act) (h : Spec.Over (Out.run false acts)) :
    ∃ rs : List UInt64, rs.Perm (Spec.results acts) ∧ (Out.run false acts).text = Spec.text rs := by
  obtain ⟨done, hi⟩ := inv_run acts
  refine ⟨done, ?_, ?_⟩
  · refine hi.written.trans ?_
    rw [List.filter_eq_self.mpr (fun c hc => by rw [h c hc]; rfl), calls_results]
  · cases hm : (Out.run false acts).mtx with
    | none => exact (hi.free hm).1
    | some n =>
      obtain ⟨c, h1, h2, -⟩ := hi.holder n hm
      rw [h c (List.mem_of_getElem? h1)] at h2
      cases h2

/-- **C60**: at no moment are all calls blocked: as long as one is not over, one of them can make a step that changes where it
is. -/
theorem C60_print_progress (quiet : Bool) (acts : List Act) (h : ¬ Spec.Over (Out.run quiet acts)) :
    ∃ (n : Nat) (res : UInt64) (pc : Pc), (Out.run quiet acts).calls[n]? = some (res, pc) ∧ pc ≠ .over ∧
      ∃ pc', pc' ≠ pc ∧ (Out.run quiet (acts ++ [.step n])).calls[n]? = some (res, pc') := by
  have go : ∀ (n : Nat) (res : UInt64) (pc : Pc), (Out.run quiet acts).calls[n]? = some (res, pc) → pc ≠ .over →
      ((Out.run quiet acts).next quiet n res pc).2 ≠ pc →
      ∃ (n : Nat) (res : UInt64) (pc : Pc), (Out.run quiet acts).calls[n]? = some (res, pc) ∧ pc ≠ .over ∧
        ∃ pc', pc' ≠ pc ∧ (Out.run quiet (acts ++ [.step n])).calls[n]? = some (res, pc') := by
    intro n res pc h1 h2 h3
    refine ⟨n, res, pc, h1, h2, _, h3, ?_⟩
    rw [run_append_out, step_some h1]
    simp only
    rw [next_calls, List.getElem?_set_self (List.getElem?_eq_some_iff.mp h1).1]
  have hex : ∃ c ∈ (Out.run quiet acts).calls, c.2 ≠ .over := by
    by_contra hne
    exact h (fun c hc => by_contra fun hc' => hne ⟨c, hc, hc'⟩)
  obtain ⟨⟨res, pc⟩, hc, hpc⟩ := hex
  obtain ⟨n, hn⟩ := List.mem_iff_getElem?.mp hc
  cases quiet with
  | true =>
    rcases (quiet_text acts).2 _ hc with hb | hb
    · simp only at hb
      subst hb
      exact go n res _ hn hpc (by simp [Out.next])
    · exact absurd hb hpc
  | false =>
    cases hm : (Out.run false acts).mtx with
    | none =>
      refine go n res pc hn hpc ?_
      cases pc with
      | begun => simp [Out.next, hm]
      | locked => simp only [Out.next]; split <;> simp
      | separated => simp [Out.next]
      | marked => simp [Out.next]
      | printed => simp [Out.next]
      | over => exact absurd rfl hpc
    | some m =>
      obtain ⟨done, hi⟩ := inv_run acts
      obtain ⟨⟨res', pc'⟩, h1, h2, -⟩ := hi.holder m hm
      refine go m res' pc' h1 (by intro e; rw [e] at h2; cases h2) ?_
      cases pc' with
      | begun => cases h2
      | locked => simp only [Out.next]; split <;> simp
      | separated => simp [Out.next]
      | marked => simp [Out.next]
      | printed => simp [Out.next]
      | over => cases h2

/-- **C60**: with `-q` nothing is written. -/
theorem C60_quiet (acts : List Act) : (Out.run true acts).text = [] := (quiet_text acts).1

/-! ## Addresses -/

/-- **C60** (violated): the Diana client connects to the port of the Sophos server; no Diana server listens there. -/
theorem C60_diana_port_violated :
    clientPort .sophos = serverPort .sophos ∧ clientPort .diana = serverPort .sophos ∧
      clientPort .diana ≠ serverPort .diana := by decide

/-! ## Examples -/

/-- 10 random documents and 7 threads: the Sophos client inserts at least 150 entries, the Diana client none. -/
def fewDocs : Params where
  entries := 10
  nGroups _ := 0
  below _ _ := false
  below_groups _ _ h := by cases h

example : ∃ tr, GenDb fewDocs 7 (fun t i => UInt64.ofNat (t * 1000 + i)) tr ∧
    (Gen.run Gen.diana (callbacks tr)).calls = [] ∧ callbacks tr ≠ [] ∧
    Spec.inserted (Gen.run Gen.sophos (callbacks tr)) = (callbacks tr).map Prod.snd := by
  obtain ⟨tr, h⟩ := genDb_exists fewDocs 7 (by decide) (by decide) (fun t i => UInt64.ofNat (t * 1000 + i))
  obtain ⟨h1, h2⟩ := C60_diana_small_violated fewDocs 7 (by decide) (by decide) (by decide) _ tr h
  exact ⟨tr, h, h1, h2, (C60_sophos_random fewDocs 7 (by decide) (by decide) _ tr h).1⟩

/-- Two threads in turn, 103 entries: 100 are inserted. -/
def turns : List (Nat × Entry) := (List.range 103).map (fun i => (i % 2, ("kw", UInt64.ofNat i)))

example : ((Gen.run Gen.diana turns).calls.map (fun c => (c.1, c.2.length))) = [(0, 50), (1, 50)] ∧
    (Spec.inserted (Gen.run Gen.diana turns)).length = 100 ∧ (Spec.ofThread 0 turns).length % 50 ≠ 0 := by
  decide +kernel

example : (Spec.inserted (Gen.run Gen.diana turns)).length < turns.length :=
  C60_diana_lost_violated turns 0 (by decide +kernel)

example : (Spec.inserted (Gen.run Gen.diana (turns.take 100))).Perm ((turns.take 100).map Prod.snd) := by
  apply C60_diana_multiple_partial
  intro t
  by_cases h : t ≤ 1
  · have : t = 0 ∨ t = 1 := by omega
    rcases this with rfl | rfl <;> decide +kernel
  · have : Spec.ofThread t (turns.take 100) = [] := by
      unfold Spec.ofThread
      rw [List.map_eq_nil_iff, List.filter_eq_nil_iff]
      intro x hx
      have hx := List.mem_of_mem_take hx
      obtain ⟨i, -, rfl⟩ := List.mem_map.mp hx
      simp only [decide_eq_true_eq]
      omega
    rw [this]
    rfl

/-- Two calls that meet: the second waits for the mutex. -/
def meet : List Act :=
  [.call 7, .step 0, .call 12, .step 1, .step 0, .step 0, .step 1, .step 0, .step 0, .step 1, .step 1, .step 1, .step 1,
    .step 1]

example : Spec.Over (Out.run false meet) ∧ (Out.run false meet).text = ["7", ", ", "12"] := by
  unfold Spec.Over
  decide +kernel

example : ¬ Spec.Over (Out.run false (meet.take 4)) := by
  unfold Spec.Over
  decide +kernel

end Verif.Cli
