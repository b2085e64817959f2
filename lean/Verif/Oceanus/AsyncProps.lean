import Verif.Oceanus.Async
import Verif.Oceanus.Build

/-!
# Properties of the asynchronous cuckoo lookups (C33)
-/

namespace Verif.Oceanus.Async

open Spec

variable {n : Nat}

/-- The payload brought by a read, if it has the key -/
def hit (key : Key) (r : Option (Payload n)) : Option (Payload n) :=
  match r with
  | some p => if matchKey p key then some p else none
  | none => none

/-- What the user callback must receive: the value of the cell that has the key, if any -/
def expected (key : Key) (read : Bool → Option (Payload n)) : Option (Vector UInt8 n) :=
  ((hit key (read false)).or (hit key (read true))).map valueOf

/-- Before `fetch_add` -/
def Early (key : Key) (r : Option (Payload n)) (p : Pc n) : Prop :=
  p = .start ∨ (p = .write ∧ r ≠ none ∧ hit key r = r) ∨ p = .add

/-- What the callback has written in the state -/
def wrote (key : Key) (r : Option (Payload n)) (p : Pc n) : Option (Payload n) :=
  match p with
  | .start => none
  | .write => none
  | _ => hit key r

/-- The end of the second callback -/
def Late (total : Option (Payload n)) (s : AState n) (p : Pc n) : Prop :=
  (p = .take ∧ s.alive = true ∧ s.result = total ∧ s.calls = []) ∨
  (p = .delete total ∧ s.alive = true ∧ s.calls = []) ∨
  (p = .call total ∧ s.alive = false ∧ s.calls = []) ∨
  (p = .done ∧ s.alive = false ∧ s.calls = [total.map valueOf])

/-- The reachable states -/
inductive Shape (key : Key) (read : Bool → Option (Payload n)) (s : AState n) : Prop
  | early (hp : ∀ t, Early key (read t) (s.pc t)) (hc : s.counter = 0) (ha : s.alive = true)
      (hr : s.result = (wrote key (read false) (s.pc false)).or (wrote key (read true) (s.pc true)))
      (hk : s.calls = []) (hf : s.fault = none)
  | mid (g : Bool) (hg : s.pc g = .done) (hp : Early key (read !g) (s.pc !g)) (hc : s.counter = 1)
      (ha : s.alive = true)
      (hr : s.result = (wrote key (read false) (s.pc false)).or (wrote key (read true) (s.pc true)))
      (hk : s.calls = []) (hf : s.fault = none)
  | late (g : Bool) (hg : s.pc g = .done)
      (hl : Late ((hit key (read false)).or (hit key (read true))) s (s.pc !g)) (hf : s.fault = none)

theorem shape_init (key : Key) (read : Bool → Option (Payload n)) : Shape key read AState.init :=
  .early (fun _ => .inl rfl) rfl rfl rfl rfl rfl

theorem step_start {key : Key} {read : Bool → Option (Payload n)} {s : AState n} {t : Bool}
    (hf : s.fault = none) (hp : s.pc t = .start) :
    step key read s t = s.goto t (if hit key (read t) = none then .add else .write) := by
  unfold step
  rw [if_neg (by simp [hf]), hp]
  dsimp only
  unfold hit
  cases read t with
  | none => rfl
  | some p =>
    dsimp only
    by_cases hm : matchKey p key = true <;> simp [hm]

theorem hit_eq {key : Key} {r : Option (Payload n)} (h : hit key r ≠ none) : r ≠ none ∧ hit key r = r := by
  unfold hit at *
  cases r with
  | none => exact absurd rfl h
  | some p =>
    dsimp only at *
    split at h
    · rename_i hm; simp [hm]
    · exact absurd rfl h

theorem shape_step {key : Key} {read : Bool → Option (Payload n)}
    (hone : hit key (read false) = none ∨ hit key (read true) = none) {s : AState n}
    (h : Shape key read s) (t : Bool) : Shape key read (step key read s t) := by
  cases h with
  | early hp hc ha hr hk hf =>
    have hother := hp (!t)
    rcases hp t with h | ⟨h, hr0, hr1⟩ | h
    · rw [step_start hf h]
      refine .early ?_ hc ha ?_ hk hf
      · intro u
        by_cases hu : u = t
        · subst hu
          by_cases hn : hit key (read u) = none
          · simp [AState.goto, hn, Early]
          · simp only [AState.goto, hn, if_true, if_false, Early]
            exact .inr (.inl ⟨trivial, hit_eq hn⟩)
        · simp only [AState.goto, hu, if_false]
          exact hp u
      · rw [show (s.goto t (if hit key (read t) = none then .add else .write)).result = s.result from rfl, hr]
        by_cases hn : hit key (read t) = none <;> cases t <;> simp [AState.goto, h, hn, wrote]
    · have hnone : s.result = none := by
        rw [hr]
        have hne : hit key (read t) ≠ none := by rw [hr1]; exact hr0
        cases t
        · rcases hone with h' | h'
          · exact absurd h' hne
          · rw [h]
            simp only [wrote, Option.none_or]
            split <;> simp [h']
        · rcases hone with h' | h'
          · rw [h]
            simp only [wrote, Option.or_none]
            split <;> simp [h']
          · exact absurd h' hne
      have hs : step key read s t = { s with result := read t }.goto t .add := by
        unfold step
        rw [if_neg (by simp [hf]), h]
        simp [ha, hnone]
      rw [hs]
      refine .early ?_ hc ha ?_ hk hf
      · intro u
        by_cases hu : u = t
        · subst hu; simp [AState.goto, Early]
        · simp only [AState.goto, hu, if_false]; exact hp u
      · have hne : hit key (read t) ≠ none := by rw [hr1]; exact hr0
        rw [hr] at hnone
        rw [Option.or_eq_none_iff] at hnone
        cases t
        · simp [AState.goto, wrote, hr1]
          cases hrf : read false with
          | none => exact absurd hrf hr0
          | some p => simp
        · simp [AState.goto, hnone.1]
          simp [wrote, hr1]
    · have hs : step key read s t = { s with counter := 1 }.goto t .done := by
        unfold step
        rw [if_neg (by simp [hf]), h]
        simp [ha, hc]
      rw [hs]
      refine .mid t ?_ ?_ rfl ha ?_ hk hf
      · simp [AState.goto]
      · cases t <;> simpa [AState.goto] using hother
      · show s.result = _
        rw [hr]
        cases t <;> simp [AState.goto, h, wrote]
  | mid g hg hp hc ha hr hk hf =>
    by_cases ht : t = g
    · subst ht
      have : step key read s t = s := by
        unfold step
        rw [if_neg (by simp [hf]), hg]
      rw [this]
      exact .mid t hg hp hc ha hr hk hf
    · have ht : t = !g := by cases t <;> cases g <;> simp_all
      subst ht
      rcases hp with h | ⟨h, hr0, hr1⟩ | h
      · rw [step_start hf h]
        refine .mid g ?_ ?_ hc ha ?_ hk hf
        · cases g <;> simpa [AState.goto] using hg
        · by_cases hn : hit key (read !g) = none
          · simp [AState.goto, hn, Early]
          · simp only [AState.goto, hn, if_true, if_false, Early]
            exact .inr (.inl ⟨trivial, hit_eq hn⟩)
        · rw [show (s.goto (!g) (if hit key (read !g) = none then .add else .write)).result = s.result from rfl,
            hr]
          by_cases hn : hit key (read !g) = none <;> cases g <;>
            simp only [Bool.not_false, Bool.not_true] at h hn <;> simp [AState.goto, h, hn, wrote]
      · have hne : hit key (read !g) ≠ none := by rw [hr1]; exact hr0
        have hnone : s.result = none := by
          rw [hr]
          cases g
          · rcases hone with h' | h'
            · rw [hg, show s.pc true = .write from h]
              simp [wrote, h']
            · exact absurd h' hne
          · rcases hone with h' | h'
            · exact absurd h' hne
            · rw [hg, show s.pc false = .write from h]
              simp [wrote, h']
        have hs : step key read s (!g) = { s with result := read !g }.goto (!g) .add := by
          unfold step
          rw [if_neg (by simp [hf]), h]
          simp [ha, hnone]
        rw [hs]
        refine .mid g ?_ ?_ hc ha ?_ hk hf
        · cases g <;> simpa [AState.goto] using hg
        · simp [AState.goto, Early]
        · rw [hr, Option.or_eq_none_iff] at hnone
          cases g
          · simp only [Bool.not_false] at hr1 ⊢
            simp [AState.goto, hnone.1]
            simp [wrote, hr1]
          · simp only [Bool.not_true] at hr1 hr0 ⊢
            cases hrf : read false with
            | none => exact absurd hrf hr0
            | some p =>
              rw [hrf] at hr1
              simp [AState.goto, wrote, hr1]
      · have hs : step key read s (!g) = { s with counter := 2 }.goto (!g) .take := by
          unfold step
          rw [if_neg (by simp [hf]), h]
          simp [ha, hc]
        rw [hs]
        refine .late g ?_ (.inl ⟨?_, ha, ?_, hk⟩) hf
        · cases g <;> simpa [AState.goto] using hg
        · simp [AState.goto]
        · show s.result = _
          rw [hr]
          cases g
          · rw [hg, show s.pc true = .add from h]; rfl
          · rw [hg, show s.pc false = .add from h]; rfl
  | late g hg hl hf =>
    by_cases ht : t = g
    · subst ht
      have : step key read s t = s := by
        unfold step
        rw [if_neg (by simp [hf]), hg]
      rw [this]
      exact .late t hg hl hf
    · have ht : t = !g := by cases t <;> cases g <;> simp_all
      subst ht
      have hgo : ∀ (s' : AState n) p, s'.pc = s.pc → (s'.goto (!g) p).pc g = .done := by
        intro s' p he
        cases g <;> simpa [AState.goto, he] using hg
      rcases hl with ⟨h1, h2, h3, h4⟩ | ⟨h1, h2, h3⟩ | ⟨h1, h2, h3⟩ | ⟨h1, h2, h3⟩
      · have hs : step key read s (!g) = { s with result := none }.goto (!g) (.delete s.result) := by
          unfold step
          rw [if_neg (by simp [hf]), h1]
          simp [h2]
        rw [hs]
        refine .late g (hgo _ _ rfl) (.inr (.inl ⟨?_, h2, h4⟩)) hf
        simp [AState.goto, h3]
      · have hs : step key read s (!g) = { s with alive := false }.goto (!g)
            (.call ((hit key (read false)).or (hit key (read true)))) := by
          unfold step
          rw [if_neg (by simp [hf]), h1]
          simp only [h2, Bool.true_eq_false, if_false]
        rw [hs]
        refine .late g (hgo _ _ rfl) (.inr (.inr (.inl ⟨?_, rfl, h3⟩))) hf
        simp [AState.goto]
      · have hs : step key read s (!g) = { s with calls :=
            s.calls ++ [((hit key (read false)).or (hit key (read true))).map valueOf] }.goto (!g) .done := by
          unfold step
          rw [if_neg (by simp [hf]), h1]
        rw [hs]
        refine .late g (hgo _ _ rfl) (.inr (.inr (.inr ⟨?_, h2, ?_⟩))) hf
        · simp [AState.goto]
        · show s.calls ++ _ = _
          rw [h3]; rfl
      · have : step key read s (!g) = s := by
          unfold step
          rw [if_neg (by simp [hf]), h1]
        rw [this]
        exact .late g hg (.inr (.inr (.inr ⟨h1, h2, h3⟩))) hf

/-! Progress -/

/-- How far a callback is -/
def rank : Pc n → Nat
  | .start => 0
  | .write => 1
  | .add => 2
  | .take => 3
  | .delete _ => 4
  | .call _ => 5
  | .done => 6

theorem rank_step {key : Key} {read : Bool → Option (Payload n)} {s : AState n} (t : Bool)
    (hf : (step key read s t).fault = none) :
    min 6 (rank (s.pc t) + 1) ≤ rank ((step key read s t).pc t) ∧
      (step key read s t).pc (!t) = s.pc (!t) := by
  have hoth : (!t) ≠ t := by cases t <;> simp
  by_cases hfs : s.fault = none
  · cases hp : s.pc t with
    | start =>
      rw [step_start hfs hp]
      by_cases hn : hit key (read t) = none <;> simp [AState.goto, hn, rank]
    | done =>
      have : step key read s t = s := by unfold step; rw [if_neg (by simp [hfs]), hp]
      rw [this, hp]; simp [rank]
    | call d =>
      have : step key read s t = { s with calls := s.calls ++ [d.map valueOf] }.goto t .done := by
        unfold step; rw [if_neg (by simp [hfs]), hp]
      rw [this]; simp [rank, AState.goto]
    | _ =>
      unfold step at hf ⊢
      rw [if_neg (by simp [hfs]), hp] at hf ⊢
      dsimp only at hf ⊢
      by_cases ha : s.alive = false
      · rw [if_pos ha] at hf; simp at hf
      · rw [if_neg ha] at hf ⊢
        try dsimp only at hf ⊢
        first
          | (split at hf
             · simp at hf
             · simp [AState.goto, rank, *])
          | (split <;> simp [AState.goto, rank])
          | simp [AState.goto, rank]
  · unfold step at hf
    rw [if_pos hfs] at hf
    exact absurd hf hfs

theorem run_shape {key : Key} {read : Bool → Option (Payload n)}
    (hone : hit key (read false) = none ∨ hit key (read true) = none) (sched : List Bool) :
    Shape key read (run key read AState.init sched) ∧
      ∀ t, min 6 (sched.count t) ≤ rank ((run key read AState.init sched).pc t) := by
  have key' : ∀ (sched : List Bool) (s : AState n), Shape key read s →
      Shape key read (run key read s sched) ∧
        ∀ t, min 6 (rank (s.pc t) + sched.count t) ≤ rank ((run key read s sched).pc t) := by
    intro sched
    induction sched with
    | nil => intro s h; exact ⟨h, fun t => by simp [run]; omega⟩
    | cons u sched ih =>
      intro s h
      have h1 := shape_step hone h u
      obtain ⟨h2, h3⟩ := ih _ h1
      refine ⟨h2, fun t => ?_⟩
      have hf : (step key read s u).fault = none := by cases h1 <;> assumption
      have hr := rank_step u hf
      have h3 := h3 t
      show _ ≤ rank ((run key read (step key read s u) sched).pc t)
      rw [List.count_cons]
      by_cases hut : u = t
      · subst hut; simp only [beq_self_eq_true, if_true]; omega
      · have : t = !u := by cases t <;> cases u <;> simp_all
        subst this
        rw [hr.2] at h3
        simp only [beq_iff_eq, hut, if_false]; omega
  have := key' sched AState.init (shape_init key read)
  refine ⟨this.1, fun t => ?_⟩
  have h := this.2 t
  simpa [AState.init, rank] using h

/-- **C33**, partial: for all the interleavings of the two read callbacks, if at most one of the cells
matches the key, there is no fault, the user callback is called at most once, with the value of the cell
that has the key and with nothing otherwise, and it has been called when both callbacks have been run long
enough. Missing: the key that matches both cells, which are then empty, for which the claim is false, see
`C33_both_cells_match`; and failed reads are not distinguished from cells without the key, see
`C33_failed_read`. -/
theorem C33_once_partial (key : Key) (read : Bool → Option (Payload n))
    (hone : hit key (read false) = none ∨ hit key (read true) = none) (sched : List Bool)
    (f : AState n) (hf : f = run key read AState.init sched) :
    f.fault = none ∧ f.calls.length ≤ 1 ∧ (∀ r ∈ f.calls, r = expected key read) ∧
      ((∀ t, 6 ≤ sched.count t) → f.calls = [expected key read] ∧ f.alive = false) := by
  obtain ⟨h, hr⟩ := run_shape hone sched
  rw [← hf] at h hr
  cases h with
  | early hp hc ha hres hk hfa =>
    refine ⟨hfa, by simp [hk], by simp [hk], fun hcnt => ?_⟩
    have h1 := hr true
    have h2 := hcnt true
    rcases hp true with h | ⟨h, -⟩ | h <;> rw [h] at h1 <;> simp [rank] at h1 <;> omega
  | mid g hg hp hc ha hres hk hfa =>
    refine ⟨hfa, by simp [hk], by simp [hk], fun hcnt => ?_⟩
    have h1 := hr !g
    have h2 := hcnt !g
    rcases hp with h | ⟨h, -⟩ | h <;> rw [h] at h1 <;> simp [rank] at h1 <;> omega
  | late g hg hl hfa =>
    rcases hl with ⟨h1, h2, h3, h4⟩ | ⟨h1, h2, h3⟩ | ⟨h1, h2, h3⟩ | ⟨h1, h2, h3⟩
    · refine ⟨hfa, by simp [h4], by simp [h4], fun hcnt => ?_⟩
      have h5 := hr !g
      have h6 := hcnt !g
      rw [h1] at h5; simp [rank] at h5; omega
    · refine ⟨hfa, by simp [h3], by simp [h3], fun hcnt => ?_⟩
      have h5 := hr !g
      have h6 := hcnt !g
      rw [h1] at h5; simp [rank] at h5; omega
    · refine ⟨hfa, by simp [h3], by simp [h3], fun hcnt => ?_⟩
      have h5 := hr !g
      have h6 := hcnt !g
      rw [h1] at h5; simp [rank] at h5; omega
    · refine ⟨hfa, by simp [h3], ?_, fun _ => ⟨h3, h2⟩⟩
      intro r hr
      rw [h3] at hr
      simpa [expected] using hr

/-- **C33**, partial: in the table built from distinct keys, an asynchronous lookup of a key, other than
the one made of bytes 255, gives exactly what the synchronous lookup gives (see `C32_get_partial`), for all
the interleavings. Missing: as in `C33_once_partial`. -/
theorem C33_table_partial (size depth : Nat) (hash : Key → CKey) (ins : List (Key × Vector UInt8 n))
    (hs : 0 < size) (hl : ins.length < 2 ^ 64) (hd : (ins.map Prod.fst).Nodup) (k : Key)
    (hk : k ≠ allOnes) (sched : List Bool) :
    ∃ t, build size depth hash ins = .ok t ∧
      (run k (reads t k) AState.init sched).fault = none ∧
      ((∀ u, 6 ≤ sched.count u) →
        (run k (reads t k) AState.init sched).calls = [(t.get k).toOption]) := by
  obtain ⟨t, h1, -, -, -, h2⟩ := build_spec size depth hash ins hs hl hd
  obtain ⟨hsz, p0, p1, hp0, hp1, hno⟩ := h2 k hk
  have hone : hit k (reads t k false) = none ∨ hit k (reads t k true) = none := by
    unfold reads hit
    dsimp only
    rw [hp0, hp1]
    dsimp only
    cases h0 : matchKey p0 k
    · exact .inl rfl
    · cases h1 : matchKey p1 k
      · exact .inr rfl
      · exact absurd ⟨h0, h1⟩ hno
  obtain ⟨h3, -, -, h4⟩ := C33_once_partial k (reads t k) hone sched _ rfl
  refine ⟨t, h1, h3, fun hc => ?_⟩
  rw [(h4 hc).1]
  congr 1
  unfold expected reads hit Table.get
  dsimp only
  rw [hp0, hp1, if_neg hsz]
  dsimp only
  cases matchKey p0 k
  · cases matchKey p1 k <;> rfl
  · rfl

namespace Sample

/-- A key -/
def key : Key := Vector.replicate 16 1

/-- Its cell -/
def cell : Payload 1 := key ++ (#v[42] : Vector UInt8 1)

/-- Another cell -/
def other : Payload 1 := Vector.replicate 17 2

/-- The reads: the key is in the second table. -/
def read : Bool → Option (Payload 1)
  | false => some other
  | true => some cell

end Sample

/-- The hypotheses hold for a concrete key, with two of the orders. -/
example : hit Sample.key (Sample.read false) = none ∧ expected Sample.key Sample.read = some #v[42] ∧
    (run Sample.key Sample.read AState.init
      [true, false, true, false, true, false, false, true, false, true, true, false]).calls =
        [some #v[42]] ∧
    (run Sample.key Sample.read AState.init
      [true, false, false, false, false, true, true, true, true, true, true, true]).calls =
        [some #v[42]] := by decide +kernel

/-- C33 is violated: for the key made of bytes 255, both cells may be empty, and then match; the two
callbacks write the result without synchronisation. -/
theorem C33_both_cells_match :
    (run (n := 1) allOnes (fun _ => some (Vector.replicate 17 255)) AState.init
      [false, true, false, true]).fault = some .dataRace := by decide +kernel

/-- A cell that has the key and cannot be read: the user callback receives nothing, as when the key is not
in the table. -/
theorem C33_failed_read :
    (run Sample.key (fun t => if t then none else some Sample.other) AState.init
      (List.replicate 6 false ++ List.replicate 6 true)).calls = [none] := by decide +kernel

end Verif.Oceanus.Async
