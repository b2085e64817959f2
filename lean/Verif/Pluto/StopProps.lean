import Verif.Pluto.FaultsProps

/-!
# Pluto databases after stops of the process (C72)

After a database is built, the process may stop, and other processes may create builders of the same database
and stop: as long as they insert nothing and build nothing, what is on disk answers searches as before.
-/

namespace Verif.Pluto

open Tethys (CoreKey Token deriveCoreKey ValueEncoder Params)

variable {W : Type}

/-- The events of processes which create builders and stop -/
def Spec.Idle (e : Ev W) : Prop := e = .kill ∨ ∃ size n, e = .new size n

theorem idle_disk {N : Nat} (P : Params W) (later : List (Ev W)) (h : ∀ e ∈ later, Spec.Idle e) (s : Sys N) :
    (s.run P later).1.disk = s.disk := by
  induction later generalizing s with
  | nil => rfl
  | cons e es ih =>
    have h1 : (s.step P e).1.disk = s.disk := by
      rcases h e (List.mem_cons_self ..) with rfl | ⟨size, n, rfl⟩
      · rfl
      · simp only [Sys.step]
        split <;> rfl
    simp only [Sys.run]
    rw [ih (fun e he => h e (List.mem_cons_of_mem _ he)), h1]

/-- **C72** for Pluto, with the restrictions of `C72_pluto_partial`, after the process that built the database
stopped and others created builders and stopped: the searches return the same documents. -/
theorem C72_pluto_stopped_partial (P : Params W) (size : Nat) (n : UInt64) (rand : Nat → CoreKey)
    (index : List (W × List Index)) (hok : Spec.IndexOk P.page size P.prf P.H n rand index)
    (d : Disk (P.page / 8 - 6)) (ht : d.table = []) (hst : d.stash = none) (es : List (Ev W)) (os : List Put)
    (s : Sys (P.page / 8 - 6)) (rs : List (Except DiskFault Unit))
    (hrun : Sys.run P ⟨d, none⟩ (.new size n :: (es ++ [.build rand os])) = (s, .ok () :: (rs ++ [.ok ()])))
    (hret : Spec.Retried P.page P.prf P.H index es rs)
    (later : List (Ev W)) (hl : ∀ e ∈ later, Spec.Idle e) :
    (∀ x ∈ index, d.rocks (deriveCoreKey P.H (P.prf x.1) (x.2.length / (P.page / 8 - 6) + 1)) = none →
      ∀ fuel, x.2.length / (P.page / 8 - 6) < fuel →
      ∃ r, (s.run P later).1.disk.search P (fun _ => false) fuel x.1 = .ok r ∧ r.Perm x.2) ∧
    ∀ w, Spec.Absent P.page P.prf P.H n rand index w → ¬ Spec.Drawn es (deriveCoreKey P.H (P.prf w) 1) →
      d.rocks (deriveCoreKey P.H (P.prf w) 1) = none → ∀ fuel, 0 < fuel →
      (s.run P later).1.disk.search P (fun _ => false) fuel w = .ok [] := by
  rw [idle_disk P later hl s]
  exact C72_pluto_partial P size n rand index hok d ht hst es os s rs hrun hret

/-- The hypotheses hold for the construction with failing writes, then a stop, a builder, and a stop. -/
example : Spec.IndexOk 104 2 Tethys.Sample.prf Tethys.Sample.H 17 Sample.rand Sample.index ∧
    (Sample.empty.run Tethys.Sample.params (.new 2 17 :: (Sample.retries ++ [.build Sample.rand []]))).2 =
      .ok () :: (Sample.outcomes ++ [.ok ()]) ∧
    Spec.Retried 104 Tethys.Sample.prf Tethys.Sample.H Sample.index Sample.retries Sample.outcomes ∧
    (∀ e ∈ ([.kill, .new 2 17, .kill] : List (Ev Nat)), Spec.Idle e) ∧
    Sample.after (.new 2 17 :: (Sample.retries ++ [.build Sample.rand [], .kill, .new 2 17, .kill]))
      (fun _ => false) 1 = some [8, 1, 2, 3, 4, 5, 6, 7] := by
  refine ⟨sample_index_ok, by decide +kernel, Sample.retried, ?_, by decide +kernel⟩
  intro e he
  simp only [List.mem_cons, List.not_mem_nil, or_false] at he
  rcases he with rfl | rfl | rfl
  · exact Or.inl rfl
  · exact Or.inr ⟨2, 17, rfl⟩
  · exact Or.inl rfl

end Verif.Pluto
