import Verif.Cli.ArgsProps

/-!
# C66: several options in one argument

`getopt` accepts options without argument joined with the next option: `-dqb path` for `-d -q -b path`.
-/

namespace Verif.Cli

/-- The letter of an option without argument -/
def Want.flag : Want → Option Char
  | .sync => some 's'
  | .debug => some 'd'
  | .quiet => some 'q'
  | _ => none

/-- The arguments for one thing that is wanted and the following arguments, joined or not. Only options can be joined. -/
def joinOne (w : Want) (join : Bool) (as : List Arg) : List Arg :=
  match w.flag, join, as with
  | some c, true, ('-' :: x) :: as => ('-' :: c :: x) :: as
  | _, _, as => w.args ++ as

/-- The arguments for what is wanted, where each one may be joined with the next. -/
def joined : List (Want × Bool) → List Arg
  | [] => []
  | (w, join) :: ws => joinOne w join (joined ws)

/-- A word is not joined with a flag before it. -/
def Joinable : List (Want × Bool) → Bool
  | [] => true
  | [_] => true
  | (w, join) :: (v, j) :: ws => !(w.flag.isSome && join && (match v with | .word _ => true | _ => false)) && Joinable ((v, j) :: ws)

theorem getopt_join (spec : Char → Option Bool) (c d : Char) (x : List Char) (as : List Arg) (hs : spec c = some false) (hc : c ≠ '-')
    (hd : d ≠ '-') : getopt spec none (('-' :: c :: d :: x) :: as) = getopt spec none (['-', c] :: ('-' :: d :: x) :: as) := by
  rw [getopt_flag spec c hs hc]
  simp [getopt, getoptCluster, hs, hc, hd]

/-- The first argument for an option -/
theorem joined_first (w : Want) (j : Bool) (ws : List (Want × Bool)) (hw : ∀ x, w ≠ .word x) :
    ∃ d x as, d ≠ '-' ∧ joined ((w, j) :: ws) = ('-' :: d :: x) :: as := by
  cases w with
  | word x => exact absurd rfl (hw x)
  | db p g =>
    cases g
    · exact ⟨'b', [], p :: joined ws, by decide, by simp [joined, joinOne, Want.flag, Want.args, Want.write]⟩
    · exact ⟨'b', p, joined ws, by decide, by simp [joined, joinOne, Want.flag, Want.args, Want.write]⟩
  | file p g =>
    cases g
    · exact ⟨'l', [], p :: joined ws, by decide, by simp [joined, joinOne, Want.flag, Want.args, Want.write]⟩
    · exact ⟨'l', p, joined ws, by decide, by simp [joined, joinOne, Want.flag, Want.args, Want.write]⟩
  | random p g =>
    cases g
    · exact ⟨'r', [], p :: joined ws, by decide, by simp [joined, joinOne, Want.flag, Want.args, Want.write]⟩
    · exact ⟨'r', p, joined ws, by decide, by simp [joined, joinOne, Want.flag, Want.args, Want.write]⟩
  | sync =>
    rw [joined]
    unfold joinOne
    split
    · rename_i c x as hf _
      cases hf
      exact ⟨'s', x, as, by decide, rfl⟩
    · exact ⟨'s', [], _, by decide, rfl⟩
  | debug =>
    rw [joined]
    unfold joinOne
    split
    · rename_i c x as hf _
      cases hf
      exact ⟨'d', x, as, by decide, rfl⟩
    · exact ⟨'d', [], _, by decide, rfl⟩
  | quiet =>
    rw [joined]
    unfold joinOne
    split
    · rename_i c x as hf _
      cases hf
      exact ⟨'q', x, as, by decide, rfl⟩
    · exact ⟨'q', [], _, by decide, rfl⟩

/-- `getopt` reads joined options as if they were written one by one. -/
theorem getopt_joined (spec : Char → Option Bool) (ws : List (Want × Bool)) (tail : List Arg)
    (hspec : ∀ w ∈ ws, ∀ c, w.1.flag = some c → spec c = some false)
    (harg : ∀ w ∈ ws, ∃ e o, ∀ as, getopt spec none (w.1.args ++ as) = (e ++ (getopt spec none as).1, o ++ (getopt spec none as).2))
    (h : Joinable ws = true) :
    getopt spec none (joined ws ++ tail) = getopt spec none ((ws.map (·.1)).flatMap Want.args ++ tail) := by
  induction ws with
  | nil => rfl
  | cons wj ws ih =>
    obtain ⟨w, j⟩ := wj
    have hj' : Joinable ws = true := by
      cases ws with
      | nil => rfl
      | cons v ws => simp only [Joinable, Bool.and_eq_true] at h; exact h.2
    have ih := ih (fun w hw => hspec w (List.mem_cons_of_mem _ hw)) (fun w hw => harg w (List.mem_cons_of_mem _ hw)) hj'
    have hplain : getopt spec none (w.args ++ (joined ws ++ tail)) =
        getopt spec none ((((w, j) :: ws).map (·.1)).flatMap Want.args ++ tail) := by
      rw [List.map_cons, List.flatMap_cons, List.append_assoc]
      obtain ⟨e, o, he⟩ := harg (w, j) List.mem_cons_self
      simp only at he
      rw [he, he, ih]
    rw [← hplain]
    rw [joined]
    unfold joinOne
    split
    · rename_i c x as hf hjs
      cases ws with
      | nil => simp [joined] at hjs
      | cons vj ws =>
        obtain ⟨v, j'⟩ := vj
        have hv : ∀ y, v ≠ .word y := by
          intro y hy
          subst hy
          simp [Joinable, hf] at h
        obtain ⟨d, x', as', hd, hfirst⟩ := joined_first v j' ws hv
        rw [hjs] at hfirst
        simp only [List.cons.injEq, true_and] at hfirst
        obtain ⟨rfl, rfl⟩ := hfirst
        have hc : c ≠ '-' ∧ w.args = [['-', c]] := by
          cases w <;> simp [Want.flag] at hf <;> subst hf <;> exact ⟨by decide, rfl⟩
        rw [List.cons_append, getopt_join spec c d x' _ (hspec (w, true) List.mem_cons_self c hf) hc.1 hd, hc.2, hjs]
        rfl
    · rw [List.append_assoc]

/-- **C66** for servers, with joined options: as if the options were written one by one. -/
theorem C66_server_joined_partial (sc : Scheme) (ws : List (Want × Bool)) (others : List Arg)
    (h : ∀ w ∈ ws, w.1.forServer = true) (hj : Joinable ws = true) :
    serverArgs sc (joined ws) = .ok ⟨ArgSpec.db (serverDefault sc) (ws.map (·.1)), ArgSpec.async (ws.map (·.1))⟩ ∧
    serverArgs sc (joined ws ++ ['-', '-'] :: others) =
      .ok ⟨ArgSpec.db (serverDefault sc) (ws.map (·.1)), ArgSpec.async (ws.map (·.1))⟩ := by
  have key := fun tail => getopt_joined serverOptions ws tail
    (by
      intro w hw c hc
      have := h w hw
      rcases w with ⟨w, j⟩
      cases w <;> simp [Want.flag] at hc <;> subst hc <;> simp [Want.forServer] at this; rfl)
    (by
      intro w hw
      refine ⟨[w.1].flatMap Want.ev, [], fun as => ?_⟩
      have := getopt_server [w.1] as (by simpa using h w hw)
      simpa using this) hj
  have h' := C66_server_partial sc (ws.map (·.1)) others (by
    intro w hw
    obtain ⟨x, hx, rfl⟩ := List.mem_map.mp hw
    exact h x hx)
  refine ⟨?_, ?_⟩
  · rw [← h'.1]
    have := key []
    rw [List.append_nil, List.append_nil] at this
    unfold serverArgs
    rw [this]
  · rw [← h'.2]
    unfold serverArgs
    rw [key]

/-- **C66** for clients, with joined options: as if the options were written one by one. -/
theorem C66_client_joined_partial (sc : Scheme) (stod : Arg → Option UInt32) (loads : Arg → Bool) (ws : List (Want × Bool))
    (others : List Arg) (h : ∀ w ∈ ws, w.1.forClient sc stod = true) (hj : Joinable ws = true) :
    let v := ws.map (·.1)
    clientMain sc stod loads (joined ws ++ ['-', '-'] :: others) =
      .ok ([.openDb (ArgSpec.db (clientDefault sc) v)] ++ (ArgSpec.files v).map .load ++
        (if 0 < ArgSpec.count stod v then [.random (ArgSpec.count stod v)] else []) ++
        (ArgSpec.words v ++ others).map (fun w => .search w (!ArgSpec.quiet v)), 0) ∧
    clientMain sc stod loads (joined ws) =
      .ok ([.openDb (ArgSpec.db (clientDefault sc) v)] ++ (ArgSpec.files v).map .load ++
        (if 0 < ArgSpec.count stod v then [.random (ArgSpec.count stod v)] else []) ++
        (ArgSpec.words v).map (fun w => .search w (!ArgSpec.quiet v)), 0) := by
  intro v
  have key := fun tail => getopt_joined (clientOptions sc) ws tail
    (by
      intro w hw c hc
      have := h w hw
      rcases w with ⟨w, j⟩
      cases w <;> simp [Want.flag] at hc <;> subst hc <;> simp [Want.forClient] at this
      · cases sc <;> rfl
      · subst this; rfl)
    (by
      intro w hw
      refine ⟨[w.1].flatMap Want.ev, ArgSpec.words [w.1], fun as => ?_⟩
      have := getopt_client sc stod [w.1] as (by simpa using h w hw)
      simpa using this) hj
  have h' := C66_client_partial sc stod loads v others (by
    intro w hw
    obtain ⟨x, hx, rfl⟩ := List.mem_map.mp hw
    exact h x hx)
  refine ⟨?_, ?_⟩
  · rw [← h'.1]
    unfold clientMain
    rw [key]
  · rw [← h'.2]
    have := key []
    rw [List.append_nil, List.append_nil] at this
    unfold clientMain
    rw [this]

/-- `-sb dir` for a server, `-dqlx.json cat` for a client -/
example : joined [(.sync, true), (.db "dir".toList false, false)] = ["-sb".toList, "dir".toList] ∧
    Joinable [(.sync, true), (.db "dir".toList false, false)] = true ∧
    joined [(.debug, true), (.quiet, true), (.file "x.json".toList true, true), (.word "cat".toList, false)] =
      ["-dqlx.json".toList, "cat".toList] ∧
    Joinable [(.debug, true), (.quiet, true), (.file "x.json".toList true, true), (.word "cat".toList, false)] = true := by decide +kernel

example : serverArgs .sophos ["-sb".toList, "dir".toList] = .ok ⟨"dir".toList, false⟩ := by decide +kernel

end Verif.Cli
