import Verif.Cli.Args

/-!
# C66: the programs do what their arguments say

Full statement: whatever the arguments, in whatever order and style, a program uses the database named last, the
mode asked for, the files, the number and the keywords given; arguments that it does not understand, files that
cannot be read, are reported by the exit status.

It does not hold: see the `_violated` theorems.
-/

namespace Verif.Cli

/-! ## Specification: what is meant, and how it is written -/

/-- What a user may want, with the style in which it is written: `-b path` or `-bpath`. -/
inductive Want where
  | db (path : Arg) (glued : Bool)
  | sync
  | file (path : Arg) (glued : Bool)
  | debug
  | random (number : Arg) (glued : Bool)
  | quiet
  | word (w : Arg)

namespace Want

/-- An option with an argument -/
def write (c : Char) (a : Arg) (glued : Bool) : List Arg := if glued then ['-' :: c :: a] else [['-', c], a]

/-- The arguments -/
def args : Want → List Arg
  | .db p g => write 'b' p g
  | .sync => [['-', 's']]
  | .file p g => write 'l' p g
  | .debug => [['-', 'd']]
  | .random n g => write 'r' n g
  | .quiet => [['-', 'q']]
  | .word w => [w]

/-- An argument that can be glued to its option, if it is. -/
def gluable (a : Arg) (glued : Bool) : Bool := !glued || !a.isEmpty

/-- A keyword that is not taken for an option -/
def plain (w : Arg) : Bool :=
  match w with
  | '-' :: _ :: _ => false
  | _ => true

/-- What can be written for a server -/
def forServer : Want → Bool
  | .db p g => gluable p g
  | .sync => true
  | _ => false

/-- What can be written for a client of the scheme; the numbers of `-r` are numbers. -/
def forClient (sc : Scheme) (stod : Arg → Option UInt32) : Want → Bool
  | .db p g => gluable p g
  | .file p g => gluable p g
  | .debug => true
  | .random n g => gluable n g && (stod n).isSome
  | .quiet => sc = .diana
  | .word w => plain w
  | .sync => false

end Want

namespace ArgSpec

/-- The database: the one given last, the default if there is none, or if it is empty. -/
def db (dflt : Arg) (ws : List Want) : Arg :=
  match (ws.filterMap (fun w => match w with | .db p _ => some p | _ => none)).getLast? with
  | none => dflt
  | some p => if p = [] then dflt else p

/-- Asynchronous searches, unless `-s` is given -/
def async (ws : List Want) : Bool := !(ws.any (fun w => match w with | .sync => true | _ => false))

/-- The files, in the order given -/
def files (ws : List Want) : List Arg :=
  ws.filterMap (fun w => match w with | .file p _ => some p | .debug => some debugFile | _ => none)

/-- The number given last -/
def count (stod : Arg → Option UInt32) (ws : List Want) : UInt32 :=
  ((ws.filterMap (fun w => match w with | .random n _ => stod n | _ => none)).getLast?).getD 0

/-- No printing -/
def quiet (ws : List Want) : Bool := ws.any (fun w => match w with | .quiet => true | _ => false)

/-- The keywords, in the order given -/
def words (ws : List Want) : List Arg := ws.filterMap (fun w => match w with | .word w => some w | _ => none)

end ArgSpec

/-! ## getopt -/

/-- The event of an option -/
def Want.ev : Want → List GetoptEv
  | .db p _ => [.opt 'b' p]
  | .sync => [.opt 's' []]
  | .file p _ => [.opt 'l' p]
  | .debug => [.opt 'd' []]
  | .random n _ => [.opt 'r' n]
  | .quiet => [.opt 'q' []]
  | .word _ => []

theorem getopt_write (spec : Char → Option Bool) (c : Char) (a : Arg) (g : Bool) (h : spec c = some true)
    (hg : Want.gluable a g = true) (hc : c ≠ '-') (tail : List Arg) :
    getopt spec none (Want.write c a g ++ tail) =
      (.opt c a :: (getopt spec none tail).1, (getopt spec none tail).2) := by
  cases g with
  | false =>
    simp [Want.write, getopt, getoptCluster, h, hc]
  | true =>
    have ha : a ≠ [] := by
      intro h0; subst h0; simp [Want.gluable] at hg
    have hae : a.isEmpty = false := by cases a <;> simp_all
    simp [Want.write, getopt, getoptCluster, h, hc, hae]

theorem getopt_flag (spec : Char → Option Bool) (c : Char) (h : spec c = some false) (hc : c ≠ '-')
    (tail : List Arg) :
    getopt spec none (['-', c] :: tail) =
      (.opt c [] :: (getopt spec none tail).1, (getopt spec none tail).2) := by
  simp [getopt, getoptCluster, h, hc]

theorem getopt_word (spec : Char → Option Bool) (w : Arg) (h : Want.plain w = true) (tail : List Arg) :
    getopt spec none (w :: tail) = ((getopt spec none tail).1, w :: (getopt spec none tail).2) := by
  have key : ∀ r, getopt spec none tail = r → getopt spec none (w :: tail) = (r.1, w :: r.2) := by
    intro r hr
    match w with
    | [] => simp [getopt, hr]
    | [c] => unfold getopt; simp [hr]
    | c :: d :: l =>
      have : c ≠ '-' := by
        intro h0; subst h0; simp [Want.plain] at h
      unfold getopt
      split
      · simp_all
      · simp only [hr]
  exact key _ rfl

theorem getopt_end (spec : Char → Option Bool) (tail : List Arg) :
    getopt spec none (['-', '-'] :: tail) = ([], tail) := by
  simp [getopt]

/-- All options of a client -/
theorem getopt_client (sc : Scheme) (stod : Arg → Option UInt32) (ws : List Want) (tail : List Arg)
    (h : ∀ w ∈ ws, w.forClient sc stod = true) :
    getopt (clientOptions sc) none (ws.flatMap Want.args ++ tail) =
      (ws.flatMap Want.ev ++ (getopt (clientOptions sc) none tail).1,
        ArgSpec.words ws ++ (getopt (clientOptions sc) none tail).2) := by
  induction ws with
  | nil => simp [ArgSpec.words]
  | cons w ws ih =>
    have ih := ih (fun x hx => h x (List.mem_cons_of_mem _ hx))
    have hw := h w List.mem_cons_self
    rw [List.flatMap_cons, List.append_assoc]
    cases w with
    | db p g =>
      rw [Want.args, getopt_write _ _ _ _ (by cases sc <;> rfl) hw (by decide), ih]
      simp [Want.ev, ArgSpec.words]
    | sync => simp [Want.forClient] at hw
    | file p g =>
      rw [Want.args, getopt_write _ _ _ _ (by cases sc <;> rfl) hw (by decide), ih]
      simp [Want.ev, ArgSpec.words]
    | debug =>
      rw [Want.args, List.singleton_append, getopt_flag _ _ (by cases sc <;> rfl) (by decide), ih]
      simp [Want.ev, ArgSpec.words]
    | random n g =>
      simp only [Want.forClient, Bool.and_eq_true] at hw
      rw [Want.args, getopt_write _ _ _ _ (by cases sc <;> rfl) hw.1 (by decide), ih]
      simp [Want.ev, ArgSpec.words]
    | quiet =>
      have hsc : sc = .diana := by simpa [Want.forClient] using hw
      subst hsc
      rw [Want.args, List.singleton_append, getopt_flag _ _ rfl (by decide), ih]
      simp [Want.ev, ArgSpec.words]
    | word w =>
      rw [Want.args, List.singleton_append, getopt_word _ _ hw, ih]
      simp [Want.ev, ArgSpec.words]

/-- All options of a server -/
theorem getopt_server (ws : List Want) (tail : List Arg) (h : ∀ w ∈ ws, w.forServer = true) :
    getopt serverOptions none (ws.flatMap Want.args ++ tail) =
      (ws.flatMap Want.ev ++ (getopt serverOptions none tail).1, (getopt serverOptions none tail).2) := by
  induction ws with
  | nil => simp
  | cons w ws ih =>
    have ih := ih (fun x hx => h x (List.mem_cons_of_mem _ hx))
    have hw := h w List.mem_cons_self
    rw [List.flatMap_cons, List.append_assoc]
    cases w with
    | db p g =>
      rw [Want.args, getopt_write _ _ _ _ rfl hw (by decide), ih]
      simp [Want.ev]
    | sync =>
      rw [Want.args, List.singleton_append, getopt_flag _ _ rfl (by decide), ih]
      simp [Want.ev]
    | _ => simp [Want.forServer] at hw

/-! ## Servers -/

theorem serverLoop_spec (ws : List Want) (s : ServerArgs) (h : ∀ w ∈ ws, w.forServer = true) :
    serverLoop s (ws.flatMap Want.ev) =
      .ok ⟨((ws.filterMap (fun w => match w with | .db p _ => some p | _ => none)).getLast?).getD s.db,
        s.async && ArgSpec.async ws⟩ := by
  induction ws generalizing s with
  | nil => simp [serverLoop, ArgSpec.async]
  | cons w ws ih =>
    have hw := h w List.mem_cons_self
    have ih := fun s => ih s (fun x hx => h x (List.mem_cons_of_mem _ hx))
    rw [List.flatMap_cons]
    cases w with
    | db p g =>
      simp only [Want.ev, List.singleton_append, serverLoop, if_true]
      rw [ih]
      simp [ArgSpec.async, List.getLast?_cons]
    | sync =>
      have : ('s' : Char) ≠ 'b' := by decide
      simp only [Want.ev, List.singleton_append, serverLoop, this, if_true, if_false]
      rw [ih]
      simp [ArgSpec.async]
    | _ => simp [Want.forServer] at hw

/-- **C66** for servers: for all options, in any order, repeated or not, glued or not, the server uses the
database given last and the mode asked for; also if other arguments follow `--`. -/
theorem C66_server_partial (sc : Scheme) (ws : List Want) (others : List Arg)
    (h : ∀ w ∈ ws, w.forServer = true) :
    serverArgs sc (ws.flatMap Want.args) = .ok ⟨ArgSpec.db (serverDefault sc) ws, ArgSpec.async ws⟩ ∧
    serverArgs sc (ws.flatMap Want.args ++ ['-', '-'] :: others) =
      .ok ⟨ArgSpec.db (serverDefault sc) ws, ArgSpec.async ws⟩ := by
  have h1 : (getopt serverOptions none (ws.flatMap Want.args)).1 = ws.flatMap Want.ev := by
    have := getopt_server ws [] h
    rw [List.append_nil] at this
    rw [this]; simp [getopt]
  have h2 : (getopt serverOptions none (ws.flatMap Want.args ++ ['-', '-'] :: others)).1 =
      ws.flatMap Want.ev := by
    rw [getopt_server ws _ h, getopt_end]; simp
  unfold serverArgs
  rw [h1, h2, serverLoop_spec ws _ h]
  simp only [Bool.true_and, and_self]
  unfold ArgSpec.db
  cases (ws.filterMap (fun w => match w with | .db p _ => some p | _ => none)).getLast? with
  | none => simp
  | some p => cases p <;> simp

example : serverArgs .diana ["-b".toList, "x".toList, "-s".toList, "-bdir".toList] =
    .ok ⟨"dir".toList, false⟩ := by decide +kernel

example : ∀ w ∈ [Want.db "x".toList false, .sync, .db "dir".toList true], w.forServer = true := by
  decide +kernel

/-- **C66**, defaults: without arguments the two servers and the two clients use four different databases, so that on one
machine none of them opens the database of another. -/
theorem C66_defaults (stod : Arg → Option UInt32) (loads : Arg → Bool) :
    ∃ ss ds cs cd : Arg, [ss, ds, cs, cd].Nodup ∧ [] ∉ [ss, ds, cs, cd] ∧
      serverArgs .sophos [] = .ok ⟨ss, true⟩ ∧ serverArgs .diana [] = .ok ⟨ds, true⟩ ∧
      clientMain .sophos stod loads [] = .ok ([.openDb cs], 0) ∧
      clientMain .diana stod loads [] = .ok ([.openDb cd], 0) :=
  ⟨"test.ssdb".toList, "test.dsdb".toList, "test.csdb".toList, "test.dcdb".toList,
    by decide +kernel, by decide +kernel, by decide +kernel, by decide +kernel, rfl, rfl⟩

/-- Arguments that are refused by a server: the first that is not understood, after any options. -/
theorem C66_server_refuses (sc : Scheme) (ws : List Want) (h : ∀ w ∈ ws, w.forServer = true) (c : Char)
    (cs : List Char) (tail : List Arg) (hc : c ≠ 'b' ∧ c ≠ 's' ∧ c ≠ '-') :
    serverArgs sc (ws.flatMap Want.args ++ ('-' :: c :: cs) :: tail) = .error .badOption ∧
    serverArgs sc (ws.flatMap Want.args ++ [['-', 'b']]) = .error .badOption := by
  have hs : serverOptions c = none := by
    unfold serverOptions; split <;> simp_all
  have hloop : ∀ (s : ServerArgs) (l : List GetoptEv), serverLoop s (ws.flatMap Want.ev ++ .bad c :: l) =
      .error .badOption ∧ serverLoop s (ws.flatMap Want.ev ++ [.bad 'b']) = .error .badOption := by
    intro s l
    induction ws generalizing s with
    | nil => simp [serverLoop]
    | cons w ws ih =>
      have hw := h w List.mem_cons_self
      have ih := ih (fun x hx => h x (List.mem_cons_of_mem _ hx))
      cases w with
      | db p g => simpa [Want.ev, serverLoop] using ih _
      | sync => simpa [Want.ev, serverLoop] using ih _
      | _ => simp [Want.forServer] at hw
  constructor
  · unfold serverArgs
    rw [getopt_server ws _ h]
    have : ∃ l, (getopt serverOptions none (('-' :: c :: cs) :: tail)).1 = .bad c :: l := by
      have hne : ¬ (c = '-' ∧ cs = []) := fun h => hc.2.2 h.1
      unfold getopt
      simp only [if_neg hne, getoptCluster, hs]
      exact ⟨_, rfl⟩
    obtain ⟨l, hl⟩ := this
    simp only [hl]
    rw [(hloop _ l).1]
  · unfold serverArgs
    rw [getopt_server ws _ h]
    have : (getopt serverOptions none [['-', 'b']]).1 = [.bad 'b'] := by decide +kernel
    simp only [this]
    rw [(hloop _ []).2]

example : serverArgs .sophos ["-s".toList, "-x".toList] = .error .badOption := by decide +kernel

/-- **C66 violated**: a server ignores an argument that is not an option, such as a database given
without `-b`: it uses its default database. -/
theorem C66_server_words_violated (sc : Scheme) (w : Arg) (hw : Want.plain w = true) :
    serverArgs sc [w] = .ok ⟨serverDefault sc, true⟩ := by
  unfold serverArgs
  rw [getopt_word _ _ hw]
  simp [getopt, serverLoop]

/-! ## Clients -/

theorem clientLoop_spec (sc : Scheme) (stod : Arg → Option UInt32) (ws : List Want) (o : ClientOpts)
    (h : ∀ w ∈ ws, w.forClient sc stod = true) :
    clientLoop sc stod o (ws.flatMap Want.ev) =
      .ok ⟨o.files ++ ArgSpec.files ws,
        ((ws.filterMap (fun w => match w with | .db p _ => some p | _ => none)).getLast?).getD o.db,
        ((ws.filterMap (fun w => match w with | .random n _ => stod n | _ => none)).getLast?).getD o.count,
        o.quiet || ArgSpec.quiet ws⟩ := by
  induction ws generalizing o with
  | nil => simp [clientLoop, ArgSpec.files, ArgSpec.quiet]
  | cons w ws ih =>
    have hw := h w List.mem_cons_self
    have ih := fun o => ih o (fun x hx => h x (List.mem_cons_of_mem _ hx))
    rw [List.flatMap_cons]
    cases w with
    | db p g =>
      simp only [Want.ev, List.singleton_append, clientLoop]
      simp only [show ('b' : Char) ≠ 'l' by decide, if_true, if_false]
      rw [ih]
      simp [ArgSpec.files, ArgSpec.quiet, List.getLast?_cons]
    | sync => simp [Want.forClient] at hw
    | file p g =>
      simp only [Want.ev, List.singleton_append, clientLoop, if_true]
      rw [ih]
      simp [ArgSpec.files, ArgSpec.quiet]
    | debug =>
      simp only [Want.ev, List.singleton_append, clientLoop]
      simp only [show ('d' : Char) ≠ 'l' by decide, show ('d' : Char) ≠ 'b' by decide, if_true, if_false]
      rw [ih]
      simp [ArgSpec.files, ArgSpec.quiet]
    | random n g =>
      simp only [Want.forClient, Bool.and_eq_true] at hw
      obtain ⟨v, hv⟩ := Option.isSome_iff_exists.mp hw.2
      simp only [Want.ev, List.singleton_append, clientLoop]
      simp only [show ('r' : Char) ≠ 'l' by decide, show ('r' : Char) ≠ 'b' by decide,
        show ('r' : Char) ≠ 'd' by decide, show ('r' : Char) ≠ 'q' by decide, false_and, if_true, if_false, hv]
      rw [ih]
      simp [ArgSpec.files, ArgSpec.quiet, List.getLast?_cons, hv]
    | quiet =>
      have hsc : sc = .diana := by simpa [Want.forClient] using hw
      subst hsc
      simp only [Want.ev, List.singleton_append, clientLoop]
      simp only [show ('q' : Char) ≠ 'l' by decide, show ('q' : Char) ≠ 'b' by decide,
        show ('q' : Char) ≠ 'd' by decide, and_self, if_true, if_false]
      rw [ih]
      simp [ArgSpec.files, ArgSpec.quiet]
    | word w =>
      simp only [Want.ev, List.nil_append]
      rw [ih]
      simp [ArgSpec.files, ArgSpec.quiet]

/-- **C66** for clients: for all options and keywords, mixed in any order, the client opens the database given
last, loads the files in the order given, inserts the number of random entries given last, and searches the
keywords in the order given; keywords that begin with `-` can follow `--`.
(The status is 0 even if a file cannot be loaded, see `C66_load_violated`.) -/
theorem C66_client_partial (sc : Scheme) (stod : Arg → Option UInt32) (loads : Arg → Bool) (ws : List Want)
    (others : List Arg) (h : ∀ w ∈ ws, w.forClient sc stod = true) :
    clientMain sc stod loads (ws.flatMap Want.args ++ ['-', '-'] :: others) =
      .ok ([.openDb (ArgSpec.db (clientDefault sc) ws)] ++ (ArgSpec.files ws).map .load ++
        (if 0 < ArgSpec.count stod ws then [.random (ArgSpec.count stod ws)] else []) ++
        (ArgSpec.words ws ++ others).map (fun w => .search w (!ArgSpec.quiet ws)), 0) ∧
    clientMain sc stod loads (ws.flatMap Want.args) =
      .ok ([.openDb (ArgSpec.db (clientDefault sc) ws)] ++ (ArgSpec.files ws).map .load ++
        (if 0 < ArgSpec.count stod ws then [.random (ArgSpec.count stod ws)] else []) ++
        (ArgSpec.words ws).map (fun w => .search w (!ArgSpec.quiet ws)), 0) := by
  have h1 : getopt (clientOptions sc) none (ws.flatMap Want.args) =
      (ws.flatMap Want.ev, ArgSpec.words ws) := by
    have := getopt_client sc stod ws [] h
    rw [List.append_nil] at this
    rw [this]; simp [getopt]
  have h2 : getopt (clientOptions sc) none (ws.flatMap Want.args ++ ['-', '-'] :: others) =
      (ws.flatMap Want.ev, ArgSpec.words ws ++ others) := by
    rw [getopt_client sc stod ws _ h, getopt_end]; simp
  have hdb : (if (((ws.filterMap (fun w => match w with | .db p _ => some p | _ => none)).getLast?).getD
      ([] : Arg)).isEmpty then clientDefault sc else
      ((ws.filterMap (fun w => match w with | .db p _ => some p | _ => none)).getLast?).getD []) =
      ArgSpec.db (clientDefault sc) ws := by
    unfold ArgSpec.db
    cases (ws.filterMap (fun w => match w with | .db p _ => some p | _ => none)).getLast? with
    | none => simp
    | some p => cases p <;> simp
  unfold clientMain
  rw [h1, h2]
  simp only [clientLoop_spec sc stod ws _ h, clientActs]
  rw [hdb]
  simp [ArgSpec.count]

/-- Decimal numbers, for the examples -/
def exampleStod (a : Arg) : Option UInt32 :=
  if a = "20".toList then some 20 else none

example : clientMain .diana exampleStod (fun _ => true)
    ["-b".toList, "db".toList, "cat".toList, "-lx.json".toList, "-q".toList, "-r".toList, "20".toList, "dog".toList] =
    .ok ([.openDb "db".toList, .load "x.json".toList, .random 20, .search "cat".toList false,
      .search "dog".toList false], 0) := by decide +kernel

example : ∀ w ∈ [Want.db "db".toList false, .word "cat".toList, .file "x.json".toList true, .quiet,
    .random "20".toList false, .word "dog".toList], w.forClient .diana exampleStod = true := by decide +kernel

/-- **C66 violated**: the client ends with status 0 whether or not its files can be loaded. -/
theorem C66_load_violated (sc : Scheme) (stod : Arg → Option UInt32) (f : Arg) :
    ∀ loads, clientMain sc stod loads [['-', 'l'], f] =
      .ok ([.openDb (clientDefault sc), .load f], 0) := by
  intro loads
  have h := (C66_client_partial sc stod loads [.file f false] []
    (by intro w hw; rw [List.mem_singleton] at hw; subst hw; simp [Want.forClient, Want.gluable])).2
  simpa [Want.args, Want.write, ArgSpec.db, ArgSpec.files, ArgSpec.count, ArgSpec.words] using h

/-- **C66 violated**: the options `-o` and `-i` are announced by the Sophos client but not handled: it exits at
once, whatever else it is asked. -/
theorem C66_sophos_options_violated (stod : Arg → Option UInt32) (loads : Arg → Bool) (ws : List Want)
    (h : ∀ w ∈ ws, w.forClient .sophos stod = true) (a : Arg) (tail : List Arg) :
    clientMain .sophos stod loads (ws.flatMap Want.args ++ ['-', 'o'] :: a :: tail) = .error .unhandled ∧
    clientMain .sophos stod loads (ws.flatMap Want.args ++ ['-', 'i'] :: a :: tail) = .error .unhandled := by
  have hloop : ∀ (c : Char) (o : ClientOpts) (l : List GetoptEv), (c = 'o' ∨ c = 'i') →
      clientLoop .sophos stod o (ws.flatMap Want.ev ++ .opt c a :: l) = .error .unhandled := by
    intro c o l hc
    induction ws generalizing o with
    | nil => rcases hc with rfl | rfl <;> simp [clientLoop]
    | cons w ws ih =>
      have hw := h w List.mem_cons_self
      have ih := ih (fun x hx => h x (List.mem_cons_of_mem _ hx))
      cases w with
      | sync => simp [Want.forClient] at hw
      | quiet => simp [Want.forClient] at hw
      | random n g =>
        simp only [Want.forClient, Bool.and_eq_true] at hw
        obtain ⟨v, hv⟩ := Option.isSome_iff_exists.mp hw.2
        simpa [Want.ev, clientLoop, hv] using ih _
      | db p g => simpa [Want.ev, clientLoop] using ih _
      | file p g => simpa [Want.ev, clientLoop] using ih _
      | debug => simpa [Want.ev, clientLoop] using ih _
      | word w => simpa [Want.ev] using ih _
  have hg : ∀ c : Char, (c = 'o' ∨ c = 'i') →
      ∃ l, (getopt (clientOptions .sophos) none (['-', c] :: a :: tail)).1 = .opt c a :: l := by
    intro c hc
    rcases hc with rfl | rfl <;> exact ⟨_, rfl⟩
  constructor
  · obtain ⟨l, hl⟩ := hg 'o' (Or.inl rfl)
    unfold clientMain
    rw [getopt_client .sophos stod ws _ h]
    simp only [hl]
    rw [hloop 'o' _ l (Or.inl rfl)]
  · obtain ⟨l, hl⟩ := hg 'i' (Or.inr rfl)
    unfold clientMain
    rw [getopt_client .sophos stod ws _ h]
    simp only [hl]
    rw [hloop 'i' _ l (Or.inr rfl)]

end Verif.Cli
