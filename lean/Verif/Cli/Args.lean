import Verif.Cli.Model

/-!
# The arguments of the command-line programs

`main` of `/repo/src/sophos_client.cpp`, `diana_client.cpp`, `sophos_server.cpp`, `diana_server.cpp`: the
options, and what the clients do then.  `getopt` is that of glibc, without `POSIXLY_CORRECT`: options and
other arguments may be mixed, the other arguments are moved to the end; `--` ends the options.

Not modelled: log messages, texts of error messages, conversion of the number of `-r` (`stod`, a parameter;
`none` when `std::stod` throws).
-/

namespace Verif.Cli

/-- An argument of the program -/
abbrev Arg := List Char

/-! ## getopt -/

/-- What `getopt` returns, with `optarg`. -/
inductive GetoptEv where
  | opt (c : Char) (arg : Arg)
  /-- `'?'`: unknown option, or no argument given -/
  | bad (c : Char)
deriving DecidableEq

/-- The options in one argument, after the `-`; and the option that takes the next argument.
`spec c`: whether the option takes an argument; `none` if it is unknown. -/
def getoptCluster (spec : Char → Option Bool) : List Char → List GetoptEv × Option Char
  | [] => ([], none)
  | c :: cs =>
    match spec c with
    | none => let r := getoptCluster spec cs; (.bad c :: r.1, r.2)
    | some false => let r := getoptCluster spec cs; (.opt c [] :: r.1, r.2)
    | some true => if cs.isEmpty then ([], some c) else ([.opt c cs], none)

/-- The values returned by `getopt` until it returns -1, and the arguments from `optind` on. -/
def getopt (spec : Char → Option Bool) : Option Char → List Arg → List GetoptEv × List Arg
  | none, [] => ([], [])
  | some c, [] => ([.bad c], [])
  | some c, a :: as => let r := getopt spec none as; (.opt c a :: r.1, r.2)
  | none, a :: as =>
    match a with
    | '-' :: c :: cs =>
      if c = '-' ∧ cs = [] then ([], as)
      else
        let k := getoptCluster spec (c :: cs)
        let r := getopt spec k.2 as
        (k.1 ++ r.1, r.2)
    | _ => let r := getopt spec none as; (r.1, a :: r.2)

/-! ## Servers -/

/-- How a program ends before its work. -/
inductive Quit where
  /-- `return 1`, for `'?'` -/
  | badOption
  /-- `exit(-1)` in the `default` case -/
  | unhandled
  /-- exception of `std::stod`, not caught -/
  | stod
deriving DecidableEq

/-- `"b:s"` (sophos_server.cpp L47, diana_server.cpp L48) -/
def serverOptions : Char → Option Bool
  | 'b' => some true
  | 's' => some false
  | _ => none

/-- `server_db`, `async_search` (sophos_server.cpp L44-46) -/
structure ServerArgs where
  db : Arg
  async : Bool
deriving DecidableEq

/-- The loop over the options (sophos_server.cpp L47-68, diana_server.cpp L48-69) -/
def serverLoop : ServerArgs → List GetoptEv → Except Quit ServerArgs
  | s, [] => .ok s
  | _, .bad _ :: _ => .error .badOption
  | s, .opt c a :: l =>
    if c = 'b' then serverLoop { s with db := a } l
    else if c = 's' then serverLoop { s with async := false } l
    else .error .unhandled

/-- The path used if none is given (sophos_server.cpp L79, diana_server.cpp L80) -/
def serverDefault : Scheme → Arg
  | .sophos => "test.ssdb".toList
  | .diana => "test.dsdb".toList

/-- The options of a server, to the construction of its runner (sophos_server.cpp L41-86, diana_server.cpp L42-86) -/
def serverArgs (sc : Scheme) (args : List Arg) : Except Quit ServerArgs :=
  match serverLoop ⟨[], true⟩ (getopt serverOptions none args).1 with
  | .error q => .error q
  | .ok s => .ok (if s.db.isEmpty then { s with db := serverDefault sc } else s)

/-! ## Clients -/

/-- `"l:b:o:i:dr:"` (sophos_client.cpp L36) and `"l:b:dr:q"` (diana_client.cpp L42) -/
def clientOptions : Scheme → Char → Option Bool
  | _, 'l' => some true
  | _, 'b' => some true
  | _, 'd' => some false
  | _, 'r' => some true
  | .sophos, 'o' => some true
  | .sophos, 'i' => some true
  | .diana, 'q' => some false
  | _, _ => none

/-- `input_files`, `client_db`, `rnd_entries_count`, `print_results` (diana_client.cpp L35-40) -/
structure ClientOpts where
  files : List Arg
  db : Arg
  count : UInt32
  quiet : Bool
deriving DecidableEq

/-- The file of `-d` (sophos_client.cpp L46-47, diana_client.cpp L52-53) -/
def debugFile : Arg := "/Users/raphaelbost/Documents/inverted_index_1000.json".toList

/-- The loop over the options (sophos_client.cpp L36-67, diana_client.cpp L42-76) -/
def clientLoop (sc : Scheme) (stod : Arg → Option UInt32) : ClientOpts → List GetoptEv → Except Quit ClientOpts
  | o, [] => .ok o
  | _, .bad _ :: _ => .error .badOption
  | o, .opt c a :: l =>
    if c = 'l' then clientLoop sc stod { o with files := o.files ++ [a] } l
    else if c = 'b' then clientLoop sc stod { o with db := a } l
    else if c = 'd' then clientLoop sc stod { o with files := o.files ++ [debugFile] } l
    else if c = 'q' ∧ sc = .diana then clientLoop sc stod { o with quiet := true } l
    else if c = 'r' then
      match stod a with
      | none => .error .stod
      | some n => clientLoop sc stod { o with count := n } l
    else .error .unhandled

/-- The path used if none is given (sophos_client.cpp L77, diana_client.cpp L86) -/
def clientDefault : Scheme → Arg
  | .sophos => "test.csdb".toList
  | .diana => "test.dcdb".toList

/-- What a client does with its runner. -/
inductive ClientAct where
  /-- construction of the runner for a path -/
  | openDb (path : Arg)
  /-- `load_inverted_index` -/
  | load (file : Arg)
  /-- an update session with the entries of `gen_db` -/
  | random (count : UInt32)
  /-- `search`, with or without printing the results -/
  | search (kw : Arg) (print : Bool)
deriving DecidableEq

/-- The work of a client (sophos_client.cpp L70-139, diana_client.cpp L79-154).  `load_inverted_index` returns
whether the file could be loaded; the result is not used. -/
def clientActs (sc : Scheme) (o : ClientOpts) (words : List Arg) : List ClientAct :=
  [.openDb (if o.db.isEmpty then clientDefault sc else o.db)] ++ o.files.map .load ++
    (if o.count > 0 then [.random o.count] else []) ++ words.map (fun w => .search w (!o.quiet))

/-- The whole client: how it quits, or its work and its status.  `loads f`: whether the file `f` can be loaded. -/
def clientMain (sc : Scheme) (stod : Arg → Option UInt32) (_loads : Arg → Bool) (args : List Arg) :
    Except Quit (List ClientAct × Nat) :=
  let g := getopt (clientOptions sc) none args
  match clientLoop sc stod ⟨[], [], 0, false⟩ g.1 with
  | .error q => .error q
  | .ok o => .ok (clientActs sc o g.2, 0)

end Verif.Cli
