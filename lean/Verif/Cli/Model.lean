import Verif.Generator.Model

/-!
# The command-line clients

Part of `/repo/src/diana_client.cpp`, `/repo/src/sophos_client.cpp`, `/repo/src/diana_server.cpp` and
`/repo/src/sophos_server.cpp`: the option `-r` (insertion of random entries), the output of results, and the addresses. The
runners are those of `Verif.Runner`; the generator is that of `Verif.Generator`. Not modelled: `getopt`, the logger, the
other options.
-/

namespace Verif.Cli

open Generator (Action Params Loop St Interleaves)

/-! ## Random entries -/

/-- A generated entry: keyword and document -/
abbrev Entry := String × UInt64

/-- What the callback of the Diana client works on -/
structure Gen where
  /-- `g_diana_buffer_list_`, of each thread (diana_client.cpp L22-23); `none` is the null pointer -/
  buffers : Map Nat (List Entry)
  /-- the calls of `insert_in_session`, with their thread -/
  calls : List (Nat × List Entry)

/-- When the generation begins; the threads are new (db_generator.cpp L528-536). -/
def Gen.init : Gen := ⟨Map.empty, []⟩

/-- `gen_callback` of the Diana client, called by thread `t` (diana_client.cpp L108-120) -/
def Gen.diana (g : Gen) (t : Nat) (e : Entry) : Gen :=
  let l := (g.buffers t).getD [] ++ [e]
  if l.length ≥ 50 then ⟨g.buffers.put t [], g.calls ++ [(t, l)]⟩
  else ⟨g.buffers.put t l, g.calls⟩

/-- `gen_callback` of the Sophos client (sophos_client.cpp L100-102) -/
def Gen.sophos (g : Gen) (t : Nat) (e : Entry) : Gen := { g with calls := g.calls ++ [(t, [e])] }

/-- The state at the end of the generation (`end_update_session` follows, diana_client.cpp L122-124), for the calls of the
callback in the order in which they are made -/
def Gen.run (callback : Gen → Nat → Entry → Gen) (tr : List (Nat × Entry)) : Gen :=
  tr.foldl (fun g x => callback g x.1 x.2) Gen.init

/-- `gen_db` (db_generator.cpp L519-548), as `Generator.GenDb`, with the thread of each action -/
def GenDb (P : Params) (threads : UInt32) (rnd : Nat → Nat → UInt64) (tr : List (Nat × Action)) : Prop :=
  ∃ Ls : List (List Action), Ls.length = threads.toNat ∧
    (∀ t L, Ls[t]? = some L → Loop P (UInt32.ofNat t) threads.toUInt64 (rnd t) (St.init P (UInt32.ofNat t)) L) ∧
    Interleaves (Ls.mapIdx (fun t L => L.map (fun a => (t, a)))) tr

/-- The calls of the callback -/
def callbacks (tr : List (Nat × Action)) : List (Nat × Entry) :=
  tr.filterMap (fun x => match x.2 with | .callback kw ind => some (x.1, (kw, ind)) | _ => none)

/-! ## Results -/

/-- How far a call of `print_callback` is (diana_client.cpp L133-145, sophos_client.cpp L115-125) -/
inductive Pc where
  | begun
  /-- after `out_mtx.lock()` -/
  | locked
  /-- after the comma -/
  | separated
  /-- after `first = false` -/
  | marked
  /-- after the result -/
  | printed
  | over
deriving DecidableEq, Repr

/-- The output of a search; the results given to the callback, each with the progress of its call -/
structure Out where
  mtx : Option Nat
  first : Bool
  /-- what was written to the standard output -/
  text : List String
  calls : List (UInt64 × Pc)

/-- Before the search, after `{` (diana_client.cpp L127-147, sophos_client.cpp L109-127) -/
def Out.init : Out := ⟨none, true, [], []⟩

/-- What can happen -/
inductive Act where
  /-- the callback is called. -/
  | call (res : UInt64)
  /-- call number `n` goes on. -/
  | step (n : Nat)
deriving DecidableEq, Repr

/-- One step of call `n`; `quiet` is the option `-q` of the Diana client. -/
def Out.next (quiet : Bool) (o : Out) (n : Nat) (res : UInt64) : Pc → Out × Pc
  | .begun => if quiet then (o, .over) else if o.mtx = none then ({ o with mtx := some n }, .locked) else (o, .begun)
  | .locked => if o.first then (o, .separated) else ({ o with text := o.text ++ [", "] }, .separated)
  | .separated => ({ o with first := false }, .marked)
  | .marked => ({ o with text := o.text ++ [Nat.repr res.toNat] }, .printed)
  | .printed => ({ o with mtx := none }, .over)
  | .over => (o, .over)

/-- One step -/
def Out.step (quiet : Bool) (o : Out) : Act → Out
  | .call res => { o with calls := o.calls ++ [(res, .begun)] }
  | .step n =>
    match o.calls[n]? with
    | none => o
    | some (res, pc) =>
      let r := o.next quiet n res pc
      { r.1 with calls := r.1.calls.set n (res, r.2) }

/-- A run -/
def Out.run (quiet : Bool) (acts : List Act) : Out := acts.foldl (Out.step quiet) Out.init

/-! ## Addresses -/

/-- The two schemes that have command-line programs -/
inductive Scheme where
  | sophos
  | diana
deriving DecidableEq, Repr

/-- The port to which a client connects (sophos_client.cpp L84-85, diana_client.cpp L94-95) -/
def clientPort : Scheme → Nat
  | .sophos => 4240
  | .diana => 4240

/-- The port on which a server listens (sophos_server.cpp L85-86, diana_server.cpp L85-86) -/
def serverPort : Scheme → Nat
  | .sophos => 4240
  | .diana => 4241

end Verif.Cli
