/-
Model of `/repo/tket1-passes/src/lib.rs`: the wrapper of the C library of tket1, and of its use in
`/repo/tket-py/src/passes/tket1.rs`. The library is not part of the repository. What it answers is part of the
statements below, so that theorems hold for all answers. Objects of the library have identities that are never
reused.
-/
namespace Verif.Tket1

/-- The kinds of objects that the library allocates. -/
inductive Kind where
  | circuit | pass | string
deriving DecidableEq, Repr

/-- What happens to the objects of the library, in order. -/
inductive Ev where
  | alloc (k : Kind) (id : Nat)
  | use (k : Kind) (id : Nat)
  | free (k : Kind) (id : Nat)
deriving DecidableEq, Repr

/-- `PassError` (lines 22-37). -/
inductive PassError where
  | tket1 (code : Nat)
  | nullPointer
  | json
deriving DecidableEq, Repr

/-- The memory of the library: the next identity, and the events so far. -/
structure Mem where
  next : Nat
  trace : List Ev

def Mem.alloc (m : Mem) (k : Kind) : Nat × Mem := (m.next, ⟨m.next + 1, m.trace ++ [.alloc k m.next]⟩)
def Mem.use (m : Mem) (k : Kind) (id : Nat) : Mem := ⟨m.next, m.trace ++ [.use k id]⟩
def Mem.free (m : Mem) (k : Kind) (id : Nat) : Mem := ⟨m.next, m.trace ++ [.free k id]⟩

/-- The text that is given to a constructor: serialisation can fail (line 92), and the text can contain a zero
byte (lines 93, 153). -/
inductive Text where
  | failed | zero | ok
deriving DecidableEq

/-- `Tket1Circuit::from_serial_circuit` (lines 91-104) and `Tket1Pass::from_json` (lines 152-162). `found`: the
library does not return a null pointer. -/
def create (k : Kind) (t : Text) (found : Bool) (m : Mem) : Except PassError Nat × Mem :=
  match t with
  | .failed => (.error .json, m)
  | .zero => (.error .nullPointer, m)
  | .ok =>
    if found then
      let (id, m) := m.alloc k
      (.ok id, m)
    else (.error .json, m)

/-- The answer of `tket_circuit_to_json`: the code, and the string if it is not null, with the circuit that
`serde_json` reads from it. -/
structure JsonAns (C : Type) where
  code : Nat
  string : Option (Option C)

/-- `Tket1Circuit::to_serial_circuit` (lines 107-132). The code 0 is success (line 55). -/
def toSerial {C : Type} (id : Nat) (a : JsonAns C) (m : Mem) : Except PassError C × Mem :=
  let m := m.use .circuit id
  let (ptr, m) : Option (Nat × Option C) × Mem := match a.string with
    | none => (none, m)
    | some c =>
      let (s, m) := m.alloc .string
      (some (s, c), m)
  if a.code ≠ 0 then (.error (.tket1 a.code), m)
  else
    match ptr with
    | none => (.error .nullPointer, m)
    | some (s, c) =>
      let m := m.use .string s
      match c with
      | none => (.error .json, m)
      | some c => (.ok c, m.free .string s)

/-- `Tket1Pass::run` (lines 165-172). -/
def run (p id code : Nat) (m : Mem) : Except PassError Unit × Mem :=
  let m := (m.use .circuit id).use .pass p
  if code ≠ 0 then (.error (.tket1 code), m) else (.ok (), m)

/-- `Tket1Pass::run_from_json` (lines 175-178): the pass is dropped at the end. -/
def runFromJson (t : Text) (found : Bool) (id code : Nat) (m : Mem) : Except PassError Unit × Mem :=
  match create .pass t found m with
  | (.error e, m) => (.error e, m)
  | (.ok p, m) =>
    let (r, m) := run p id code m
    (r, m.free .pass p)

/-- Statements of a program that uses the crate. Variables own at most one object. -/
inductive Stmt (C : Type) where
  /-- `x = Tket1Circuit::from_serial_circuit(..)?` or `x = Tket1Pass::from_json(..)?` -/
  | create (k : Kind) (x : Nat) (t : Text) (found : Bool)
  /-- `x.to_serial_circuit()` -/
  | read (x : Nat) (a : JsonAns C)
  /-- `SerialCircuit::from(x)` (lines 83-87): the circuit is moved. -/
  | into (x : Nat) (a : JsonAns C)
  /-- `p.run(&mut x)` -/
  | run (p x code : Nat)
  /-- `Tket1Pass::run_from_json(.., &mut x)` -/
  | runJson (t : Text) (found : Bool) (x code : Nat)
  /-- `drop(x)` -/
  | drop (k : Kind) (x : Nat)
  /-- `y = x` -/
  | move (k : Kind) (x y : Nat)

/-- The variables with the objects that they own. -/
structure Env where
  vars : List (Kind × Nat × Nat)
  mem : Mem

def Env.get (e : Env) (k : Kind) (x : Nat) : Option Nat :=
  (e.vars.find? (fun v => v.1 = k ∧ v.2.1 = x)).map (·.2.2)

/-- A variable goes out of scope or is assigned: `Drop` (lines 135-142, 181-188) frees its object. -/
def Env.drop (e : Env) (k : Kind) (x : Nat) : Env :=
  match e.get k x with
  | none => e
  | some id => ⟨e.vars.filter (fun v => ¬ (v.1 = k ∧ v.2.1 = x)), e.mem.free k id⟩

/-- The variable without `Drop`. -/
def Env.forget (e : Env) (k : Kind) (x : Nat) : Env :=
  ⟨e.vars.filter (fun v => ¬ (v.1 = k ∧ v.2.1 = x)), e.mem⟩

/-- One statement. Programs that use variables without value are rejected by the compiler; they do nothing
here. -/
def exec {C : Type} (e : Env) : Stmt C → Env
  | .create k x t found =>
    if k = .string then e
    else
      match create k t found e.mem with
      | (.error _, m) => ⟨e.vars, m⟩
      | (.ok id, m) =>
        let e := Env.drop ⟨e.vars, m⟩ k x
        ⟨(k, x, id) :: e.vars, e.mem⟩
  | .read x a =>
    match e.get .circuit x with
    | none => e
    | some id => ⟨e.vars, (toSerial id a e.mem).2⟩
  | .into x a =>
    match e.get .circuit x with
    | none => e
    | some id => Env.drop ⟨e.vars, (toSerial id a e.mem).2⟩ .circuit x
  | .run p x code =>
    match e.get .pass p, e.get .circuit x with
    | some p, some id => ⟨e.vars, (run p id code e.mem).2⟩
    | _, _ => e
  | .runJson t found x code =>
    match e.get .circuit x with
    | none => e
    | some id => ⟨e.vars, (runFromJson t found id code e.mem).2⟩
  | .drop k x => e.drop k x
  | .move k x y =>
    match e.get k x with
    | none => e
    | some id =>
      if x = y then e
      else
        let e := (e.forget k x).drop k y
        ⟨(k, y, id) :: e.vars, e.mem⟩

/-- A program, and the end of its scope. -/
def program {C : Type} (p : List (Stmt C)) : Env :=
  let e := p.foldl exec ⟨[], 0, []⟩
  (e.vars.map (fun v => (v.1, v.2.1))).foldl (fun e v => e.drop v.1 v.2) e

/-- What the library answers for one region in `tket1_pass` (tket-py, passes/tket1.rs 41-49). -/
structure RegionAns (C : Type) where
  circuit : Text
  found : Bool
  pass : Text
  passFound : Bool
  code : Nat
  json : JsonAns C

/-- The work on one region (tket-py, passes/tket1.rs 44-47). The circuit is dropped in all cases. -/
def region {C : Type} (a : RegionAns C) (m : Mem) : Except PassError C × Mem :=
  match create .circuit a.circuit a.found m with
  | (.error e, m) => (.error e, m)
  | (.ok id, m) =>
    match runFromJson a.pass a.passFound id a.code m with
    | (.error e, m) => (.error e, m.free .circuit id)
    | (.ok (), m) =>
      let (r, m) := toSerial id a.json m
      (r, m.free .circuit id)

/-- All regions in some order (`try_for_each`, lines 41-49): the first error ends the work. The regions are worked on
in parallel, with variables of their own; for the memory of the library, interleavings are programs as above. -/
def regions {C : Type} : List (RegionAns C) → Mem → Except PassError (List C) × Mem
  | [], m => (.ok [], m)
  | a :: as, m =>
    match region a m with
    | (.error e, m) => (.error e, m)
    | (.ok c, m) =>
      match regions as m with
      | (.error e, m) => (.error e, m)
      | (.ok cs, m) => (.ok (c :: cs), m)

end Verif.Tket1
