import Verif.Model.Decoder

/-!
# What a decoded circuit should compute

A pytket circuit is a sequential program on registers. `spec` runs it symbolically: every register
holds a symbolic value, a command reads the current values of its arguments and overwrites its
output registers. `observe` evaluates the decoded region as a graph. Neither mentions identifiers,
versions or wires of the tracker.
-/

namespace Verif.Decoder

/-- Symbolic values: an input port of the region, a fresh qubit, the constant false, a parameter, the
output port of a command applied to values, or nothing. -/
inductive V (L : Type) where
  | inp (port : Nat)
  | zero
  | ff
  | par (p : Nat)
  | out (l : L) (port : Nat) (ins : List (V L))
  | none
  deriving Repr

section
variable {T R L : Type} [DecidableEq T] [DecidableEq R]

/-! ### Graphs -/

/-- The value of an output port of a node whose inputs have the given values. -/
def portVal (op : Op L) (port : Nat) (ins : List (V L)) : V L :=
  match op with
  | .input => .inp port
  | .alloc => .zero
  | .ff => .ff
  | .toTket | .toNative => ins.headD .none
  | .cmd l => .out l port ins
  | .free | .output => .none

def srcVal (e : Wire → V L) : Src → V L
  | .val w => e w
  | .par p => .par p
  | .gap => .none

/-- The value on a wire of a region. A wire has a value only through nodes added before the one that
uses it. -/
def eval : List (Node T L) → Wire → V L
  | [], _ => .none
  | n :: ns, w =>
    if w.node = ns.length then portVal n.op w.port (n.ins.map (srcVal (eval ns))) else eval ns w

/-- What a region does: for every command and for the output of the region, in order, the values it
receives, port by port. -/
def observe : List (Node T L) → List (Option L × List (V L))
  | [] => []
  | n :: ns =>
    observe ns ++ (match n.op with
      | .cmd l => [(some l, n.ins.map (srcVal (eval ns)))]
      | .output => [(none, n.ins.map (srcVal (eval ns)))]
      | _ => [])

/-- How often a wire is used. -/
def uses (ns : List (Node T L)) (w : Wire) : Nat := ((ns.map Node.ins).flatten).count (.val w)

/-- The type of a wire. -/
def typeOf : List (Node T L) → Wire → Option T
  | [], _ => none
  | n :: ns, w => if w.node = ns.length then n.sigOut[w.port]? else typeOf ns w

/-- Every value input of a node is an output of an earlier node that has the type of the input
port. -/
def WellTyped : List (Node T L) → Prop
  | [] => True
  | n :: ns => (∀ (i : Nat) (w : Wire), n.ins[i]? = some (.val w) →
      ∃ t, typeOf ns w = some t ∧ n.sigIn[i]? = some t) ∧ WellTyped ns

/-! ### Registers -/

/-- The contents of the registers. -/
structure Regs (R L : Type) where
  q : R → V L
  b : R → V L

def setReg (f : R → V L) (r : R) (v : V L) : R → V L := fun r' => if r' = r then v else f r'

/-- The values for the ports of a signature: qubits, bits and parameters are taken in order, other
ports get nothing. -/
def feed (c : Cfg T R) : List T → List (V L) → List (V L) → List Nat → List (V L)
  | [], _, _, _ => []
  | t :: ts, qs, bs, ps =>
    if c.param t then (match ps with | [] => .none | p :: _ => .par p) :: feed c ts qs bs ps.tail
    else if t = c.qb then qs.headD .none :: feed c ts qs.tail bs ps
    else if t = c.bool ∨ t = c.tbool then bs.headD .none :: feed c ts qs bs.tail ps
    else .none :: feed c ts qs bs ps

/-- Assigns the ports of a signature to registers, in order. -/
def assign (c : Cfg T R) (val : Nat → V L) : Regs R L → Nat → List T → List R → List R → Regs R L
  | m, _, [], _, _ => m
  | m, port, t :: ts, qs, bs =>
    if t = c.qb then
      match qs with
      | [] => assign c val m (port + 1) ts qs bs
      | q :: qs => assign c val { m with q := setReg m.q q (val port) } (port + 1) ts qs bs
    else if t = c.bool ∨ t = c.tbool then
      match bs with
      | [] => assign c val m (port + 1) ts qs bs
      | b :: bs => assign c val { m with b := setReg m.b b (val port) } (port + 1) ts qs bs
    else assign c val m (port + 1) ts qs bs

/-- The bits a command reads and the bits it writes. -/
def Mode.readBits (m : Mode) (bs : List R) : List R :=
  match m with
  | .split k => bs.take k
  | .both | .opaque => bs

def Mode.writeBits (m : Mode) (bs : List R) : List R :=
  match m with
  | .split k => bs.drop k
  | .both | .opaque => bs

/-- The qubits and the bits among the arguments of a command. -/
def Cmd.qs (bits : List R) (k : Cmd T R L) : List R := k.args.filter (· ∉ bits)
def Cmd.bs (bits : List R) (k : Cmd T R L) : List R := k.args.filter (· ∈ bits)

/-- The signature of the node of a command. -/
def Cmd.nodeIn (c : Cfg T R) (bits : List R) (k : Cmd T R L) : List T :=
  match k.mode with
  | .opaque => c.opaqueIn (k.qs bits).length (k.bs bits).length k.params.length
  | _ => k.sigIn

def Cmd.nodeOut (c : Cfg T R) (bits : List R) (k : Cmd T R L) : List T :=
  match k.mode with
  | .opaque => c.opaqueOut (k.qs bits).length (k.bs bits).length
  | _ => k.sigOut

/-- The values a command receives. -/
def Cmd.reads (c : Cfg T R) (bits : List R) (k : Cmd T R L) (m : Regs R L) : List (V L) :=
  feed c (k.nodeIn c bits) ((k.qs bits).map m.q) ((k.mode.readBits (k.bs bits)).map m.b) k.params

/-- The registers after a command. -/
def Cmd.step (c : Cfg T R) (bits : List R) (k : Cmd T R L) (m : Regs R L) : Regs R L :=
  assign c (fun port => .out k.label port (k.reads c bits m)) m 0 (k.nodeOut c bits) (k.qs bits)
    (k.mode.writeBits (k.bs bits))

/-- The registers after a list of commands, and what every command receives. -/
def runCmds (c : Cfg T R) (bits : List R) :
    Regs R L → List (Cmd T R L) → List (Option L × List (V L)) × Regs R L
  | m, [] => ([], m)
  | m, k :: ks =>
    let (tr, m') := runCmds c bits (k.step c bits m) ks
    ((some k.label, k.reads c bits m) :: tr, m')

/-- The registers at the start: the input ports of the region in order, then fresh qubits and false
bits. -/
def startRegs (c : Cfg T R) (k : Circ T R L) : Regs R L :=
  assign c .inp ⟨fun _ => .zero, fun _ => .ff⟩ 0 k.sigIn k.qubits k.bits

/-- The qubits in the order of the output. -/
def Circ.outQubits (k : Circ T R L) : List R :=
  (List.range k.qubits.length).filterMap fun i => k.qubits[(k.perm[i]?).getD i]?

/-- What a circuit does. -/
def spec (c : Cfg T R) (k : Circ T R L) : List (Option L × List (V L)) :=
  let (tr, m) := runCmds c k.bits (startRegs c k) k.cmds
  tr ++ [(none, feed c k.sigOut (k.outQubits.map m.q) (k.bits.map m.b) k.outParams)]

/-! ### Assumptions -/

/-- Registers are carried by single qubits and single booleans: no tuples and no other types that
the decoder maps to registers. -/
structure Cfg.Simple (c : Cfg T R) : Prop where
  qb_q : c.qubits c.qb = 1
  qb_b : c.bits c.qb = 0
  bool_q : c.qubits c.bool = 0
  bool_b : c.bits c.bool = 1
  tbool_q : c.qubits c.tbool = 0
  tbool_b : c.bits c.tbool = 1
  rot : c.param c.rot = true
  param : ∀ t, c.param t = true → c.supported t = false
  only : ∀ t, c.supported t = true → t = c.qb ∨ t = c.bool ∨ t = c.tbool

/-- Parameters come after all other ports. -/
def Cfg.paramsLast (c : Cfg T R) : List T → Prop
  | [] => True
  | t :: ts => (c.param t = true → ∀ t' ∈ ts, c.param t' = true) ∧ c.paramsLast ts

/-- The arguments of a command fit its operation: the registers exist, no qubit is used twice, the
signature has as many qubits, bits and parameters as there are arguments, and every bit that is read
is also written. -/
structure Cmd.Ok (c : Cfg T R) (qubits bits : List R) (k : Cmd T R L) : Prop where
  known : ∀ r ∈ k.args, r ∈ qubits ∨ r ∈ bits
  nodup : (k.qs bits).Nodup
  last : c.paramsLast k.sigIn
  split : ∀ n, k.mode = .split n → n ≤ (k.bs bits).length
  back : ∀ r ∈ k.mode.readBits (k.bs bits), r ∈ k.mode.writeBits (k.bs bits)
  types : k.mode ≠ .opaque →
    ∀ t ∈ k.sigIn, t = c.qb ∨ (t = c.bool ∨ t = c.tbool) ∨ c.param t = true
  inQ : k.mode ≠ .opaque → c.countQ k.sigIn = (k.qs bits).length
  inB : k.mode ≠ .opaque → c.countB k.sigIn = (k.mode.readBits (k.bs bits)).length
  inP : k.mode ≠ .opaque → c.countP k.sigIn = k.params.length
  outQ : k.mode ≠ .opaque → c.countQ k.sigOut = (k.qs bits).length
  outB : k.mode ≠ .opaque → c.countB k.sigOut = (k.mode.writeBits (k.bs bits)).length
  outP : k.mode ≠ .opaque → c.countP k.sigOut = 0

/-- A circuit with plain registers, enough of them for the signature of the region, and commands that
fit. -/
structure Circ.Ok (c : Cfg T R) (k : Circ T R L) : Prop where
  single : ∀ r, r ∈ k.qubits ∨ r ∈ k.bits → c.single r = true
  qubits : k.qubits.Nodup
  bits : k.bits.Nodup
  cmds : ∀ x ∈ k.cmds, x.Ok c k.qubits k.bits
  perm : k.outQubits.Perm k.qubits
  range : ∀ p ∈ k.perm, p < k.qubits.length
  inQ : c.countQ k.sigIn ≤ k.qubits.length
  outQ : c.countQ k.sigOut ≤ k.qubits.length
  outB : c.countB k.sigOut ≤ k.bits.length
  outP : c.countP k.sigOut ≤ k.outParams.length

/-- The circuit does not use opaque booleans. -/
structure Circ.Native (c : Cfg T R) (k : Circ T R L) : Prop where
  ne : c.bool ≠ c.tbool
  sigIn : c.tbool ∉ k.sigIn
  sigOut : c.tbool ∉ k.sigOut
  cmdIn : ∀ x ∈ k.cmds, c.tbool ∉ x.sigIn
  cmdOut : ∀ x ∈ k.cmds, c.tbool ∉ x.sigOut

end

end Verif.Decoder
