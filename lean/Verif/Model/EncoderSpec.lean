import Verif.Model.Encoder
import Mathlib.Data.List.Forall2

/-!
# What an encoded circuit should do

A specification, independent of the encoder, of when a list of pytket commands executes a dataflow
region.  Every register of a sort holds some content; a command for an operation must find in its
arguments exactly the values which the wires of the operation carry, and leaves there the values
which the operation produces.
-/

namespace Verif.Encoder

/-- The identity of a value of one sort in a region: the `k`-th input value, the `k`-th value
produced by an operation, or the fixed initial value (`|0⟩`, `false`) allocated by an item. -/
inductive Val
  | input (k : Nat)
  | out (n k : Nat)
  | zero (n : Nat)
  deriving DecidableEq, Repr

/-- The content of a register. Registers which are no input start out `clean` (`|0⟩`, `false`). -/
inductive Content
  | clean
  | junk
  | holds (v : Val)
  deriving DecidableEq, Repr

/-- The values carried by a wire. -/
structure Den (E : Type) where
  reg : Srt → List Val
  params : List E

variable {W E : Type} [DecidableEq W]

def Item.inVals (it : Item W E) (D : W → Den E) (s : Srt) : List Val :=
  it.ins.flatMap fun w => (D w).reg s

def Item.outVals (it : Item W E) (D : W → Den E) (s : Srt) : List Val :=
  it.outs.flatMap fun w => (D w).reg s

def Item.inParams (it : Item W E) (D : W → Den E) : List E := it.ins.flatMap fun w => (D w).params

def Item.outParams (it : Item W E) (D : W → Den E) : List E := it.outs.flatMap fun w => (D w).params

/-- The meaning of an item: which values its output wires carry. -/
def Item.Meaning (it : Item W E) (D : W → Den E) : Prop :=
  match it.kind with
  | .gate | .group =>
    (∀ s, it.outVals D s = (List.range (it.outVals D s).length).map (Val.out it.id)) ∧
      it.outParams D = it.pf (it.inParams D)
  | .transparent =>
    (∀ s, it.outVals D s = it.inVals D s) ∧ it.outParams D = it.pf (it.inParams D)
  | .alloc s =>
    it.outVals D s = [.zero it.id] ∧ (∀ s', s' ≠ s → it.outVals D s' = []) ∧ it.outParams D = []
  | .free => it.outs = []
  | .dup => ∃ w, it.ins = [w] ∧ ∀ o ∈ it.outs, D o = D w

/-- `D` assigns to every wire of the region the values it carries. -/
structure IsVal (c : Circ W E) (D : W → Den E) : Prop where
  width : ∀ w s, ((D w).reg s).length = (c.cnt w).reg s
  widthP : ∀ w, ((D w).params).length = (c.cnt w).params
  inputs : ∀ s, c.inputs.flatMap (fun w => (D w).reg s) =
    (List.range (c.total c.inputs s)).map Val.input
  inputsP : c.inputs.flatMap (fun w => (D w).params) =
    (List.range (c.totalP c.inputs)).map c.paramVar
  items : ∀ it ∈ c.items, it.Meaning D

/-- A register may be read as the value `v`.  With `strict`, an allocated value must be found in a
clean register. -/
def Matches (strict : Prop) (x : Content) (v : Val) : Prop :=
  match v with
  | .zero _ => strict → x = .clean
  | v => x = .holds v

/-- The registers of one sort after a command: the first arguments hold the produced values, other
qubit arguments are used up, other bit arguments keep their content. -/
def write (s : Srt) (f : Nat → Content) (args : List Nat) (vs : List Val) (r : Nat) : Content :=
  match (args.zip vs).lookup r with
  | some v => .holds v
  | none => if s = .qubit ∧ r ∈ args then .junk else f r

/-- The command executes the operation of `it`, as far as registers of the sort `s` go. -/
structure Step (D : W → Den E) (s : Srt) (strict : Prop) (f : Nat → Content) (cmd : Cmd E)
    (it : Item W E) : Prop where
  node : cmd.node = it.id
  reads : ∃ a b, cmd.args s = a ++ b ∧
    List.Forall₂ (fun r v => Matches strict (f r) v) a (it.inVals D s)
  writes : (it.outVals D s).length ≤ (cmd.args s).length
  length : (cmd.args s).length ≤ max (it.inVals D s).length (it.outVals D s).length
  distinct : s = .qubit ∨ it.outVals D s ≠ [] → (cmd.args s).Nodup

/-- Execution of a list of commands for a list of operations. -/
inductive Runs (D : W → Den E) (s : Srt) (strict : Prop) :
    (Nat → Content) → List (Cmd E) → List (Item W E) → (Nat → Content) → Prop
  | nil (f) : Runs D s strict f [] [] f
  | cons {f cmd it cmds its f'} (h : Step D s strict f cmd it)
      (t : Runs D s strict (write s f (cmd.args s) (it.outVals D s)) cmds its f') :
      Runs D s strict f (cmd :: cmds) (it :: its) f'

/-- The registers before the first command: the inputs are in the first registers, in order. -/
def initFile (c : Circ W E) (s : Srt) (r : Nat) : Content :=
  if r < c.total c.inputs s then .holds (.input r) else .clean

/-- All uses of wires. -/
def Circ.useList (c : Circ W E) : List W := c.items.flatMap (·.ins) ++ c.outputs

/-- The items which give rise to a command. -/
def Circ.emits (c : Circ W E) (it : Item W E) : Bool :=
  match it.kind with
  | .gate => true
  | .group => decide (c.total it.ins .qubit + c.total it.outs .qubit +
      c.total it.ins .bit + c.total it.outs .bit ≠ 0)
  | _ => false

/-! ### Well-formed regions -/

/-- The wires available so far, and the unsupported components not yet encoded. -/
structure Front (W E : Type) where
  avail : List W
  pend : List (Item W E)

/-- Reading `w`: it is available, or a waiting component produces it. -/
def Front.need (st : Front W E) (w : W) : Option (Front W E) :=
  if w ∈ st.avail then some st
  else match st.pend.find? (owns w) with
    | some g => some ⟨g.outs ++ st.avail, dropOwner w st.pend⟩
    | none => none

def Front.needAll : List W → Front W E → Option (Front W E)
  | [], st => some st
  | w :: ws, st =>
    match st.need w with
    | none => none
    | some st' => Front.needAll ws st'

def Front.item (it : Item W E) (st : Front W E) : Option (Front W E) :=
  match it.kind with
  | .free => some st
  | .group => if ∀ w ∈ it.ins, w ∈ st.avail then some ⟨st.avail, st.pend ++ [it]⟩ else none
  | .alloc _ => some ⟨it.outs ++ st.avail, st.pend⟩
  | _ =>
    match Front.needAll it.ins st with
    | none => none
    | some st' => some ⟨it.outs ++ st'.avail, st'.pend⟩

def Front.items : List (Item W E) → Front W E → Option (Front W E)
  | [], st => some st
  | it :: its, st =>
    match Front.item it st with
    | none => none
    | some st' => Front.items its st'

/-- A region as the HUGR validator and the traversal guarantee it: wires have one source and are
produced before they are used, and every use is a linked port. -/
structure Ordered (c : Circ W E) : Prop where
  single : (c.inputs ++ c.items.flatMap (·.outs)).Nodup
  topo : ∃ st, Front.items c.items ⟨c.inputs, []⟩ = some st ∧
    ∀ w ∈ c.outputs, w ∈ st.avail ∨ ∃ g ∈ st.pend, w ∈ g.outs
  uses : ∀ w, c.useList.count w ≤ c.nbrs w
  allocOuts : ∀ it ∈ c.items, ∀ s, it.kind = .alloc s → ∃ w, it.outs = [w]
  ids : (c.items.map (·.id)).Nodup

/-- The types of the ports of an item fit its kind. -/
def Item.Typed (c : Circ W E) (it : Item W E) : Prop :=
  match it.kind with
  | .gate | .group => ∀ ps, (it.pf ps).length = c.totalP it.outs
  | .transparent => (∀ s, c.total it.outs s = c.total it.ins s) ∧
      ∀ ps, ps.length = c.totalP it.ins → (it.pf ps).length = c.totalP it.outs
  | .alloc s => ∃ w, it.outs = [w] ∧ (c.cnt w).params = 0 ∧
      ∀ s', (c.cnt w).reg s' = if s' = s then 1 else 0
  | .free => it.outs = []
  | .dup => ∃ w, it.ins = [w] ∧ ∀ o ∈ it.outs, c.cnt o = c.cnt w

/-- No output wire takes some of its registers from the inputs and some afresh; `k` is the number
of registers left to reuse. -/
def NoStraddle : Nat → List Nat → Prop
  | _, [] => True
  | k, n :: ns => (k = 0 ∨ n ≤ k) ∧ NoStraddle (k - n) ns

/-- A wire nobody reads is not followed by another wire with registers of the sort. -/
def DeadLast (c : Circ W E) (s : Srt) : List W → Prop
  | [] => True
  | w :: ws => (c.nbrs w = 0 → (c.cnt w).reg s = 0 ∨ c.total ws s = 0) ∧ DeadLast c s ws

/-- The conditions on an item under which the registers of sort `s` are handled correctly. -/
structure SafeItem (c : Circ W E) (s : Srt) (it : Item W E) : Prop where
  /-- the registers of an operation with results of this sort are not needed elsewhere -/
  excl : s = .qubit ∨ it.kind = .transparent ∨ c.total it.outs s ≠ 0 →
    ∀ w ∈ it.ins, (c.cnt w).reg s ≠ 0 → c.useList.count w ≤ 1
  straddle : NoStraddle (c.total it.ins s) (it.outs.map fun w => (c.cnt w).reg s)
  dead : DeadLast c s it.outs
  /-- an unsupported component does not produce more registers than it consumes -/
  group : it.kind = .group → c.total it.outs s ≤ c.total it.ins s
  dup : it.kind = .dup → ∀ w ∈ it.ins, (c.cnt w).reg s = 0

/-- The conditions on a region under which the registers of sort `s` are handled correctly. -/
structure Safe (c : Circ W E) (s : Srt) : Prop where
  inputs : DeadLast c s c.inputs
  items : ∀ it ∈ c.items, SafeItem c s it
  outputs : s = .qubit → ∀ w ∈ c.outputs, (c.cnt w).reg s ≠ 0 → c.useList.count w ≤ 1

/-- Every wire with registers of the sort is read. -/
def AllUsed (c : Circ W E) (s : Srt) (ws : List W) : Prop :=
  ∀ w ∈ ws, (c.cnt w).reg s ≠ 0 → c.nbrs w ≠ 0

/-- The item gives up no register. -/
def NonShrink (c : Circ W E) (s : Srt) (it : Item W E) : Prop :=
  c.total it.ins s ≤ c.total it.outs s ∧ AllUsed c s it.outs

/-- After an item which gives up a register there is no allocation. -/
def AllocFirst (c : Circ W E) (s : Srt) : List (Item W E) → Prop
  | [] => True
  | it :: its =>
    (NonShrink c s it ∨ it.kind = .free ∨ ∀ it' ∈ its, it'.kind ≠ .alloc s) ∧ AllocFirst c s its

end Verif.Encoder
