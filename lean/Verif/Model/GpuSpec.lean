import Verif.Model.Gpu
import Mathlib.Data.List.Forall2

/-
What the GPU library is promised: the documentation at the top of `gpu.rs` and of `pack_arguments`.
-/
namespace Verif.Gpu

/-- Types of arguments that can be passed. -/
def Ty.Passable (t : Ty) : Prop := t = .int 1 ∨ t = .int 64 ∨ t = .float

/-- Results that can be returned: nothing, or one number. -/
def Returnable (outs : List Ty) : Prop := outs = [] ∨ outs = [.int 64] ∨ outs = [.float]

/-- Operations that can be compiled. -/
def Site.Supported : Site → Prop
  | .call args outs => (∀ t ∈ args, t.Passable) ∧ Returnable outs
  | .readResult outs => Returnable outs
  | _ => True

/-- Values are in the range of their type. -/
def Val.InRange : Val → Prop
  | .int w n => n < 2 ^ w
  | .float b => b < 2 ^ 64
  | .other => True

/-- The operands have the types of the operation. -/
def Fits (site : Site) (o : Operands) : Prop :=
  match site with
  | .getContext w => o.index < 2 ^ w
  | .call args _ => o.vals.map Val.ty = args ∧ ∀ v ∈ o.vals, v.InRange
  | _ => True

/-- The number with the given bytes, lowest first. -/
def ofLe : List Nat → Nat
  | [] => 0
  | b :: bs => b + 256 * ofLe bs

/-- The number in a memory word. -/
def readWord (little : Bool) (bs : List Nat) : Nat :=
  if little then ofLe bs else ofLe bs.reverse

/-- How the library reads a blob with the help of the signature: one byte for a boolean, eight for
numbers, nothing between and nothing after them. -/
def unpack (little : Bool) : Sym → List Nat → Option (List Val)
  | [], _ => none
  | c :: cs, bs =>
    if c = ':' then (if bs = [] then some [] else none)
    else if c = 'b' then
      bs.head?.bind fun b => (unpack little cs bs.tail).map (.int 1 b :: ·)
    else if bs.length < 8 then none
    else if c = 'i' then (unpack little cs (bs.drop 8)).map (.int 64 (readWord little (bs.take 8)) :: ·)
    else if c = 'f' then (unpack little cs (bs.drop 8)).map (.float (readWord little (bs.take 8)) :: ·)
    else none

/-- The result that a signature announces. -/
def announces (sig : Sym) (outs : List Ty) : Prop :=
  (outs = [] ∧ sig.getLast? = some 'v') ∨ (outs = [.int 64] ∧ sig.getLast? = some 'i') ∨
    (outs = [.float] ∧ sig.getLast? = some 'f')

/-- Calls that belong to one execution of an operation. -/
def Call.own : Call → Bool
  | .init _ => true
  | .discard _ => true
  | .gpuCall .. => true
  | .getResult .. => true
  | _ => false

/-- Operations whose executions call the library each time. -/
def Site.calls : Site → Bool
  | .getContext _ => true
  | .dispose => true
  | .call .. => true
  | .readResult outs => outs ≠ []
  | _ => false

/-- Operations that use a context. -/
def Site.usesContext : Site → Bool
  | .dispose => true
  | .call .. => true
  | .readResult _ => true
  | _ => false

/-- The call that an execution of an operation makes. -/
def Asks (little : Bool) (step : Site × Operands) (c : Call) : Prop :=
  match step.1 with
  | .getContext _ => c = .init (step.2.index % 2 ^ 64)
  | .dispose => c = .discard step.2.handle
  | .call _ outs => ∃ blob sig, c = .gpuCall step.2.handle step.2.func blob.length blob sig ∧
      unpack little sig blob = some step.2.vals ∧ announces sig outs
  | .readResult _ => c = .getResult step.2.handle 8
  | _ => False

/-- The value of an execution is what the library answered. -/
def Answered (lib : Lib) (trace : List Call) (step : Site × Operands) (r : Ret) : Prop :=
  match step.1 with
  | .getContext _ => ∃ pre, (.init (step.2.index % 2 ^ 64) :: pre) <:+ trace ∧
      r = .context (lib pre (.init (step.2.index % 2 ^ 64))).out
  | .dispose => r = .none
  | .lookupById id => r = .func id
  | .lookupByName name => ∃ pre, (.getFunctionId name :: pre) <:+ trace ∧
      r = .func (lib pre (.getFunctionId name)).out
  | .call .. => r = .result step.2.handle
  | .readResult outs =>
    (outs = [] ∧ r = .context step.2.handle) ∨
    ∃ pre, (.getResult step.2.handle 8 :: pre) <:+ trace ∧
      ((outs = [.int 64] ∧ r = .int step.2.handle (lib pre (.getResult step.2.handle 8)).out) ∨
       (outs = [.float] ∧ r = .float step.2.handle (lib pre (.getResult step.2.handle 8)).out))

/-- The protocol (calls latest first): the first call is the validation of the version, there is no
other validation, and every name is looked up at most once. -/
structure Protocol (trace : List Call) : Prop where
  first : trace = [] ∨ ∃ later, trace = later ++ [.validateApi 0 1 0] ∧
    ∀ c ∈ later, ∀ a b d, c ≠ .validateApi a b d
  once : ∀ name, trace.count (.getFunctionId name) ≤ 1
  noError : ∀ c ∈ trace, c ≠ .getError ∧ ∀ code msg, c ≠ .panicStr code msg

/-- All calls were successful. -/
def AllOk (lib : Lib) (trace : List Call) : Prop :=
  ∀ c pre, (c :: pre) <:+ trace → (lib pre c).status ≠ 0

/-- The program ended with a report of the error of the last call. -/
def Reported (lib : Lib) (trace : List Call) (c : Call) (pre : List Call) : Prop :=
  (lib pre c).status = 0 ∧ AllOk lib pre ∧
  ∃ msg, trace = .panicStr 70002 msg :: .getError :: c :: pre ∧
    (∀ x, (lib (c :: pre) .getError).msg = some x → msg = x) ∧
    ((lib (c :: pre) .getError).msg = none →
      msg = ['N', 'o', ' ', 'e', 'r', 'r', 'o', 'r', ' ', 'm', 'e', 's', 's', 'a', 'g', 'e', ' ', 'a',
        'v', 'a', 'i', 'l', 'a', 'b', 'l', 'e'])

/-- Contexts are used only after a context was made. -/
def Handled (steps : List (Site × Operands)) : Prop :=
  ∀ pre step post, steps = pre ++ step :: post → step.1.usesContext = true →
    ∃ x ∈ pre, ∃ w, x.1 = .getContext w

/-- No other symbol of the module is one of those used for GPU calls. -/
def Unused (others : List Sym) : Prop :=
  respSym ∉ others ∧ errSym ∉ others ∧ valSym ∉ others ∧ valFlag ∉ others ∧
    ∀ name, lookSym name ∉ others ∧ flagSym name ∉ others ∧ idSym name ∉ others

/-- The operations that are executed. -/
def Executes (sites : List Site) (steps : List (Nat × Operands)) (run : List (Site × Operands)) :
    Prop :=
  List.Forall₂ (fun (x : Nat × Operands) (y : Site × Operands) =>
    sites[x.1]? = some y.1 ∧ x.2 = y.2 ∧ Fits y.1 y.2) steps run

end Verif.Gpu
