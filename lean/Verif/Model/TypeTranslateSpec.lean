import Verif.Model.TypeTranslate

/-
What a user expects of the translation of types to registers.
-/
namespace Verif.TypeTranslate

/-! ### The answer for a list of translators, without index and cache -/

/-- The answer of the first translator for the extension that has one. -/
def chosen (trs : List Translator) (e n : Nat) (args : List (Option Count)) : Option Count :=
  (trs.filter (fun tr => tr.exts.contains e)).findSome? (fun tr => tr.run n args)

/-- An answer that is not empty. -/
def proper (o : Option Count) : Option Count := o.filter (fun c => c ≠ ⟨0, 0, 0⟩)

mutual
/-- Registers of a type inside other types. -/
def regs (trs : List Translator) : Ty → Option Count
  | .ext e n args =>
    if e = floatExt ∨ e = rotationExt then some ⟨0, 0, 1⟩
    else (chosen trs e n (regsArgs trs args)).filter (fun c => c.params = 0)
  | .sum vs => match vs with
    | [] => some ⟨0, 0, 0⟩
    | [.row ts] => (regsAll trs ts).filter (fun c => c.params = 0)
    | [.row [], .row []] => some ⟨0, 1, 0⟩
    | _ => none
  | .row _ => none
  | .other _ => none
/-- Registers of the components of a tuple. -/
def regsAll (trs : List Translator) : List Ty → Option Count
  | [] => some ⟨0, 0, 0⟩
  | t :: ts => (regs trs t).bind fun a => (regsAll trs ts).map fun b => a.add b
/-- What a translator is told about the arguments of its type. -/
def regsArgs (trs : List Translator) : List Ty → List (Option Count)
  | [] => []
  | t :: ts => proper (regs trs t) :: regsArgs trs ts
end

mutual
/-- All variants of sums are rows, and rows occur nowhere else. -/
def okTy : Ty → Bool
  | .ext _ _ args => okTys args
  | .sum vs => okRows vs
  | .row _ => false
  | .other _ => true
/-- All types of the list are fine. -/
def okTys : List Ty → Bool
  | [] => true
  | t :: ts => okTy t && okTys ts
/-- All are rows of fine types. -/
def okRows : List Ty → Bool
  | [] => true
  | .row ts :: vs => okTys ts && okRows vs
  | _ :: _ => false
end

/-- The answers one expects for a sequence of calls: each depends on the translators added so far
and on nothing else. -/
def expected : List Translator → List Act → List (Option Count)
  | _, [] => []
  | trs, .add tr :: as => expected (trs ++ [tr]) as
  | trs, .ask t :: as => proper (regs trs t) :: expected trs as

/-- The types asked about are well formed. -/
def Asks (as : List Act) : Prop := ∀ t, Act.ask t ∈ as → okTy t = true

/-! ### Registers as leaves of the type -/

/-- A register. -/
inductive Reg
  | q
  | b
deriving DecidableEq

mutual
/-- The registers of a type in order: one per qubit and boolean in a nest of tuples and futures. -/
inductive Leaves : Ty → List Reg → Prop
  | qubit (args) : Leaves (.ext preludeExt 0 args) [.q]
  | native : Leaves (.sum [.row [], .row []]) [.b]
  | tket (args) : Leaves (.ext boolExt 0 args) [.b]
  | never : Leaves (.sum []) []
  | tuple {ts rs} : LeavesAll ts rs → Leaves (.sum [.row ts]) rs
  | future {t rs} (args) : Leaves t rs → rs ≠ [] → Leaves (.ext futuresExt 0 (t :: args)) rs
/-- The registers of the components of a tuple. -/
inductive LeavesAll : List Ty → List Reg → Prop
  | nil : LeavesAll [] []
  | cons {t ts rs rs'} : Leaves t rs → LeavesAll ts rs' → LeavesAll (t :: ts) (rs ++ rs')
end

/-- Numbers of registers in a list. -/
def tally (rs : List Reg) : Count := ⟨rs.count .q, rs.count .b, 0⟩

mutual
/-- Values of a type. -/
inductive HasTy : Ty → Val → Prop
  | qubit (args k) : HasTy (.ext preludeExt 0 args) (.qb k)
  | native (b) : HasTy (.sum [.row [], .row []]) (.nb b)
  | tket (args b) : HasTy (.ext boolExt 0 args) (.ob b)
  | tuple {ts vs} : HasTyAll ts vs → HasTy (.sum [.row ts]) (.tup vs)
  | future {t v} (args) : HasTy t v → HasTy (.ext futuresExt 0 (t :: args)) (.fut v)
/-- Values of the components of a tuple. -/
inductive HasTyAll : List Ty → List Val → Prop
  | nil : HasTyAll [] []
  | cons {t ts v vs} : HasTy t v → HasTyAll ts vs → HasTyAll (t :: ts) (v :: vs)
end

mutual
/-- The qubits of a value. -/
def Val.qubits : Val → List Nat
  | .qb k => [k]
  | .nb _ => []
  | .ob _ => []
  | .tup vs => qubitsAll vs
  | .fut v => v.qubits
/-- The qubits of several values. -/
def qubitsAll : List Val → List Nat
  | [] => []
  | v :: vs => v.qubits ++ qubitsAll vs
end

mutual
/-- The bits of a value. -/
def Val.bits : Val → List Bool
  | .qb _ => []
  | .nb b => [b]
  | .ob b => [b]
  | .tup vs => bitsAll vs
  | .fut v => v.bits
/-- The bits of several values. -/
def bitsAll : List Val → List Bool
  | [] => []
  | v :: vs => v.bits ++ bitsAll vs
end

mutual
/-- The type without values does not occur. -/
def noNever : Ty → Bool
  | .ext _ _ args => noNevers args
  | .sum vs => !vs.isEmpty && noNevers vs
  | .row ts => noNevers ts
  | .other _ => true
/-- `noNever` for lists. -/
def noNevers : List Ty → Bool
  | [] => true
  | t :: ts => noNever t && noNevers ts
end

end Verif.TypeTranslate
