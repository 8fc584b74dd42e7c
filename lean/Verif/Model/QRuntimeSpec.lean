import Mathlib.Data.List.Forall2
import Verif.Model.QRuntime

/-
What programs with measurements and futures mean, without handles and reference counts.
-/
namespace Verif.QRuntime

/-- Values can be copied and discarded. -/
def Ty.copyable : Ty → Bool
  | .bool => true
  | .int => true
  | .flt => true
  | _ => false

/-- The program uses wires of the right types, each once, and ends with wires as in `fin`. -/
def typed (fin : List (Nat × Ty) → Prop) : Prog → List (Nat × Ty) → Prop
  | .done, Γ => fin Γ
  | .op o ins outs k, Γ => ∃ Γ', takeAll Γ ins = some (o.sig.1, Γ') ∧
      outs.length = o.sig.2.length ∧ typed fin k (outs.zip o.sig.2 ++ Γ')
  | .const _ out k, Γ => typed fin k ((out, .flt) :: Γ)
  | .copy w a b k, Γ => ∃ t Γ', takeOne Γ w = some (t, Γ') ∧ t.copyable = true ∧
      typed fin k ((a, t) :: (b, t) :: Γ')
  | .discard w k, Γ => ∃ t Γ', takeOne Γ w = some (t, Γ') ∧ t.copyable = true ∧ typed fin k Γ'
  | .ite w t e, Γ => ∃ Γ', takeOne Γ w = some (.bool, Γ') ∧ typed fin t Γ' ∧ typed fin e Γ'
  | .unwrap w out k k', Γ => ∃ Γ', takeOne Γ w = some (.optQ, Γ') ∧
      typed fin k ((out, .qb) :: Γ') ∧ typed fin k' Γ'

/-- Values: a future is the outcome of its measurement. -/
inductive SVal
  | qb (q : Nat)
  | fut (v : Nat)
  | bool (b : Bool)
  | int (n : Nat)
  | flt (x : Nat)
  | opt (o : Option Nat)
deriving DecidableEq

/-- Decisions of the device to come, and what happened so far. -/
structure SS where
  allocs : List (Option Nat)
  outcomes : List Nat
  log : List Ev

/-- What happens, in addition. -/
def SS.say (s : SS) (es : List Ev) : SS := { s with log := s.log ++ es }

/-- A measurement: the next outcome. -/
def SS.next (s : SS) : Option (Nat × SS) :=
  match s.outcomes with
  | [] => none
  | v :: vs => some (v, { s with outcomes := vs })

/-- The meaning of the operations, after their descriptions (`extension/qsystem.rs:139-156`,
`extension/futures.rs:130-139`). -/
def meaning : Op → List SVal → SS → Option (List SVal × SS)
  | .rz, [.qb q, .flt a], s => some ([.qb q], s.say [.rz q a])
  | .zzPhase, [.qb q, .qb r, .flt a], s => some ([.qb q, .qb r], s.say [.rzz q r a])
  | .phasedX, [.qb q, .flt a, .flt b], s => some ([.qb q], s.say [.rxy q a b])
  -- measure and lose the qubit
  | .measure, [.qb q], s => s.next.map fun (v, s) => ([.bool (v != 0)], s.say [.meas q v, .free q])
  | .lazyMeasure, [.qb q], s => s.next.map fun (v, s) => ([.fut v], s.say [.meas q v, .free q])
  | .lazyMeasureLeaked, [.qb q], s =>
    s.next.map fun (v, s) => ([.fut v], s.say [.leak q v, .free q])
  -- measure and reset
  | .measureReset, [.qb q], s =>
    s.next.map fun (v, s) => ([.qb q, .bool (v != 0)], s.say [.meas q v, .reset q])
  | .lazyMeasureReset, [.qb q], s =>
    s.next.map fun (v, s) => ([.qb q, .fut v], s.say [.meas q v, .reset q])
  | .reset, [.qb q], s => some ([.qb q], s.say [.reset q])
  -- a qubit in the state zero
  | .tryQAlloc, [], s => match s.allocs with
    | [] => none
    | none :: as => some ([.opt none], { s with allocs := as }.say [.alloc none])
    | some q :: as => some ([.opt (some q)], { s with allocs := as }.say [.alloc (some q), .reset q])
  | .qfree, [.qb q], s => some ([], s.say [.free q])
  | .barrier _, vs, s => some (vs, s)
  -- both copies give the same outcome
  | .dup _, [.fut v], s => some ([.fut v, .fut v], s)
  | .free _, [.fut _], s => some ([], s)
  | .read .bool, [.fut v], s => some ([.bool (v != 0)], s)
  | .read .int, [.fut v], s => some ([.int v], s)
  | _, _, _ => none

/-- The meaning of a program. -/
def means : Prog → List (Nat × SVal) → SS → Option (List (Nat × SVal) × SS)
  | .done, env, s => some (env, s)
  | .op o ins outs k, env, s => do
    let (vs, env') ← takeAll env ins
    let (rs, s') ← meaning o vs s
    means k (outs.zip rs ++ env') s'
  | .const x out k, env, s => means k ((out, .flt x) :: env) s
  | .copy w a b k, env, s => do
    let (v, env') ← takeOne env w
    means k ((a, v) :: (b, v) :: env') s
  | .discard w k, env, s => do
    let (_, env') ← takeOne env w
    means k env' s
  | .ite w t e, env, s =>
    match takeOne env w with
    | some (.bool true, env') => means t env' s
    | some (.bool false, env') => means e env' s
    | _ => none
  | .unwrap w out k k', env, s =>
    match takeOne env w with
    | some (.opt (some q), env') => means k ((out, .qb q) :: env') s
    | some (.opt none, env') => means k' env' s
    | _ => none

/-- The operation does not use futures of other types. -/
def Op.supported : Op → Bool
  | .read .other => false
  | .dup .other => false
  | .free .other => false
  | _ => true

/-- The futures of the program are of the supported types. -/
def supported : Prog → Bool
  | .done => true
  | .op o _ _ k => o.supported && supported k
  | .const _ _ k => supported k
  | .copy _ _ _ k => supported k
  | .discard _ k => supported k
  | .ite _ t e => supported t && supported e
  | .unwrap _ _ k k' => supported k && supported k'

/-- The qubit held by a value. -/
def Val.qubit : Val → Option Nat
  | .qb q => some q
  | .opt o => o
  | _ => none

/-- The handle held by a value. -/
def Val.handle : Val → Option Nat
  | .fut h => some h
  | _ => none

/-- The runtime keeps exactly what the values refer to: every allocated qubit is held by one value,
and every handle has as many references as values hold it. -/
structure Balanced (vs : List Val) (s : RT) : Prop where
  qubits : (vs.filterMap Val.qubit).Perm s.live
  nodup : s.live.Nodup
  refs : ∀ h, s.refs h = (vs.filterMap Val.handle).count h

/-- The value is of the type. -/
def hasTy (s : RT) : Val → Ty → Prop
  | .qb _, .qb => True
  | .fut h, .fut t => s.kinds h = t
  | .bool _, .bool => True
  | .int _, .int => True
  | .flt _, .flt => True
  | .opt _, .optQ => True
  | _, _ => False

/-- The environment has the names and types of the context. -/
def envTy (s : RT) (env : List (Nat × Val)) (Γ : List (Nat × Ty)) : Prop :=
  List.Forall₂ (fun p q => p.1 = q.1 ∧ hasTy s p.2 q.2) env Γ

/-- The run-time value shows the value. -/
def shows (s : RT) : Val → SVal
  | .qb q => .qb q
  | .fut h => .fut (s.table h)
  | .bool b => .bool b
  | .int n => .int n
  | .flt x => .flt x
  | .opt o => .opt o

/-- The environment at run time shows the environment. -/
def showsEnv (s : RT) (env : List (Nat × Val)) : List (Nat × SVal) :=
  env.map fun p => (p.1, shows s p.2)

/-- The state of the device without the runtime's bookkeeping. -/
def RT.visible (s : RT) : SS :=
  ⟨s.allocs.map fun q => if q = 2 ^ 64 - 1 then none else some q, s.outcomes, s.log⟩

end Verif.QRuntime
