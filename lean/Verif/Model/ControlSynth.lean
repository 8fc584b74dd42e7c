import Verif.Model.Ops
import Mathlib.Analysis.Real.Pi.Bounds

/-!
# Model of the resolution of modifiers on gates

Models `modify_tket_op`, `CombinedModifier::modified`, `CombinedModifier::rot_angle`
(`/repo/tket/src/modifier/modifier_resolver/tket_op_modify.rs`, lines 14-558), `modify_global_phase`
(`/repo/tket/src/modifier/modifier_resolver/global_phase_modify.rs`, lines 19-103) and `with_ancilla`,
`pop_control`, `push_control`, `add_node_control` (`modifier_resolver.rs` 473-497, 592-601).

Representation.
* A wire of qubit type is the name of the qubit line it belongs to: the gates added to the new function are
  recorded in the order in which they act, each with the lines of its qubits. Connecting the output port of
  a gate to the input port of another one makes them share a line.
* The result of `modify` is the list of the lines leaving the emitted gates, in the order of the ports of
  the original gate: for a gate that is not daggered that is `outgoing` of the `PortVector`, for a
  daggered one `incoming` (the ports are swapped). The argument `qs` are the lines entering them.
* The angle, a wire of rotation type in the code, is the argument `θ`, in half-turns, and a real number
  instead of a float.
* The recursion is bounded by a fuel argument; running out of fuel is a separate error.
-/

noncomputable section

namespace Tket.ControlSynth

variable {Q : Type}

/-- A node of the new function. -/
inductive Node (Q : Type) where
  | gate (op : TketOp) (qs : List Q) (θ : ℝ)
  | phase (θ : ℝ)

/-- Failures: `unresolvable` is the error value, `panic` a failing `unwrap` or index. -/
inductive Err where
  | unresolvable | panic | fuel
deriving DecidableEq

/-- The parts of `ModifierResolver` used (the fields `control` and `dagger` of `modifiers`, `controls`),
the argument `ancilla`, and the new function. The vectors grow at the end. -/
structure St (Q : Type) where
  control : Nat
  dagger : Bool
  controls : List Q
  ancilla : List Q
  out : List (Node Q)

/-- Add a node. -/
def St.emit (s : St Q) (n : Node Q) : St Q := { s with out := s.out ++ [n] }

/-- `Vec::pop().unwrap()`. -/
def popLast (l : List Q) : Except Err (Q × List Q) :=
  match l.getLast? with
  | some c => .ok (c, l.dropLast)
  | none => .error .panic

/-- `pop_control().unwrap()` (modifier_resolver.rs 485-492). -/
def popControl (s : St Q) : Except Err (Q × St Q) := do
  let (c, cs) ← popLast s.controls
  .ok (c, { s with controls := cs, control := s.control - 1 })

/-- `push_control` (modifier_resolver.rs 494-497). -/
def pushControl (s : St Q) (c : Q) : St Q :=
  { s with controls := s.controls ++ [c], control := s.control + 1 }

/-- `with_ancilla` (modifier_resolver.rs 473-483). -/
def withAncilla {α : Type} (w : Q) (s : St Q) (f : St Q → Except Err (α × St Q)) :
    Except Err (α × Q × St Q) := do
  let (r, s) ← f { s with ancilla := s.ancilla ++ [w] }
  let (w, anc) ← popLast s.ancilla
  .ok (r, w, { s with ancilla := anc })

/-- `CombinedModifier::modified` (tket_op_modify.rs 489-540). -/
def modified (control : Nat) (dagger : Bool) : TketOp → Option TketOp
  | .X => if control = 0 then some .X else if control = 1 then some .CX else
      if control = 2 then some .Toffoli else none
  | .Y => if control = 0 then some .Y else if control = 1 then some .CY else none
  | .Z => if control = 0 then some .Z else if control = 1 then some .CZ else none
  | .CX => if control = 0 then some .CX else if control = 1 then some .Toffoli else none
  | .CY => if control = 0 then some .CY else none
  | .CZ => if control = 0 then some .CZ else none
  | .Toffoli => if control = 0 then some .Toffoli else none
  | .H => if control = 0 then some .H else none
  | .Rz => if control = 0 then some .Rz else if control = 1 then some .CRz else none
  | .CRz => if control = 0 then some .CRz else none
  | .Rx => if control = 0 then some .Rx else none
  | .Ry => if control = 0 then some .Ry else none
  | .T => if control = 0 then (if dagger then some .Tdg else some .T) else none
  | .Tdg => if control = 0 then (if dagger then some .T else some .Tdg) else none
  | .S => if control = 0 then (if dagger then some .Sdg else some .S) else none
  | .Sdg => if control = 0 then (if dagger then some .S else some .Sdg) else none
  | .V => if control = 0 then (if dagger then some .Vdg else some .V) else none
  | .Vdg => if control = 0 then (if dagger then some .V else some .Vdg) else none
  | op => if control = 0 ∧ dagger = false then some op else none

/-- `CombinedModifier::rot_angle` (tket_op_modify.rs 543-557). -/
def rotAngle (dagger : Bool) (op : TketOp) : Option (TketOp × ℝ) :=
  let r : Option (TketOp × ℝ) := match op with
    | .S => some (.Rz, 0.25)
    | .T => some (.Rz, 0.125)
    | .Tdg => some (.Rz, -0.125)
    | .Sdg => some (.Rz, -0.25)
    | .V => some (.Rx, 0.25)
    | .Vdg => some (.Rx, -0.25)
    | _ => none
  r.map (fun p => (p.1, if dagger then -p.2 else p.2))

/-- The guard of the first branch (tket_op_modify.rs 35-38). -/
def direct (op : TketOp) (control : Nat) : Bool :=
  op ∈ [.X, .CX, .Toffoli, .Y, .CY, .Z, .CZ, .S, .Sdg, .T, .Tdg, .V, .Vdg, .H] &&
    (control == 0 || (control < 3 && op == .X) || (control == 1 && op ∈ [.CX, .Y, .Z]))

/-- The guard of the second branch (tket_op_modify.rs 58). -/
def directRot (op : TketOp) (control : Nat) : Bool :=
  op ∈ [.Rz, .CRz, .Rx, .Ry] && (control == 0 || (control == 1 && op == .Rz))

/-- The gate added by the two direct branches (`add_node_control`, modifier_resolver.rs 592-601): the
controls are plugged first. A rotation is negated if daggered (lines 72-86). -/
def addControlled (op : TketOp) (qs : List Q) (θ : ℝ) (s : St Q) : Except Err (List Q × St Q) :=
  match modified s.control s.dagger op with
  | some g => .ok (qs, s.emit (.gate g (s.controls ++ qs) (if s.dagger then -θ else θ)))
  | none => .error .panic

/-- The loop over `0..gate_control` popping the controls (tket_op_modify.rs 455-457). -/
def popN : Nat → St Q → Except Err (List Q × St Q)
  | 0, s => .ok ([], s)
  | n + 1, s => do
    let (c, s) ← popControl s
    let (cs, s) ← popN n s
    .ok (c :: cs, s)

mutual

/-- `modify_tket_op` (tket_op_modify.rs 17-483). -/
def modify : Nat → TketOp → List Q → ℝ → St Q → Except Err (List Q × St Q)
  | 0, _, _, _, _ => .error .fuel
  | f + 1, op, qs, θ, s =>
    let control := s.control
    let dagger := s.dagger
    -- 27-33
    if (control ≠ 0 ∨ dagger = true) ∧ op.isQuantum = false then .error .unresolvable
    -- 35-112
    else if direct op control || directRot op control then addControlled op qs θ s
    else match op, qs with
    -- 113-140
    | .H, [t] =>
      if dagger = false then do
        let (ts, s) ← modify f .Ry [t] 0.5 s
        modify f .X ts 0 s
      else do
        let (ts, s) ← modify f .X [t] 0 s
        modify f .Ry ts 0.5 s
    -- 141-148
    | .Rx, [t] => do
      let s := s.emit (.gate .H [t] 0)
      let (ts, s) ← modify f .Rz [t] θ s
      .ok (ts, s.emit (.gate .H ts 0))
    -- 149-166
    | .Ry, [t] => do
      let s := s.emit (.gate .Sdg [t] 0)
      let (ts, s) ← modify f .Rx [t] θ s
      .ok (ts, s.emit (.gate .S ts 0))
    | .CY, [c, t] => do
      let s := s.emit (.gate .Sdg [t] 0)
      let (ts, s) ← modify f .CX [c, t] 0 s
      match ts with
      | [c, t] => .ok ([c, t], s.emit (.gate .S [t] 0))
      | _ => .error .panic
    -- 298-353
    | .CRz, [c, t] => do
      let s := { s with dagger := false }
      let (pos, neg) := if dagger then (-(θ * 0.5), θ * 0.5) else (θ * 0.5, -(θ * 0.5))
      let s := s.emit (.gate .Rz [t] pos)
      let (ts, s) ← modify f .CX [c, t] 0 s
      match ts with
      | [c, t] => do
        let s := s.emit (.gate .Rz [t] neg)
        let (ts, s) ← modify f .CX [c, t] 0 s
        .ok (ts, { s with dagger := dagger })
      | _ => .error .panic
    -- 387-394
    | .CZ, [c, t] => modify f .CRz [c, t] 1 s
    -- 354-386
    | .Rz, [t] => do
      let (c, s) ← popControl s
      let (ts, s) ← modify f .CRz [c, t] θ s
      match ts with
      | c :: ts => .ok (ts, pushControl s c)
      | [] => .error .panic
    | .Y, [t] => do
      let (c, s) ← popControl s
      let (ts, s) ← modify f .CY [c, t] 0 s
      match ts with
      | c :: ts => .ok (ts, pushControl s c)
      | [] => .error .panic
    | .Z, [t] => do
      let (c, s) ← popControl s
      let (ts, s) ← modify f .CZ [c, t] 0 s
      match ts with
      | c :: ts => .ok (ts, pushControl s c)
      | [] => .error .panic
    | .X, [t] =>
      if s.ancilla.isEmpty = false then do
        -- 274-297
        let (c2, s) ← popControl s
        let (c1, s) ← popControl s
        let (ts, s) ← modify f .Toffoli [c1, c2, t] 0 s
        match ts with
        | c1 :: c2 :: ts => .ok (ts, pushControl (pushControl s c1) c2)
        | _ => .error .panic
      else noAncilla f .X [] t s
    | .CX, [x, t] =>
      if s.ancilla.isEmpty = false then do
        -- 274-297
        let (c, s) ← popControl s
        let (ts, s) ← modify f .Toffoli [c, x, t] 0 s
        match ts with
        | c :: ts => .ok (ts, pushControl s c)
        | _ => .error .panic
      else noAncilla f .CX [x] t s
    | .Toffoli, [x, y, t] =>
      if s.ancilla.isEmpty = false then do
        -- 202-273
        let s := { s with dagger := false }
        let (a, anc) ← popLast s.ancilla
        let s := { s with ancilla := anc }
        let n := control / 2
        let m := control - n
        let cs1 := s.controls.take n
        let cs2 := s.controls.drop n
        -- 1.
        let s := { s with control := n, controls := cs1 }
        let (z, cs2) ← popLast cs2
        let (r, z, s) ← withAncilla z s (modify f .Toffoli [x, y, a] 0)
        let cs2 := cs2 ++ [z]
        match r with
        | [x, y, a] => do
          -- 2.
          let cs1 := s.controls
          let s := { s with control := m, controls := cs2 }
          let (r, x, s) ← withAncilla x s (modify f .CX [a, t] 0)
          match r with
          | [a, t] => do
            -- 3.
            let cs2 := s.controls
            let s := { s with control := n, controls := cs1 }
            let (z, cs2) ← popLast cs2
            let (r, z, s) ← withAncilla z s (modify f .Toffoli [x, y, a] 0)
            let cs2 := cs2 ++ [z]
            match r with
            | [x, y, a] => do
              -- 4.
              let cs1 := s.controls
              let s := { s with control := m, controls := cs2 }
              let (r, x, s) ← withAncilla x s (modify f .CX [a, t] 0)
              match r with
              | [a, t] =>
                .ok ([x, y, t], { s with
                  control := control, dagger := dagger, controls := cs1 ++ s.controls,
                  ancilla := s.ancilla ++ [a] })
              | _ => .error .panic
            | _ => .error .panic
          | _ => .error .panic
        | _ => .error .panic
      else noAncilla f .Toffoli [x, y] t s
    -- 167-200
    | op, [t] =>
      match rotAngle dagger op with
      | some (g, angle) => do
        let s := { s with dagger := false }
        let (ts, s) ← modify f g [t] (angle * 2) s
        match ts with
        | [t] => do
          let (_, t, s) ← withAncilla t s (fun s => do let s ← phase f angle s; .ok ((), s))
          .ok ([t], { s with dagger := dagger })
        | _ => .error .panic
      -- 476-481 (the outputs of these operations are not modelled)
      | none => .ok ([t], s.emit (.gate op [t] 0))
    | op, qs => .ok (qs, s.emit (.gate op qs 0))

/-- The branch for `X`, `CX` and `Toffoli` without ancilla (tket_op_modify.rs 395-475); `xs` are the lines
of the controls of the gate itself. -/
def noAncilla : Nat → TketOp → List Q → Q → St Q → Except Err (List Q × St Q)
  | 0, _, _, _, _ => .error .fuel
  | f + 1, op, xs, t, s => do
    let control := s.control
    let dagger := s.dagger
    let s := { s with dagger := false }
    -- CV(c,t)
    let (c, cs) ← popLast s.controls
    let s := { s with control := 1, controls := [c] }
    let (r, s) ← modify f .V [t] 0 s
    match r, s.controls with
    | [t], c :: _ => do
      -- CnX(cs,c)
      let s := { s with control := control - 1, controls := cs }
      let (r, t, s) ← withAncilla t s (modify f op (xs ++ [c]) 0)
      let (c, xs) ← popLast r
      -- CVdg(c,t)
      let cs := s.controls
      let s := { s with control := 1, controls := [c] }
      let (r, s) ← modify f .Vdg [t] 0 s
      match r, s.controls with
      | [t], c :: _ => do
        -- CnX(cs,c)
        let s := { s with control := control - 1, controls := cs }
        if s.controls.length ≠ s.control then .error .panic else do
        let (r, t, s) ← withAncilla t s (modify f op (xs ++ [c]) 0)
        let (c, xs) ← popLast r
        -- CnV(cs,t)
        let s := xs.foldl pushControl s
        let (r, c, s) ← withAncilla c s (modify f .V [t] 0)
        match r with
        | [t] => do
          let (ys, s) ← popN xs.length s
          let s := pushControl s c
          if control ≠ s.control then .error .panic else
          .ok (ys ++ [t], { s with dagger := dagger })
        | _ => .error .panic
      | _, _ => .error .panic
    | _, _ => .error .panic

/-- `modify_global_phase` (global_phase_modify.rs 22-102), with the angle connected to the returned
ports. -/
def phase : Nat → ℝ → St Q → Except Err (St Q)
  | 0, _, _ => .error .fuel
  | f + 1, θ, s =>
    let dagger := s.dagger
    if s.control = 0 then
      -- 29-45
      .ok (s.emit (.phase (if dagger then -θ else θ)))
    else do
      -- 47-100
      let s := { s with dagger := false }
      let half := θ * (if dagger then -0.5 else 0.5)
      let (c, s) ← popControl s
      let (_, c, s) ← withAncilla c s (fun s => do let s ← phase f half s; .ok ((), s))
      let (r, s) ← modify f .Rz [c] (if dagger then -θ else θ) s
      match r with
      | c :: _ => .ok { pushControl s c with dagger := dagger }
      | [] => .error .panic

end

/-- The lines of the wires leaving an old node: the `i`-th port, on the line `qs[i]`, becomes `outs[i]`
(`add_edge_from_pv` and the correspondence map). -/
def rename [DecidableEq Q] (ρ : Q → Q) (qs outs : List Q) : Q → Q := fun q =>
  match (qs.zip outs).find? (fun p => p.1 = q) with
  | some p => p.2
  | none => ρ q

/-- `modify_op` and `modify_extension_op` on a gate or a global phase (modifier_resolver.rs 717-770,
971-1000): top level, so no ancilla. `ρ` tells on which line a wire of the old circuit is. The check on the
number of controls returns an error in the code, here it is the panic. -/
def modifyNode [DecidableEq Q] (fuel : Nat) : Node Q → (Q → Q) × St Q → Except Err ((Q → Q) × St Q)
  | n, (ρ, s) =>
    if s.controls.length ≠ s.control then .error .panic else
    match n with
    | .gate op qs θ => do
      let (outs, s) ← modify fuel op (qs.map ρ) θ { s with ancilla := [] }
      .ok (rename ρ qs outs, s)
    | .phase θ => do
      let s ← phase fuel θ { s with ancilla := [] }
      .ok (ρ, s)

/-- `modify_dfg_children` (dfg_modify.rs 52-78) on a straight-line circuit: the children in topological
order, reversed if daggered. The topological order is the order of the list. The control structures of
`modify_op` are not part of this. -/
def modifyChildren [DecidableEq Q] (fuel : Nat) (c : List (Node Q)) (s : St Q) :
    Except Err ((Q → Q) × St Q) :=
  (if s.dagger then c.reverse else c).foldlM (fun a n => modifyNode fuel n a) (id, s)

/-- `delete_phase` (global_phase_modify.rs 106-119). -/
def deletePhase (c : List (Node Q)) : List (Node Q) :=
  c.filter (fun n => match n with | .phase _ => false | .gate .. => true)

end Tket.ControlSynth
