/-!
# Calls in modified functions

Model of the table `call_map` of the modifier resolver: `modify_call`, `modify_indirect_call`
(`tket/src/modifier/modifier_resolver/call_modify.rs` 15-71, 178-254), `modify_fn`,
`wrap_fn_with_controls`, `insert_sub_dfg`, `update_call_map`
(`tket/src/modifier/modifier_resolver/dfg_modify.rs` 318-432, 623-635).

A call in a modified function is linked to its function only after the new function has been built and
inserted into the program. Until then `call_map` holds, for a function, the node to be linked.

Simplifications: of a body there are the calls, the nested regions and the number of nodes created for
everything else, in the order in which they are processed. Nodes are numbered by the builder in the
order of their creation, as in a new `hugr`; nodes that are inserted get the next numbers in order. Which
callees are modified is a parameter (`modify_fn_if_needed`, see `Model/Modifier`), as are the numbers of
nodes a builder starts with. The builders of conditionals and control flow graphs hold several regions;
here they are one. Modifiers in front of indirect calls are left out.
-/

namespace Tket.CallLinks

/-- Functions: those of the program, and the modified copies, which are numbered. -/
inductive Fn where
  | old (f : Nat)
  | new (k : Nat)
  deriving DecidableEq

/-- The body of a region, in the order of processing (`modify_dfg_children`, dfg_modify.rs 52-78).
`other`: the number of nodes created. `call`, `indirect`: the callee and the number of nodes created
besides the node to be linked (packing and unpacking of controls, the indirect call). `sub`: a nested
region. -/
inductive Body where
  | nil
  | other (nodes : Nat) (rest : Body)
  | call (f nodes : Nat) (rest : Body)
  | indirect (f nodes : Nat) (rest : Body)
  | sub (inner rest : Body)

/-- The program and the current modifiers. `arrays`: the number of arrays of controls
(`accum_ctrl.len()`). -/
structure Prog where
  body : Nat → Body
  modifies : Nat → Bool
  arrays : Nat
  inputs : Nat → Nat
  outputs : Nat → Nat
  /-- Nodes of a new builder that are not below the region it builds. -/
  outside : Nat
  /-- The region itself and its input and output nodes. -/
  boundary : Nat
  /-- Nodes of a new `FunctionBuilder`. -/
  fnNodes : Nat

/-- `HashMap` from functions to nodes: `call_map` (modifier_resolver.rs 307-308). -/
abbrev CallMap := List (Fn × Nat)

/-- `HashMap::insert`. -/
def CallMap.insert (m : CallMap) (f : Fn) (n : Nat) : CallMap := (f, n) :: m.filter (fun e => e.1 ≠ f)

/-- `update_call_map` (dfg_modify.rs 623-635). -/
def CallMap.update (m : CallMap) (g : Nat → Option Nat) : CallMap :=
  m.filterMap fun e => (g e.2).map fun d => (e.1, d)

/-- The node numbers after insertion (`node_map`): nodes below the region, if there are `size` nodes in
the builder and the next number is `next`. -/
def nodeMap (outside size next k : Nat) : Option Nat :=
  if outside ≤ k ∧ k < size then some (next + (k - outside)) else none

/-- What becomes of a modified function: its nodes that need a function with the function they need, and
the links that are made (`h.connect(old_in, 0, new_n, new_port)`, dfg_modify.rs 345-347). -/
structure Made where
  source : Nat
  needs : List (Fn × Nat)
  links : CallMap

/-- The state: `next` and `needs` belong to the current builder. `needs` is not in the code. -/
structure St where
  next : Nat
  callMap : CallMap
  needs : List (Fn × Nat)
  fresh : Nat
  made : List Made

/-- Outcomes that are no result. -/
inductive Err where
  | panic
  | fuel
  deriving DecidableEq

/-- `wrap_fn_with_controls` (dfg_modify.rs 358-418): are all ports that are connected there? `k` and `m`
are the numbers of inputs and outputs of the function, `a` the number of arrays of controls. The call has
the modified signature, and `num_inputs` and `num_outputs` count all ports: values, the function, order.
The input and output nodes have the values and the order port. -/
def wrapOk (a k m : Nat) : Bool :=
  (List.range a).all (fun i => decide (i < a + k + 1) && decide (i < a + m + 1)) &&
  (List.range (a + k + 2)).all (fun i => decide (i + a < a + k + 1)) &&
  (List.range (a + m + 1)).all (fun i => decide (i + a < a + m + 1))

/-- A node that needs the function `f`: it is created and entered into `call_map` (call_modify.rs 34-37,
46-51, 215-217). -/
def St.need (s : St) (f : Fn) (nodes : Nat) : St :=
  { s with
    next := s.next + 1 + nodes
    callMap := s.callMap.insert f s.next
    needs := s.needs ++ [(f, s.next)] }

/-- The function to be called instead of `f` (`modify_fn_if_needed`, dfg_modify.rs 298-316), if it is
modified; `modify` is `modify_fn`. -/
def callee (p : Prog) (modify : Nat → St → Except Err (St × Fn)) (f : Nat) (s : St) :
    Except Err (St × Fn) :=
  if p.modifies f then modify f s else .ok (s, .old f)

/-- `modify_dfg_children` with the parts of `modify_op` that concern calls and nested regions. -/
def step (p : Prog) (modify : Nat → St → Except Err (St × Fn)) : Body → St → Except Err St
  | .nil, s => .ok s
  | .other k rest, s => step p modify rest { s with next := s.next + k }
  | .call f k rest, s =>
    match callee p modify f s with
    | .error e => .error e
    | .ok (s, g) => step p modify rest (s.need g k)
  | .indirect f k rest, s =>
    if !p.modifies f && p.arrays ≠ 0 then
      if wrapOk p.arrays (p.inputs f) (p.outputs f) then
        -- a new function that calls `f`
        step p modify rest
          (St.need { s with
            fresh := s.fresh + 1
            made := s.made ++ [⟨f, [(.old f, 0)], [(.old f, 0)]⟩] } (.new s.fresh) k)
      else .error .panic
    else
      match callee p modify f s with
      | .error e => .error e
      | .ok (s, g) => step p modify rest (s.need g k)
  | .sub inner rest, s =>
    -- a new builder; `call_map` is kept
    match step p modify inner { s with next := p.outside + p.boundary, needs := [] } with
    | .error e => .error e
    | .ok t =>
      -- `insert_sub_dfg` (dfg_modify.rs 420-432)
      let g := nodeMap p.outside t.next s.next
      step p modify rest
        { next := s.next + (t.next - p.outside)
          callMap := t.callMap.update g
          needs := s.needs ++ CallMap.update t.needs g
          fresh := t.fresh
          made := t.made }

/-- `modify_fn` (dfg_modify.rs 318-356) with fuel for the nesting of calls. -/
def modifyFn (p : Prog) : Nat → Nat → St → Except Err (St × Fn)
  | 0, _, _ => .error .fuel
  | fuel + 1, f, s =>
    match step p (modifyFn p fuel) (p.body f) ⟨p.fnNodes, [], [], s.fresh, s.made⟩ with
    | .error e => .error e
    | .ok t =>
      .ok ({ s with fresh := t.fresh + 1, made := t.made ++ [⟨f, t.needs, t.callMap⟩] }, .new t.fresh)

/-- The functions made to modify `f`, the last of which replaces it. -/
def resolve (p : Prog) (fuel f : Nat) : Except Err (List Made) :=
  match modifyFn p fuel f ⟨0, [], [], 0, []⟩ with
  | .error e => .error e
  | .ok (s, _) => .ok s.made

end Tket.CallLinks
