/-!
# Resolution of all modifiers of a program

Model of `resolve_modifier_with_entrypoints` (`tket/src/modifier/modifier_resolver.rs` 1041-1104) and of
`verify` and `try_rewrite` (same file, 635-688), which rewrite one modifier.

Simplifications: the graph has the operations of regions and the edges between them. Functions, the
hierarchy and the edges from functions are left out; so are the modified functions that are created, as
they contain no modifiers. What becomes of the modified function is a parameter (`Outcome`). The nodes
that the two traversals visit are parameters. The removal of global phases and the validation at the end
are left out.
-/

namespace Tket.ResolveAll

/-- An edge from an output port to an input port. -/
structure Edge where
  src : Nat
  sport : Nat
  dst : Nat
  dport : Nat
  deriving DecidableEq

/-- The operations and edges; `next` is the number of the next new node. -/
structure Graph where
  nodes : List Nat
  edges : List Edge
  next : Nat

/-- The outcome of `apply_modifier_chain_to_loaded_fn` (call_modify.rs 76-103) for a modifier: there is
a modified function, a `ModifierError` (the target is no function that is known), or another error. -/
inductive Outcome where
  | ok
  | skip
  | fail
  deriving DecidableEq

/-- Operations: which are modifiers (`Modifier::from_optype`), and the outcome for these. -/
structure Ops where
  isMod : Nat → Bool
  outcome : Nat → Outcome

/-- Errors of the pass. -/
inductive Err where
  | failed
  | panic
  deriving DecidableEq

/-- `verify` (635-653): the node is a modifier whose output 0 has exactly one consumer, which is no
modifier. -/
def verify (o : Ops) (g : Graph) (n : Nat) : Bool :=
  o.isMod n &&
    match g.edges.filter (fun e => e.src = n ∧ e.sport = 0) with
    | [e] => !o.isMod e.dst
    | _ => false

/-- The edge, moved from the modifier to the node that loads the modified function (680-686). -/
def redirect (n new : Nat) (e : Edge) : Edge := if e.src = n then { e with src := new } else e

/-- `try_rewrite` (659-688); `ModifierError` is not an error for the caller (1064-1069). -/
def tryRewrite (o : Ops) (g : Graph) (n : Nat) : Except Err Graph :=
  if verify o g n then
    match o.outcome n with
    | .ok => .ok ⟨g.nodes ++ [g.next], g.edges.map (redirect n g.next), g.next + 1⟩
    | .skip => .ok g
    | .fail => .error .failed
  else .ok g

/-- The first loop (1055-1070), over the nodes that are visited. -/
def rewriteAll (o : Ops) : List Nat → Graph → Except Err Graph
  | [], g => .ok g
  | n :: ns, g =>
    match tryRewrite o g n with
    | .error e => .error e
    | .ok g => rewriteAll o ns g

/-- `remove_node`, which removes the edges too. -/
def remove (g : Graph) (n : Nat) : Graph :=
  ⟨g.nodes.filter (· ≠ n), g.edges.filter (fun e => e.src ≠ n ∧ e.dst ≠ n), g.next⟩

/-- `output_neighbours`: one for each edge. -/
def outNeighbours (g : Graph) (n : Nat) : List Nat := (g.edges.filter (fun e => e.src = n)).map (·.dst)

/-- The inner loop of the removal (1084-1088) with the stack `l`, top first. `remove_node` of a node that
does not exist panics. Every round removes a node, hence the number of nodes is enough fuel. -/
def removeLoop : Nat → List Nat → Graph → Except Err Graph
  | _, [], g => .ok g
  | 0, _ :: _, _ => .error .panic
  | fuel + 1, n :: l, g =>
    if n ∈ g.nodes then removeLoop fuel ((outNeighbours g n).reverse ++ l) (remove g n)
    else .error .panic

/-- The second loop (1076-1091), over the nodes that are visited. -/
def removeAll (o : Ops) : List Nat → Graph → Except Err Graph
  | [], g => .ok g
  | n :: ns, g =>
    if n ∈ g.nodes ∧ o.isMod n then
      match removeLoop g.nodes.length [n] g with
      | .error e => .error e
      | .ok g => removeAll o ns g
    else removeAll o ns g

/-- `resolve_modifier_with_entrypoints`. `seen`, `seen'`: the nodes visited by the loops. -/
def resolve (o : Ops) (seen seen' : List Nat) (g : Graph) : Except Err Graph :=
  match rewriteAll o seen g with
  | .error e => .error e
  | .ok g => removeAll o seen' g

end Tket.ResolveAll
