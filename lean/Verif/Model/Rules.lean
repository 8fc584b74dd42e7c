import Verif.Model.Matching

/-
Rules of the Python package: pairs of circuits, matched together and turned into rewrites.

Modelled code: `tket-py/src/pattern.rs` (`Rule`, `RuleMatcher`), `tket-py/src/rewrite.rs`
(`PyRewriter`), `find_matches_iter`, `find_rooted_matches`, `handle_match_error` and `to_rewrite` of
`tket/src/portmatching/matcher.rs`, and `CircuitRewrite` of `tket/src/rewrite.rs`.

Outside of the repository are the automaton (crate `portmatching`), `SiblingSubgraph` and
`SimpleReplacement` (crate `hugr`).  The first two are parameters; the replacement is modelled from the
documentation.
-/
namespace Verif.Matching

/-- Circuits with the types of their output ports. -/
structure TCirc extends Circ where
  ty : Nat → Nat → Nat

/-- `Rule`, `pattern.rs:48-64`; nothing is checked when a rule is made. -/
structure Rule where
  left : TCirc
  right : TCirc

/-- `RuleMatcher`, `pattern.rs:82-86`: the patterns of `PatternMatcher`, and the right-hand sides. -/
structure Matcher where
  patterns : List CPattern
  rights : List TCirc

/-- Errors of Python. -/
inductive RErr
  | emptyCircuit
  | notConnected
  | emptyWire
  | signature
deriving DecidableEq

/-- Results of calls. -/
inductive Res (α : Type) where
  | ok (a : α)
  | err (e : RErr)
  | panic

/-- Sequencing of calls. -/
def Res.bind {α β : Type} (r : Res α) (f : α → Res β) : Res β :=
  match r with
  | .ok a => f a
  | .err e => .err e
  | .panic => .panic

/-- `try_from_circuit` as a call from Python. -/
def patternOf (choose : Pattern → Option Walk) (c : Circ) : Res CPattern :=
  match tryFromCircuit choose c with
  | .ok p => .ok p
  | .emptyCircuit => .err .emptyCircuit
  | .notConnected => .err .notConnected
  | .emptyWire => .err .emptyWire
  | .panic => .panic

/-- The patterns of all left-hand sides, up to the first failure (`collect`). -/
def patternsOf (choose : Pattern → Option Walk) : List TCirc → Res (List CPattern)
  | [] => .ok []
  | l :: ls => (patternOf choose l.toCirc).bind fun p => (patternsOf choose ls).bind fun ps => .ok (p :: ps)

/-- `RuleMatcher::from_rules`, `pattern.rs:90-99`. -/
def fromRules (choose : Pattern → Option Walk) (rules : List Rule) : Res Matcher :=
  (patternsOf choose (rules.map Rule.left)).bind fun ps => .ok ⟨ps, rules.map Rule.right⟩

/-- Outcome of `SiblingSubgraph::try_new_with_checker` (external), after the conversion of errors in
`matcher.rs:410-425`: the nodes of the subgraph, an error that counts as not convex, another error. -/
inductive SubRes
  | ok (nodes : List Nat)
  | notConvex
  | other

/-- The external parts: the automaton gives the patterns that match at a node, and the check of
the subgraph between boundaries. -/
structure Ext where
  auto : Nat → List Nat
  sub : List (List (Nat × Nat)) → List (Nat × Nat) → SubRes

/-- `PatternMatch`, `matcher.rs:74-84`. -/
structure Match where
  id : Nat
  root : Nat
  nodes : List Nat
  ins : List (List (Nat × Nat))
  outs : List (Nat × Nat)
deriving DecidableEq

/-- `try_from_root_match_with_checker` and `handle_match_error`, `matcher.rs:135-163, 478-485`: a match
that is not convex is left out, other errors are panics. -/
def tryMatch (x : Ext) (m : Matcher) (c : Circ) (root id : Nat) : Res (Option Match) :=
  match m.patterns[id]? with
  | none => .panic
  | some p =>
    match getMatchMap c p root with
    | .none => .panic
    | .panic => .panic
    | .found l =>
      match boundary l p with
      | none => .panic
      | some (i, o) =>
        match x.sub i o with
        | .ok nodes => .ok (some ⟨id, root, nodes, i, o⟩)
        | .notConvex => .ok none
        | .other => .panic

/-- The matches of several patterns at one node. -/
def tryAll (x : Ext) (m : Matcher) (c : Circ) (root : Nat) : List Nat → Res (List Match)
  | [] => .ok []
  | id :: ids => (tryMatch x m c root id).bind fun a => (tryAll x m c root ids).bind fun as =>
      .ok (match a with
        | some a => a :: as
        | none => as)

/-- `find_rooted_matches`, `matcher.rs:287-310`. -/
def findRooted (x : Ext) (m : Matcher) (c : Circ) (root : Nat) : Res (List Match) :=
  tryAll x m c root (x.auto root)

/-- A rewrite: what is replaced and by what. -/
structure Rewrite where
  nodes : List Nat
  ins : List (List (Nat × Nat))
  outs : List (Nat × Nat)
  repl : TCirc

/-- Types of the inputs of a subgraph: the types of the wires at the first port of every input; `none`
for an input without ports. -/
def inTypes (c : TCirc) : List (List (Nat × Nat)) → Option (List Nat)
  | [] => some []
  | g :: gs =>
    (g.head?.bind fun x => (c.ins x.1)[x.2]?).bind fun s => (inTypes c gs).map (c.ty s.1 s.2 :: ·)

/-- The signature of a subgraph. -/
def subSig (c : TCirc) (ins : List (List (Nat × Nat))) (outs : List (Nat × Nat)) :
    Option (List Nat × List Nat) :=
  (inTypes c ins).map fun i => (i, outs.map fun s => c.ty s.1 s.2)

/-- The signature of a circuit. -/
def circSig (c : TCirc) : List Nat × List Nat :=
  ((List.range c.numInputs).map (c.ty c.inp), (c.ins c.out).map fun s => c.ty s.1 s.2)

/-- `match_to_rewrite`, `pattern.rs:121-131`, `to_rewrite`, `matcher.rs:213-219`, and
`CircuitRewrite::try_new`, `rewrite.rs:33-44`: the replacement must have the signature of the subgraph.
A subgraph without signature is a panic of the external crate.  (`extract_dfg` does nothing for the
circuits here.) -/
def matchToRewrite (m : Matcher) (c : TCirc) (a : Match) : Res Rewrite :=
  match m.rights[a.id]? with
  | none => .panic
  | some r =>
    match subSig c a.ins a.outs with
    | none => .panic
    | some s => if s = circSig r then .ok ⟨a.nodes, a.ins, a.outs, r⟩ else .err .signature

/-- The rewrites of several matches, up to the first failure. -/
def toRewrites (m : Matcher) (c : TCirc) : List Match → Res (List Rewrite)
  | [] => .ok []
  | a :: as => (matchToRewrite m c a).bind fun r => (toRewrites m c as).bind fun rs => .ok (r :: rs)

/-- `find_matches`, `pattern.rs:110-116`, over the commands: matches are found one node after the other
while rewrites are made. -/
def findMatchesFrom (x : Ext) (m : Matcher) (c : TCirc) : List Nat → Res (List Rewrite)
  | [] => .ok []
  | n :: ns => (findRooted x m c.toCirc n).bind fun as => (toRewrites m c as).bind fun rs =>
      (findMatchesFrom x m c ns).bind fun rs' => .ok (rs ++ rs')

/-- `RuleMatcher::find_matches`. -/
def findMatches (x : Ext) (m : Matcher) (c : TCirc) : Res (List Rewrite) :=
  findMatchesFrom x m c c.cmds

/-- `find_match`, `pattern.rs:101-108`, over the commands. -/
def findMatchFrom (x : Ext) (m : Matcher) (c : TCirc) : List Nat → Res (Option Rewrite)
  | [] => .ok none
  | n :: ns => (findRooted x m c.toCirc n).bind fun as =>
      match as with
      | [] => findMatchFrom x m c ns
      | a :: _ => (matchToRewrite m c a).bind fun r => .ok (some r)

/-- `RuleMatcher::find_match`. -/
def findMatch (x : Ext) (m : Matcher) (c : TCirc) : Res (Option Rewrite) :=
  findMatchFrom x m c c.cmds

/-- The wires that feed the inputs of a subgraph. -/
def wiresOf (c : Circ) : List (List (Nat × Nat)) → Option (List (Nat × Nat))
  | [] => some []
  | g :: gs =>
    (g.head?.bind fun x => (c.ins x.1)[x.2]?).bind fun s => (wiresOf c gs).map (s :: ·)

/-- A port of the replacement as a port of the new circuit: ports of the input node are the wires that
feed the subgraph, and nodes get new numbers. -/
def newSource (base : Nat) (ws : List (Nat × Nat)) (r : Circ) (s : Nat × Nat) : Nat × Nat :=
  if s.1 = r.inp then ws.getD s.2 (0, 0) else (base + s.1, s.2)

/-- A port of the circuit after the replacement: outputs of the subgraph become outputs of the
replacement. -/
def oldSource (base : Nat) (ws outs : List (Nat × Nat)) (r : Circ) (s : Nat × Nat) : Nat × Nat :=
  match outs.idxOf? s with
  | some i => newSource base ws r ((r.ins r.out).getD i (0, 0))
  | none => s

/-- `SimpleReplacement::apply` (external), used in `rewrite.rs:70-89`: the nodes of the subgraph are
removed, those of the replacement are added with numbers from `base`, and the boundaries are
connected.  `none` is an input without ports.  The order of the commands afterwards is arbitrary. -/
def applyRw (c : TCirc) (base : Nat) (w : Rewrite) : Option TCirc :=
  (wiresOf c.toCirc w.ins).map fun ws =>
    let r := w.repl
    let kept := c.members.filter fun n => n ∉ w.nodes
    let new := (r.members.filter fun n => n ≠ r.inp ∧ n ≠ r.out).map (base + ·)
    { op := fun n => if base ≤ n then r.op (n - base) else c.op n
      content := fun n => if base ≤ n then r.content (n - base) else c.content n
      ins := fun n =>
        if base ≤ n then (r.ins (n - base)).map (newSource base ws r.toCirc)
        else (c.ins n).map (oldSource base ws w.outs r.toCirc)
      cmds := (c.cmds.filter fun n => n ∉ w.nodes) ++ (r.cmds.map (base + ·))
      members := kept ++ new
      inp := c.inp
      out := c.out
      numInputs := c.numInputs
      numOps := c.numOps - w.nodes.length + r.numOps
      ty := fun n p => if base ≤ n then r.ty (n - base) p else c.ty n p }

/-- `PyRewriter`, `tket-py/src/rewrite.rs:73-78`: one rewriter or a list; lists are built here from
pairs. -/
inductive Rewriter (α : Type) where
  | one (a : α)
  | nil
  | cons (head tail : Rewriter α)

/-- `get_rewrites`, `tket-py/src/rewrite.rs:80-93`, with the function of the single rewriters. -/
def Rewriter.rewrites {α β : Type} (f : α → List β) : Rewriter α → List β
  | .one a => f a
  | .nil => []
  | .cons h t => h.rewrites f ++ t.rewrites f

end Verif.Matching
