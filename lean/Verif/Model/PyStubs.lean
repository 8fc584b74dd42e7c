/-!
# Type stubs and the classes of the extension module

The signatures of the functions and methods that the type stubs `tket-py/tket/_tket/*.pyi` declare, those that the Rust
code gives (`tket-py/src`), and how Python binds the arguments of a call to parameters.

Types of arguments are not modelled; `__eq__` of operations is in `Model/PyOps`.
-/
namespace Tket.PyStubs

/-- A parameter: its name, if it is passed by keyword only, and if it has a default. -/
structure Param where
  name : String
  kwOnly : Bool
  dflt : Bool
deriving DecidableEq

/-- The parameters without `self`. -/
abbrev Sig := List Param

/-- A call: the number of positional arguments and the names of the keyword arguments. -/
structure Call where
  npos : Nat
  kws : List String
deriving DecidableEq

/-- Where the value of a parameter comes from. -/
inductive Src where
  | pos (i : Nat)
  | kw (name : String)
deriving DecidableEq

/-- Is the parameter at place `i` filled by position? -/
def byPos (c : Call) (p : Param) (i : Nat) : Bool := !p.kwOnly && decide (i < c.npos)

/-- The sources of the parameters. -/
def slots (s : Sig) (c : Call) : List (Option Src) :=
  s.zipIdx.map fun x =>
    if byPos c x.1 x.2 then some (.pos x.2)
    else if c.kws.contains x.1.name then some (.kw x.1.name) else none

/-- Python refuses (`TypeError`) calls with too many positional arguments, with a keyword that is not a parameter or
whose parameter is given already, or without a parameter that has no default.  pyo3 does the same. -/
def accepts (s : Sig) (c : Call) : Bool :=
  decide (c.npos ≤ (s.filter fun p => !p.kwOnly).length) &&
  (c.kws.all fun k => s.zipIdx.any fun x => x.1.name == k && !byPos c x.1 x.2) &&
  ((s.zip (slots s c)).all fun x => x.1.dflt || x.2.isSome)

/-- The binding of a call; `none` is an exception. -/
def bind (s : Sig) (c : Call) : Option (List (Option Src)) := if accepts s c then some (slots s c) else none

/-- A parameter without default. -/
def req (n : String) : Param := ⟨n, false, false⟩
/-- A parameter with a default. -/
def opt (n : String) : Param := ⟨n, false, true⟩
/-- A keyword parameter with a default. -/
def kwo (n : String) : Param := ⟨n, true, true⟩

/-- The stubs: `circuit.pyi` 17-177, `ops.pyi` 34-97, `types.pyi` 6-14, `passes.pyi` 10-93, `optimiser.pyi` 13-52,
`pattern.pyi` 6-70, `rewrite.pyi` 4-39 (all in `tket-py/tket/_tket`). -/
def stub : List (String × Sig) := [
  ("Tk2Circuit", [req "circ"]),
  ("Tk2Circuit.__hash__", []),
  ("Tk2Circuit.__copy__", []),
  ("Tk2Circuit.__deepcopy__", []),
  ("Tk2Circuit.hash", []),
  ("Tk2Circuit.circuit_cost", [req "cost_fn"]),
  ("Tk2Circuit.num_operations", []),
  ("Tk2Circuit.node_op", [req "node"]),
  ("Tk2Circuit.to_tket1", []),
  ("Tk2Circuit.apply_rewrite", [req "rw"]),
  ("Tk2Circuit.node_inputs", [req "node"]),
  ("Tk2Circuit.node_outputs", [req "node"]),
  ("Tk2Circuit.input_node", []),
  ("Tk2Circuit.output_node", []),
  ("Tk2Circuit.to_hugr_json", []),
  ("Tk2Circuit.from_hugr_json", [req "json"]),
  ("Tk2Circuit.to_bytes", [opt "config"]),
  ("Tk2Circuit.to_str", [opt "config"]),
  ("Tk2Circuit.from_bytes", [req "envelope", opt "function_name"]),
  ("Tk2Circuit.from_str", [req "envelope", opt "function_name"]),
  ("Tk2Circuit.to_package_json", []),
  ("Tk2Circuit.from_package_json", [req "json", opt "function_name"]),
  ("Tk2Circuit.to_tket1_json", []),
  ("Tk2Circuit.from_tket1_json", [req "json"]),
  ("Tk2Circuit.render_mermaid", []),
  ("Node", [req "idx"]),
  ("Wire.node", []),
  ("Wire.port", []),
  ("CircuitCost", [req "cost"]),
  ("render_circuit_dot", [req "hugr"]),
  ("render_circuit_mermaid", [req "hugr"]),
  ("validate_circuit", [req "hugr"]),
  ("TketOp", [req "op"]),
  ("TketOp.values", []),
  ("TketOp.to_custom", []),
  ("TketOp.__str__", []),
  ("Pauli", [req "pauli"]),
  ("Pauli.values", []),
  ("Pauli.__str__", []),
  ("CustomOp", [req "extension", req "op_name", req "input_types", req "output_types"]),
  ("CustomOp.to_custom", []),
  ("HugrType", [req "extension", req "type_name", req "bound"]),
  ("HugrType.qubit", []),
  ("HugrType.bool", []),
  ("CircuitChunks.reassemble", []),
  ("CircuitChunks.circuits", []),
  ("CircuitChunks.update_circuit", [req "index", req "circ"]),
  ("normalize_guppy", [req "circ", kwo "simplify_cfgs", kwo "remove_tuple_untuple", kwo "constant_folding",
    kwo "remove_dead_funcs", kwo "inline_dfgs"]),
  ("greedy_depth_reduce", [req "circ"]),
  ("lower_to_pytket", [req "circ"]),
  ("badger_optimise", [req "circ", req "optimiser", opt "max_threads", opt "timeout", opt "progress_timeout",
    opt "max_circuit_count", opt "log_dir", opt "rebase"]),
  ("chunks", [req "c", req "max_chunk_size"]),
  ("tket1_pass", [req "circ", req "pass_json", kwo "traverse_subcircuits"]),
  ("BadgerOptimiser", [req "rewriter", opt "cost_fn"]),
  ("BadgerOptimiser.load_precompiled", [req "filename", opt "cost_fn"]),
  ("BadgerOptimiser.compile_eccs", [req "filename", opt "cost_fn"]),
  ("BadgerOptimiser.optimise", [req "circ", opt "timeout", opt "progress_timeout", opt "n_threads", opt "split_circ",
    opt "queue_size", opt "log_progress"]),
  ("Rule", [req "l", req "r"]),
  ("Rule.lhs", []),
  ("Rule.rhs", []),
  ("RuleMatcher", [req "rules"]),
  ("RuleMatcher.find_match", [req "circ"]),
  ("RuleMatcher.find_matches", [req "circ"]),
  ("CircuitPattern", [req "circ"]),
  ("PatternMatcher", [req "patterns"]),
  ("PatternMatcher.find_match", [req "circ"]),
  ("PatternMatcher.find_matches", [req "circ"]),
  ("PatternMatch.pattern_id", []),
  ("PatternMatch.root", []),
  ("PatternID.__int__", []),
  ("ECCRewriter.load_precompiled", [req "filename"]),
  ("ECCRewriter.compile_eccs", [req "filename"]),
  ("ECCRewriter.get_rewrites", [req "circ"]),
  ("CircuitRewrite", [req "source_position", req "source_circ", req "replacement"]),
  ("CircuitRewrite.node_count_delta", []),
  ("CircuitRewrite.replacement", []),
  ("Subcircuit", [req "nodes", req "circ"])]

/-- What the Rust code gives: `circuit/tk2circuit.rs` 70-323, `circuit.rs` 90-180, `circuit/cost.rs` 19-26, `ops.rs`
36-250, `types.rs` 60-80, `passes/chunks.rs` 17-70, `passes.rs` 66-172, `passes/tket1.rs` 14-20, `optimiser.rs` 63-151,
`pattern.rs` 49-117, `pattern/portmatching.rs` 28-150, `rewrite.rs` 30-150 (all in `tket-py/src`).  Without an attribute
`signature` all parameters are required and can be passed by position or by name. -/
def rust : List (String × Sig) := [
  ("Tk2Circuit", [req "circ"]),
  ("Tk2Circuit.to_tket1", []),
  ("Tk2Circuit.apply_rewrite", [req "rw"]),
  ("Tk2Circuit.to_bytes", [opt "config"]),
  ("Tk2Circuit.to_str", [opt "config"]),
  ("Tk2Circuit.from_bytes", [req "bytes", opt "function_name"]),
  ("Tk2Circuit.from_str", [req "envelope", opt "function_name"]),
  ("Tk2Circuit.to_tket1_json", []),
  ("Tk2Circuit.from_tket1_json", [req "json"]),
  ("Tk2Circuit.to_tket1_json_bytes", []),
  ("Tk2Circuit.from_tket1_json_bytes", [req "json"]),
  ("Tk2Circuit.circuit_cost", [req "cost_fn"]),
  ("Tk2Circuit.num_operations", []),
  ("Tk2Circuit.hash", []),
  ("Tk2Circuit.__hash__", []),
  ("Tk2Circuit.__copy__", []),
  ("Tk2Circuit.__deepcopy__", [req "_memo"]),
  ("Tk2Circuit.node_op", [req "node"]),
  ("Tk2Circuit.node_inputs", [req "node"]),
  ("Tk2Circuit.node_outputs", [req "node"]),
  ("Tk2Circuit.input_node", []),
  ("Tk2Circuit.output_node", []),
  ("Tk2Circuit.render_mermaid", []),
  ("Node", [req "index"]),
  ("Wire.node", []),
  ("Wire.port", []),
  ("CircuitCost", [req "cost"]),
  ("validate_circuit", [req "c"]),
  ("render_circuit_dot", [req "c"]),
  ("render_circuit_mermaid", [req "c"]),
  ("TketOp", [req "op"]),
  ("TketOp.values", []),
  ("TketOp.to_custom", []),
  ("TketOp.__str__", []),
  ("Pauli", [req "p"]),
  ("Pauli.values", []),
  ("Pauli.__str__", []),
  ("CustomOp.to_custom", []),
  ("HugrType.qubit", []),
  ("HugrType.bool", []),
  ("CircuitChunks.reassemble", []),
  ("CircuitChunks.circuits", []),
  ("CircuitChunks.update_circuit", [req "index", req "new_circ"]),
  ("normalize_guppy", [req "circ", kwo "simplify_cfgs", kwo "remove_tuple_untuple", kwo "constant_folding",
    kwo "remove_dead_funcs", kwo "inline_dfgs"]),
  ("greedy_depth_reduce", [req "circ"]),
  ("lower_to_pytket", [req "circ"]),
  ("badger_optimise", [req "circ", req "optimiser", opt "max_threads", opt "timeout", opt "progress_timeout",
    opt "max_circuit_count", opt "log_dir", opt "rebase"]),
  ("chunks", [req "c", req "max_chunk_size"]),
  ("tket1_pass", [req "circ", req "pass_json", kwo "traverse_subcircuits"]),
  ("BadgerOptimiser", [req "rewriter", opt "cost_fn"]),
  ("BadgerOptimiser.load_precompiled", [req "path", opt "cost_fn"]),
  ("BadgerOptimiser.compile_eccs", [req "path", opt "cost_fn"]),
  ("BadgerOptimiser.optimise", [req "circ", opt "timeout", opt "progress_timeout", opt "max_circuit_count",
    opt "n_threads", opt "split_circ", opt "queue_size", opt "log_progress"]),
  ("Rule", [req "l", req "r"]),
  ("Rule.lhs", []),
  ("Rule.rhs", []),
  ("RuleMatcher", [req "rules"]),
  ("RuleMatcher.find_match", [req "target"]),
  ("RuleMatcher.find_matches", [req "target"]),
  ("CircuitPattern", [req "circ"]),
  ("PatternMatcher", [req "patterns"]),
  ("PatternMatcher.find_match", [req "circ"]),
  ("PatternMatcher.find_matches", [req "circ"]),
  ("PatternMatch.pattern_id", []),
  ("PatternMatch.root", []),
  ("PatternID.__int__", []),
  ("ECCRewriter.load_precompiled", [req "path"]),
  ("ECCRewriter.compile_eccs", [req "path"]),
  ("ECCRewriter.get_rewrites", [req "circ"]),
  ("CircuitRewrite", [req "source_position", req "source_circ", req "replacement"]),
  ("CircuitRewrite.node_count_delta", []),
  ("CircuitRewrite.replacement", []),
  ("Subcircuit", [req "nodes", req "circ"])]

/-- The call of a function that is in the module; `none` is an exception (`AttributeError` if there is no such method,
`TypeError` if there is no constructor or the arguments do not fit). -/
def call (table : List (String × Sig)) (f : String) (c : Call) : Option (List (Option Src)) :=
  (table.lookup f).bind fun s => bind s c

/-- Members of enumerations in the stubs (`types.pyi` 17-22). -/
def stubBounds : List (String × Nat) := [("Any", 0), ("Copyable", 1), ("Eq", 2)]
/-- Members of `PyTypeBound` (`types.rs` 20-29); with `eq_int` they are numbered from 0. -/
def rustBounds : List (String × Nat) := [("Linear", 0), ("Copyable", 1)]

end Tket.PyStubs
