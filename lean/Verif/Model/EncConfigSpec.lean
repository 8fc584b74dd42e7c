import Verif.Model.EncConfig

/-!
# Specification of the configuration of the pytket encoder and decoder
-/

namespace Tket.EncConfig

/-- The configuration that results from adding emitters in this order. -/
def build {σ : Type} (es : List (Emitter σ)) : Config σ := es.foldl Config.add Config.empty

/-- The configuration that results from adding decoders in this order. -/
def dbuild {σ : Type} (ds : List (Decoder σ)) : DConfig σ := ds.foldl DConfig.add DConfig.empty

/-- An emitter declares an extension. -/
def Emitter.declares {σ : Type} (e : Emitter σ) (ext : Nat) : Bool :=
  match e.exts with
  | some es => es.contains ext
  | none => false

/-- An emitter is for all operations. -/
def Emitter.forAll {σ : Type} (e : Emitter σ) : Bool := e.exts.isNone

/-- Each extension is declared once. -/
def Emitter.Proper {σ : Type} (e : Emitter σ) : Prop := ∀ es, e.exts = some es → es.Nodup

/-- An emitter leaves the context as it was for what it does not support, as `PytketEmitter` demands
(`extension.rs` 72-75). -/
def Emitter.Clean {σ : Type} (e : Emitter σ) : Prop := ∀ op s s', e.op op s = .ok (false, s') → s' = s

mutual
/-- The booleans in a constant, from left to right. -/
def Value.bools : Value → List Bool
  | .bool b => [b]
  | .ext (.bool b) => [b]
  | .tuple vs => allBools vs
  | _ => []

/-- The booleans in constants, from left to right. -/
def allBools : List Value → List Bool
  | [] => []
  | v :: vs => v.bools ++ allBools vs
end

mutual
/-- The numbers in a constant, from left to right. -/
def Value.exprs : Value → List Nat
  | .ext (.float e) => [e]
  | .ext (.rotation e) => [e]
  | .tuple vs => allExprs vs
  | _ => []

/-- The numbers in constants, from left to right. -/
def allExprs : List Value → List Nat
  | [] => []
  | v :: vs => v.exprs ++ allExprs vs
end

/-- The values stand for these booleans and numbers. -/
def Holds (s : State) (v : Vals) (bs : List Bool) (es : List Nat) : Prop :=
  v.bits.map s.val = bs ∧ v.params.map (s.params[·]?) = es.map some

/-- The bits of the context: those unused are different, allocated and not among `used`, bits that do not exist
yet hold zero. -/
structure State.Ok (s : State) (used : List Nat) : Prop where
  nodup : s.unused.Nodup
  unused_lt : ∀ b ∈ s.unused, b < s.numBits
  not_used : ∀ b ∈ s.unused, b ∉ used
  used_lt : ∀ b ∈ used, b < s.numBits
  fresh : ∀ b, s.numBits ≤ b → s.val b = false

/-- Bits that are handed out again hold zero. -/
def State.Reset (s : State) : Prop := ∀ b ∈ s.unused, s.val b = false

mutual
/-- Constants without booleans of the core type and without anything that is not supported. -/
def Value.Plain : Value → Prop
  | .ext (.bool _) => True
  | .ext (.float _) => True
  | .ext (.rotation _) => True
  | .tuple vs => AllPlain vs
  | _ => False

/-- All are plain. -/
def AllPlain : List Value → Prop
  | [] => True
  | v :: vs => v.Plain ∧ AllPlain vs
end

mutual
/-- Something that no default emitter knows: a function or a value of another extension. -/
def Value.Unknown : Value → Prop
  | .function _ => True
  | .ext (.other _ _) => True
  | .tuple vs => AnyUnknown vs
  | _ => False

/-- Some constant has something unknown. -/
def AnyUnknown : List Value → Prop
  | [] => False
  | v :: vs => v.Unknown ∨ AnyUnknown vs
end

mutual
/-- No boolean of the core type. -/
def Value.NoCoreBool : Value → Prop
  | .bool _ => False
  | .tuple vs => AllNoCoreBool vs
  | _ => True

/-- No booleans of the core type. -/
def AllNoCoreBool : List Value → Prop
  | [] => True
  | v :: vs => v.NoCoreBool ∧ AllNoCoreBool vs
end

/-- No tuple. -/
def Value.Atom : Value → Prop
  | .tuple _ => False
  | _ => True

end Tket.EncConfig
