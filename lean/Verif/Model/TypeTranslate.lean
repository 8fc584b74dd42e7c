/-
Translating types to pytket registers.

Modelled code: `tket/src/serialize/pytket/config/type_translators.rs` (`TypeTranslatorSet`), the
default translators in `tket/src/serialize/pytket/extension/{prelude,bool,float,rotation}.rs`
(`impl PytketTypeTranslator`), the one for futures in `tket-qsystem/src/pytket/futures.rs:65-84`
and the lists that register them (`config.rs:20-55`, `tket-qsystem/src/pytket.rs:18-38`).
-/
namespace Verif.TypeTranslate

/-- Types.  `ext e n args` is the custom type number `n` of extension `e` with its type arguments;
`sum vs` is a sum, each of whose variants is a `row`; `other n` is any other type (functions, type
variables, row variables). -/
inductive Ty
  | ext (e n : Nat) (args : List Ty)
  | sum (vs : List Ty)
  | row (ts : List Ty)
  | other (n : Nat)

mutual
/-- `PartialEq` for `Type`. -/
def Ty.same : Ty → Ty → Bool
  | .ext e n as, .ext e' n' as' => e == e' && n == n' && sameAll as as'
  | .sum vs, .sum vs' => sameAll vs vs'
  | .row ts, .row ts' => sameAll ts ts'
  | .other n, .other n' => n == n'
  | _, _ => false
/-- Equality of lists of types. -/
def sameAll : List Ty → List Ty → Bool
  | [], [] => true
  | a :: as, b :: bs => a.same b && sameAll as bs
  | _, _ => false
end

/-- `RegisterCount`, `extension.rs:186-193`. -/
structure Count where
  qubits : Nat
  bits : Nat
  params : Nat
deriving DecidableEq, Repr

/-- `RegisterCount + RegisterCount`. -/
def Count.add (a b : Count) : Count := ⟨a.qubits + b.qubits, a.bits + b.bits, a.params + b.params⟩

/-- `RegisterCount::is_empty`, `extension.rs:238-240`. -/
def Count.isEmpty (c : Count) : Bool := c.qubits == 0 && c.bits == 0 && c.params == 0

/-- The extension of floats. -/
def floatExt : Nat := 0
/-- The rotation extension. -/
def rotationExt : Nat := 1
/-- The prelude. -/
def preludeExt : Nat := 2
/-- The `tket.bool` extension. -/
def boolExt : Nat := 3
/-- The futures extension. -/
def futuresExt : Nat := 4

/-- `bool_t()`. -/
def boolT : Ty := .sum [.row [], .row []]

/-- A registered translator: the extensions it is for, and what it answers for the custom type
number `n`.  It may ask the set about the arguments of the type, so that it is given the answers
of `type_to_pytket` for these. -/
structure Translator where
  exts : List Nat
  run : Nat → List (Option Count) → Option Count

/-- `TypeTranslatorSet`, `type_translators.rs:25-36`: the translators, for each extension the
indices of its translators, and the cache (the latest entry for a type counts). -/
structure Set' where
  translators : List Translator
  index : Nat → List Nat
  cache : List (Ty × Option Count)

/-- `TypeTranslatorSet::default()`. -/
def Set'.empty : Set' := ⟨[], fun _ => [], []⟩

/-- One round of the loop in `add_type_translator`: `entry(ext).or_default().push(idx)`. -/
def pushIndex (idx : Nat) (m : Nat → List Nat) (e : Nat) : Nat → List Nat :=
  fun x => if x = e then m x ++ [idx] else m x

/-- `add_type_translator`, `type_translators.rs:42-62`. -/
def Set'.add (s : Set') (tr : Translator) : Set' :=
  { translators := s.translators ++ [tr]
    index := tr.exts.foldl (pushIndex s.translators.length) s.index
    cache := [] }

/-- `HashMap::get` on the cache. -/
def lookup : List (Ty × Option Count) → Ty → Option (Option Count)
  | [], _ => none
  | (t, r) :: c, u => if t.same u then some r else lookup c u

/-- `translators_for_extension`, `type_translators.rs:141-150`; an index without a translator
would panic, which `C64_history` excludes by never meeting it (see `Wf.index`). -/
def Set'.forExt (s : Set') (e : Nat) : List Translator :=
  (s.index e).filterMap (fun i => s.translators[i]?)

/-- Only answers without parameters are used, `type_translators.rs:110` and `119-125`. -/
def noParams : Option Count → Option Count
  | some c => if c.params = 0 then some c else none
  | none => none

/-- `type_to_pytket`, `type_translators.rs:69-71`, after the recursive call. -/
def nonEmpty : Option Count → Option Count
  | some c => if c.isEmpty then none else some c
  | none => none

/-- The loop over translators, `type_translators.rs:117-127`: the first answer counts. -/
def firstAnswer (n : Nat) (args : List (Option Count)) : List Translator → Option Count
  | [] => none
  | tr :: trs => match tr.run n args with
    | some c => some c
    | none => firstAnswer n args trs

mutual
/-- `type_to_pytket_internal`, `type_translators.rs:76-138`: the answer and the cache afterwards.

Simplified: a translator asks about the arguments of its type when it wants to; here all arguments
are asked about, once, before the translators run.  Only the contents of the cache differ. -/
def query (s : Set') : Ty → List (Ty × Option Count) → Option Count × List (Ty × Option Count)
  | .ext e n args, c =>
    match lookup c (.ext e n args) with
    | some r => (r, c)
    | none =>
      if e = floatExt ∨ e = rotationExt then (some ⟨0, 0, 1⟩, c)
      else
        let (rs, c') := queryArgs s args c
        let r := noParams (firstAnswer n rs (s.forExt e))
        (r, (.ext e n args, r) :: c')
  | .sum vs, c =>
    match lookup c (.sum vs) with
    | some r => (r, c)
    | none =>
      if vs.isEmpty then (some ⟨0, 0, 0⟩, c)
      else if (Ty.sum vs).same boolT then (some ⟨0, 1, 0⟩, c)
      else
        let (r, c') := queryTuple s vs c
        let r := noParams r
        (r, (.sum vs, r) :: c')
  | .row ts, c => querySum s ts c
  | .other n, c =>
    match lookup c (.other n) with
    | some r => (r, c)
    | none => (none, (.other n, none) :: c)
/-- `sum.as_tuple()`: a sum with one variant. -/
def queryTuple (s : Set') : List Ty → List (Ty × Option Count) →
    Option Count × List (Ty × Option Count)
  | [v], c => query s v c
  | _, c => (none, c)
/-- `tuple.iter().map(…).sum()`: stops at the first component without an answer. -/
def querySum (s : Set') : List Ty → List (Ty × Option Count) →
    Option Count × List (Ty × Option Count)
  | [], c => (some ⟨0, 0, 0⟩, c)
  | t :: ts, c =>
    match query s t c with
    | (none, c') => (none, c')
    | (some a, c') =>
      match querySum s ts c' with
      | (none, c'') => (none, c'')
      | (some b, c'') => (some (a.add b), c'')
/-- The answers of `type_to_pytket` for the arguments. -/
def queryArgs (s : Set') : List Ty → List (Ty × Option Count) →
    List (Option Count) × List (Ty × Option Count)
  | [], c => ([], c)
  | t :: ts, c =>
    let (r, c') := query s t c
    let (rs, c'') := queryArgs s ts c'
    (nonEmpty r :: rs, c'')
end

/-- `type_to_pytket`, `type_translators.rs:69-71`. -/
def Set'.typeToPytket (s : Set') (t : Ty) : Option Count × Set' :=
  let (r, c) := query s t s.cache
  (nonEmpty r, { s with cache := c })

/-- What the owner of a set can do with it. -/
inductive Act
  | add (tr : Translator)
  | ask (t : Ty)

/-- The answers of a sequence of calls. -/
def answers : Set' → List Act → List (Option Count)
  | _, [] => []
  | s, .add tr :: as => answers (s.add tr) as
  | s, .ask t :: as => (s.typeToPytket t).1 :: answers (s.typeToPytket t).2 as

/-! ### The translators of tket -/

/-- `PreludeEmitter`, `prelude.rs:53-70`: type 0 is `qubit`. -/
def preludeTranslator : Translator :=
  ⟨[preludeExt], fun n _ => if n = 0 then some ⟨1, 0, 0⟩ else none⟩

/-- `BoolEmitter`, `bool.rs:94-110`: type 0 is `bool`. -/
def boolTranslator : Translator :=
  ⟨[boolExt], fun n _ => if n = 0 then some ⟨0, 1, 0⟩ else none⟩

/-- `FloatEmitter`, `float.rs:97-113`: type 0 is `float64`. -/
def floatTranslator : Translator :=
  ⟨[floatExt], fun n _ => if n = 0 then some ⟨0, 0, 1⟩ else none⟩

/-- `RotationEmitter`, `rotation.rs:93-109`: type 0 is `rotation`. -/
def rotationTranslator : Translator :=
  ⟨[rotationExt], fun n _ => if n = 0 then some ⟨0, 0, 1⟩ else none⟩

/-- `FutureEmitter`, `futures.rs:65-84`: type 0 is `Future`. -/
def futureTranslator : Translator :=
  ⟨[futuresExt], fun n args => if n = 0 then args.head?.join else none⟩

/-- `default_encoder_config` and `default_decoder_config`, `config.rs:28-31` and `48-51`, with the
additions of `tket-qsystem/src/pytket.rs:22` and `36`. -/
def qsystemTranslators : List Translator :=
  [preludeTranslator, boolTranslator, floatTranslator, rotationTranslator, futureTranslator]

/-! ### Isomorphic types -/

/-- `crate::extension::bool::bool_type()`. -/
def tketBool : Ty := .ext boolExt 0 []

/-- `types_are_isomorphic`, `type_translators.rs:157-172`. -/
def isomorphic (a b : Ty) : Bool :=
  if a.same b then true
  else (a.same boolT && b.same tketBool) || (a.same tketBool && b.same boolT)

/-- Values.  `nb` is a native boolean, `ob` one of `tket.bool`. -/
inductive Val
  | qb (k : Nat)
  | nb (b : Bool)
  | ob (b : Bool)
  | tup (vs : List Val)
  | fut (v : Val)

/-- `BoolOp::make_opaque`. -/
def makeOpaque : Val → Val
  | .nb b => .ob b
  | v => v

/-- `BoolOp::read`. -/
def readBool : Val → Val
  | .ob b => .nb b
  | v => v

/-- `transform_typed_value`, `type_translators.rs:178-221`: what the inserted operations do to the
value on the wire; `none` for `CannotTranslateWire`. -/
def transform (a b : Ty) : Option (Val → Val) :=
  if a.same b then some id
  else if a.same boolT && b.same tketBool then some makeOpaque
  else if a.same tketBool && b.same boolT then some readBool
  else none

end Verif.TypeTranslate
