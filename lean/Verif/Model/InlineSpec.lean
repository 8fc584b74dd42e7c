import Verif.Model.Inline

/-
What standalone circuits promise.
-/
namespace Verif.Inline

variable {π : Type}

/-! ### Writing -/

/-- The data that a command should have: references written out, everything else as it was. -/
def wanted (write : Id → Except Err π) (barrier : Bool) : Option (Data π) → Option (Data π)
  | some (.external id) =>
    if barrier then
      match write id with
      | .ok p => some (.inline p)
      | .error _ => some (.external id)
    else some (.external id)
  | d => d

mutual
/-- A function of the data of all commands, also in boxes. -/
def Cmd.map {π : Type} (f : Bool → Option (Data π) → Option (Data π)) : Cmd π → Cmd π
  | .plain b d => .plain b (f b d)
  | .box b d cs => .box b (f b d) (cs.map f)
def Cmds.map {π : Type} (f : Bool → Option (Data π) → Option (Data π)) : Cmds π → Cmds π
  | .nil => .nil
  | .cons c cs => .cons (c.map f) (cs.map f)
end

mutual
/-- The data of all barriers, in order. -/
def Cmd.barriers {π : Type} : Cmd π → List (Data π)
  | .plain b d => if b then d.toList else []
  | .box b d cs => (if b then d.toList else []) ++ cs.barriers
def Cmds.barriers {π : Type} : Cmds π → List (Data π)
  | .nil => []
  | .cons c cs => c.barriers ++ cs.barriers
end

/-- The references of all barriers, in order. -/
def references (cs : List (Cmds π)) : List Id :=
  (cs.flatMap Cmds.barriers).filterMap fun d => match d with
    | .external id => some id
    | _ => none

/-! ### Reading -/

/-- Links made without identifiers: those inside the subgraphs, and from found wires to their targets. -/
def direct (m : Node → Node) (p : Payload) : List Link :=
  p.links.map (fun l => ⟨(m l.src.1, l.src.2), (m l.dst.1, l.dst.2)⟩) ++
    p.ins.flatMap fun x => match x.1 with
      | some w => x.2.2.map fun t => ⟨w, (m t.1, t.2)⟩
      | none => []

/-- Sources with identifiers. -/
def sourcesOf (ps : List ((Node → Node) × Payload)) : List (Edge × Wire) :=
  ps.flatMap fun x => x.2.outs.filterMap fun y => if y.1 then none else some (y.2.1, (x.1 y.2.2.1, y.2.2.2))

/-- Targets with identifiers, as nodes of the envelopes. -/
def targetsOf (ps : List ((Node → Node) × Payload)) : List (Edge × (Node × Nat)) :=
  ps.flatMap fun x => x.2.ins.flatMap fun y => match y.1 with
    | some _ => []
    | none => y.2.2.map fun t => (y.2.1, t)

/-- All links between sources and targets with the same identifier. -/
def joined (ss : List (Edge × Wire)) (ts : List (Edge × (Node × Nat))) : List Link :=
  ss.flatMap fun s => (ts.filter fun t => t.1 = s.1).map fun t => ⟨s.2, t.2⟩

end Verif.Inline
