import Verif.Lemmas.EdgeIds
import Verif.Props.Inline
import Mathlib.Data.List.Nodup

/-
C89: identifiers of the edges between subgraphs of standalone circuits.
-/
namespace Verif.EdgeIds
open Verif.Inline List

/-- Two wires have the same identifier exactly if they are the same wire: the hash has no collisions for nodes of
32 bits and ports of 16 bits. -/
theorem C89_unique (w w' : HWire) : edgeId w = edgeId w' ↔ w = w' :=
  ⟨edgeId_inj, fun h => by rw [h]⟩

example : edgeId ⟨5, 0⟩ ≠ edgeId ⟨5, 1⟩ ∧ edgeId ⟨5, 1⟩ ≠ edgeId ⟨6, 0⟩ := by decide +kernel

/-- The identifier that stands for "no identifier" is used by no wire except the first port of a node whose index
is zero. -/
theorem C89_default_unused (w : HWire) : edgeId w = defaultId ↔ w = ⟨0, 0⟩ := by
  rw [← edgeId_zero, C89_unique]

/-! ### Writing and reading -/

/-- The outputs without registers: wire in the program that was written, and wire in the program read. -/
def sources (subs : List ((Node → Node) × Sub)) : List (HWire × Wire) :=
  subs.flatMap fun x => x.2.outs.filterMap fun y => if y.2.1 then none else some (y.1, (x.1 y.2.2.1, y.2.2.2))

/-- The inputs without registers: the wire that they were linked to, and the target. -/
def targets (subs : List ((Node → Node) × Sub)) : List (HWire × (Node × Nat)) :=
  subs.flatMap fun x => x.2.ins.flatMap fun y => match y.1, y.2.1 with
    | some w, none => y.2.2.map fun t => (w, t)
    | _, _ => []

/-- The links inside the subgraphs and from the wires found in registers. -/
def inner (subs : List ((Node → Node) × Sub)) : List Link :=
  subs.flatMap fun x => x.2.links.map (fun l => ⟨(x.1 l.src.1, l.src.2), (x.1 l.dst.1, l.dst.2)⟩) ++
    x.2.ins.flatMap fun y => match y.2.1 with
      | some w => y.2.2.map fun t => ⟨w, (x.1 t.1, t.2)⟩
      | none => []

/-- One link for each output and each input that were the same wire of the program that was written. -/
def same (ss : List (HWire × Wire)) (ts : List (HWire × (Node × Nat))) : List Link :=
  ss.flatMap fun s => (ts.filter fun t => t.1 = s.1).map fun t => ⟨s.2, t.2⟩

theorem mapM_option_none {α β : Type} (f : α → Option β) (l : List α) : l.mapM f = none ↔ ∃ x ∈ l, f x = none := by
  induction l with
  | nil => simp
  | cons x xs ih =>
    rw [List.mapM_cons]
    cases hx : f x with
    | none => simp [hx]
    | some y =>
      cases hxs : xs.mapM f with
      | none => 
        have := ih.mp hxs
        simp [hx, this]
      | some ys =>
        have hn : ¬ ∃ x ∈ xs, f x = none := fun h => by rw [ih.mpr h] at hxs; cases hxs
        simp [hx, hn]

theorem mapM_option_cons {α β : Type} {f : α → Option β} {x : α} {xs : List α} {l : List β}
    (h : (x :: xs).mapM f = some l) : ∃ y ys, f x = some y ∧ xs.mapM f = some ys ∧ l = y :: ys := by
  rw [List.mapM_cons] at h
  cases hx : f x with
  | none => rw [hx] at h; cases h
  | some y =>
    cases hxs : xs.mapM f with
    | none => rw [hx, hxs] at h; cases h
    | some ys =>
      rw [hx, hxs] at h
      cases h
      exact ⟨y, ys, rfl, rfl, rfl⟩

theorem write_panics (f : HWire → Edge) (subs : List ((Node → Node) × Sub)) :
    writeAllWith f subs = none ↔ ∃ x ∈ subs, ∃ y ∈ x.2.ins, y.1 = none := by
  unfold writeAllWith
  rw [mapM_option_none]
  constructor
  · rintro ⟨x, hx, h⟩
    refine ⟨x, hx, ?_⟩
    rw [Option.map_eq_none_iff] at h
    cases hm : x.2.ins.mapM fun x => x.1.map fun w => (x.2.1, f w, x.2.2) with
    | none =>
      obtain ⟨y, hy, h'⟩ := (mapM_option_none _ _).mp hm
      exact ⟨y, hy, by simpa using h'⟩
    | some l => rw [newInlineWith, hm] at h; cases h
  · rintro ⟨x, hx, y, hy, h⟩
    refine ⟨x, hx, ?_⟩
    have hm : (x.2.ins.mapM fun x => x.1.map fun w => (x.2.1, f w, x.2.2)) = none :=
      (mapM_option_none _ _).mpr ⟨y, hy, by rw [h]; rfl⟩
    rw [newInlineWith, hm]
    rfl

theorem ins_targets {f : HWire → Edge} {xs : List (Option HWire × Option Wire × List (Node × Nat))}
    {l : List (Option Wire × Edge × List (Node × Nat))}
    (h : (xs.mapM fun x => x.1.map fun w => (x.2.1, f w, x.2.2)) = some l) :
    (l.flatMap fun y => match y.1 with
      | some _ => []
      | none => y.2.2.map fun t => (y.2.1, t)) =
    (xs.flatMap fun y => match y.1, y.2.1 with
      | some w, none => y.2.2.map fun t => (w, t)
      | _, _ => []).map fun t => (f t.1, t.2) := by
  induction xs generalizing l with
  | nil => cases h; rfl
  | cons x xs ih =>
    obtain ⟨y, ys, h1, h2, rfl⟩ := mapM_option_cons h
    obtain ⟨w, fw, ts⟩ := x
    cases w with
    | none => cases h1
    | some w =>
      cases h1
      rw [List.flatMap_cons, List.flatMap_cons, List.map_append, ih h2]
      congr 1
      cases fw with
      | none => simp
      | some v => rfl

theorem ins_inner {f : HWire → Edge} (m : Node → Node) {xs : List (Option HWire × Option Wire × List (Node × Nat))}
    {l : List (Option Wire × Edge × List (Node × Nat))}
    (h : (xs.mapM fun x => x.1.map fun w => (x.2.1, f w, x.2.2)) = some l) :
    (l.flatMap fun x => match x.1 with
      | some w => x.2.2.map fun t => (⟨w, (m t.1, t.2)⟩ : Link)
      | none => []) =
    (xs.flatMap fun y => match y.2.1 with
      | some w => y.2.2.map fun t => ⟨w, (m t.1, t.2)⟩
      | none => []) := by
  induction xs generalizing l with
  | nil => cases h; rfl
  | cons x xs ih =>
    obtain ⟨y, ys, h1, h2, rfl⟩ := mapM_option_cons h
    obtain ⟨w, fw, ts⟩ := x
    cases w with
    | none => cases h1
    | some w =>
      cases h1
      rw [List.flatMap_cons, List.flatMap_cons, ih h2]

theorem newInline_some {f : HWire → Edge} {s : Sub} {p : Payload} (h : newInlineWith f s = some p) :
    p.links = s.links ∧ (s.ins.mapM fun x => x.1.map fun w => (x.2.1, f w, x.2.2)) = some p.ins ∧
      p.outs = s.outs.map fun x => (x.2.1, f x.1, x.2.2) := by
  unfold newInlineWith at h
  cases hm : s.ins.mapM fun x => x.1.map fun w => (x.2.1, f w, x.2.2) with
  | none => rw [hm] at h; cases h
  | some l => rw [hm] at h; cases h; exact ⟨rfl, rfl, rfl⟩

theorem written {f : HWire → Edge} {subs : List ((Node → Node) × Sub)} {ps : List ((Node → Node) × Payload)}
    (h : writeAllWith f subs = some ps) :
    sourcesOf ps = (sources subs).map (fun s => (f s.1, s.2)) ∧
      targetsOf ps = (targets subs).map (fun t => (f t.1, t.2)) ∧
      (ps.flatMap fun x => direct x.1 x.2) = inner subs := by
  unfold writeAllWith at h
  induction subs generalizing ps with
  | nil => cases h; exact ⟨rfl, rfl, rfl⟩
  | cons x xs ih =>
    obtain ⟨y, ys, h1, h2, rfl⟩ := mapM_option_cons h
    obtain ⟨i1, i2, i3⟩ := ih h2
    cases hp : newInlineWith f x.2 with
    | none => rw [hp] at h1; cases h1
    | some p =>
      rw [hp] at h1
      cases h1
      obtain ⟨e1, e2, e3⟩ := newInline_some hp
      refine ⟨?_, ?_, ?_⟩
      · unfold sourcesOf sources at i1 ⊢
        rw [List.flatMap_cons, List.flatMap_cons, List.map_append, i1]
        congr 1
        simp only [e3, List.filterMap_map, List.map_filterMap]
        congr 1
        funext y
        simp only [Function.comp]
        cases y.2.1 <;> rfl
      · unfold targetsOf targets at i2 ⊢
        rw [List.flatMap_cons, List.flatMap_cons, List.map_append, i2]
        congr 1
        exact ins_targets e2
      · unfold inner at i3 ⊢
        rw [List.flatMap_cons, List.flatMap_cons, i3]
        congr 1
        unfold direct
        rw [e1]
        congr 1
        exact ins_inner _ e2

theorem filter_with {f : HWire → Edge} (hf : ∀ a b, f a = f b ↔ a = b) (w : HWire) (ts : List (HWire × (Node × Nat))) :
    (ts.map fun t => (f t.1, t.2)).filter (fun t => t.1 = f w) =
      (ts.filter fun t => t.1 = w).map fun t => (f t.1, t.2) := by
  induction ts with
  | nil => rfl
  | cons t ts ih =>
    simp only [List.map_cons, List.filter_cons, hf, ih]
    split <;> rfl

theorem joined_with {f : HWire → Edge} (hf : ∀ a b, f a = f b ↔ a = b) (ss : List (HWire × Wire))
    (ts : List (HWire × (Node × Nat))) :
    joined (ss.map fun s => (f s.1, s.2)) (ts.map fun t => (f t.1, t.2)) = same ss ts := by
  induction ss with
  | nil => rfl
  | cons s ss ih =>
    unfold joined same at ih ⊢
    rw [List.map_cons, List.flatMap_cons, List.flatMap_cons, ih]
    congr 1
    rw [filter_with hf, List.map_map]
    rfl

theorem links_with {f : HWire → Edge} (hf : ∀ a b, f a = f b ↔ a = b)
    (base : List Link) (subs : List ((Node → Node) × Sub)) (ps qs : List ((Node → Node) × Payload))
    (h : writeAllWith f subs = some ps) (hq : Perm ps qs) :
    ((insertAll (start base) qs).isSome ↔ ((sources subs).map Prod.fst).Nodup) ∧
      ∀ s, insertAll (start base) qs = some s →
        Perm s.links (base ++ inner subs ++ same (sources subs) (targets subs)) := by
  obtain ⟨h1, h2, h3⟩ := written h
  have hn : ((sourcesOf ps).map Prod.fst).Nodup ↔ ((sources subs).map Prod.fst).Nodup := by
    rw [h1, List.map_map]
    have : (Prod.fst ∘ fun s : HWire × Wire => (f s.1, s.2)) = f ∘ Prod.fst := rfl
    rw [this, ← List.map_map]
    exact List.nodup_map_iff fun a b => (hf a b).mp
  have ho := C71_order base ps qs hq
  have hl := C71_links base ps
  refine ⟨by rw [← ho.1, hl.1, hn], fun s hs => ?_⟩
  obtain ⟨s', hs'⟩ := Option.isSome_iff_exists.mp (ho.1.mpr (by rw [hs]; rfl))
  refine (ho.2 s' s hs' hs).symm.trans ?_
  have := hl.2 s' hs'
  rwa [h1, h2, h3, joined_with hf] at this

theorem appended_with {f : HWire → Edge} (base : List Link) (subs subs' : List ((Node → Node) × Sub))
    (ps ps' : List ((Node → Node) × Payload)) (h : writeAllWith f subs = some ps) (h' : writeAllWith f subs' = some ps')
    (w : HWire) (hw : w ∈ (sources subs).map Prod.fst) (hw' : w ∈ (sources subs').map Prod.fst) :
    insertAll (start base) (ps ++ ps') = none := by
  rw [← Option.not_isSome_iff_eq_none, (C71_links base _).1]
  have e : sourcesOf (ps ++ ps') = sourcesOf ps ++ sourcesOf ps' := by
    unfold sourcesOf; rw [List.flatMap_append]
  rw [e, (written h).1, (written h').1, List.map_append, List.map_map, List.map_map]
  intro hn
  obtain ⟨a, ha, rfl⟩ := List.mem_map.mp hw
  obtain ⟨b, hb, hab⟩ := List.mem_map.mp hw'
  refine (List.nodup_append.mp hn).2.2 (f a.1) (List.mem_map.mpr ⟨a, ha, rfl⟩) (f a.1)
    (List.mem_map.mpr ⟨b, hb, ?_⟩) rfl
  show f b.1 = f a.1
  rw [hab]

theorem two_with {f : HWire → Edge} (hf : ∀ a b, f a = f b ↔ a = b) (x y : (Node → Node) × Sub)
    (ps : List ((Node → Node) × Payload)) (l : Link) (hps : writeAllWith f [x, y] = some ps)
    (hn : ((sources [x, y]).map Prod.fst).Nodup)
    (hl : [] ++ inner [x, y] ++ same (sources [x, y]) (targets [x, y]) = [l]) :
    ∃ (ps qs : List ((Node → Node) × Payload)) (s : State),
    writeAllWith f [x] = some ps ∧ writeAllWith f [y] = some qs ∧ insertAll (start []) (ps ++ qs) = some s ∧
      s.links = [l] := by
  have hps' := hps
  unfold writeAllWith at hps'
  obtain ⟨p, qs, h1, h2, rfl⟩ := mapM_option_cons hps'
  obtain ⟨hs, hl'⟩ := links_with hf [] _ _ _ hps (.refl _)
  obtain ⟨s, hs⟩ := Option.isSome_iff_exists.mp (hs.mpr hn)
  refine ⟨[p], qs, s, ?_, h2, hs, ?_⟩
  · unfold writeAllWith
    rw [List.mapM_cons, h1]
    rfl
  · have := hl' s hs
    rw [hl] at this
    exact List.perm_singleton.mp this

/-- Writing fails, by panicking, exactly if some input of a subgraph is not linked. -/
theorem C89_write_panics (subs : List ((Node → Node) × Sub)) :
    writeAll subs = none ↔ ∃ x ∈ subs, ∃ y ∈ x.2.ins, y.1 = none :=
  write_panics edgeId subs

/-- Subgraphs that are written with these identifiers and read again, in any order, are linked as the wires of the
program that was written say: the links inside, those from registers, and one for each output and each input
that were the same wire. Reading succeeds exactly if no wire is the output of two subgraphs. -/
theorem C89_links (base : List Link) (subs : List ((Node → Node) × Sub)) (ps qs : List ((Node → Node) × Payload))
    (h : writeAll subs = some ps) (hq : Perm ps qs) :
    ((insertAll (start base) qs).isSome ↔ ((sources subs).map Prod.fst).Nodup) ∧
      ∀ s, insertAll (start base) qs = some s →
        Perm s.links (base ++ inner subs ++ same (sources subs) (targets subs)) :=
  links_with C89_unique base subs ps qs h hq

/-- A value without registers from node 5 of one subgraph to node 9 of another. -/
def exSubs : List ((Node → Node) × Sub) :=
  [((· + 10), ⟨[], [], [(⟨5, 0⟩, false, (1, 0))]⟩), ((· + 20), ⟨[], [(some ⟨5, 0⟩, none, [(2, 0)])], []⟩)]

theorem exWritesWith (f : HWire → Edge) : ∃ ps, writeAllWith f exSubs = some ps := ⟨_, rfl⟩

theorem exWrites : ∃ ps, writeAll exSubs = some ps := exWritesWith edgeId

example : ((sources exSubs).map Prod.fst).Nodup ∧
    same (sources exSubs) (targets exSubs) = [⟨(11, 0), (2, 0)⟩] := by decide

/-! ### Circuits put together -/

/-- The identifiers say nothing about the program: if two standalone circuits are appended in pytket, and the
wire of some output without registers has the same numbers in both, reading panics. -/
theorem C89_appended_panics (base : List Link) (subs subs' : List ((Node → Node) × Sub))
    (ps ps' : List ((Node → Node) × Payload)) (h : writeAll subs = some ps) (h' : writeAll subs' = some ps')
    (w : HWire) (hw : w ∈ (sources subs).map Prod.fst) (hw' : w ∈ (sources subs').map Prod.fst) :
    insertAll (start base) (ps ++ ps') = none :=
  appended_with base subs subs' ps ps' h h' w hw hw'

/-- So a circuit cannot be appended to itself, although each copy can be read alone. -/
example : ∃ ps, writeAll exSubs = some ps ∧ (insertAll (start []) ps).isSome ∧
    insertAll (start []) (ps ++ ps) = none := by
  obtain ⟨ps, h⟩ := exWrites
  exact ⟨ps, h, (C89_links [] _ _ _ h (.refl _)).1.mpr (by decide),
    C89_appended_panics _ exSubs exSubs _ _ h h ⟨5, 0⟩ (by decide) (by decide)⟩

/-- Two circuits in one, where an output of the first has the numbers of another wire of the second: reading links
the first to the second, though no wire of either program did. -/
theorem C89_two_programs_wrong : ∃ (a b : List ((Node → Node) × Sub)) (ps qs : List ((Node → Node) × Payload)) (s : State),
    (writeAll a = some ps ∧ writeAll b = some qs ∧ insertAll (start []) (ps ++ qs) = some s ∧
      s.links = [⟨(11, 0), (2, 0)⟩]) ∧ same (sources a) (targets a) = [] ∧ same (sources b) (targets b) = [] := by
  obtain ⟨_, h⟩ := exWrites
  obtain ⟨ps, qs, s, h⟩ := two_with C89_unique ((· + 10), ⟨[], [], [(⟨5, 0⟩, false, (1, 0))]⟩)
    ((· + 20), ⟨[], [(some ⟨5, 0⟩, none, [(2, 0)])], []⟩) _ ⟨(11, 0), (2, 0)⟩ h (by decide) (by decide)
  exact ⟨_, _, ps, qs, s, h, by decide, by decide⟩

end Verif.EdgeIds
