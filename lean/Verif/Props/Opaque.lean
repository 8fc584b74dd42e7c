import Verif.Lemmas.Opaque

/-
C70: opaque subgraphs moved back into the program.
-/
namespace Verif.Opaque

variable {τ : Type}

/-! ### Examples -/

/-- Steps by their nodes. -/
inductive Raw
  | l (ls : List Link)
  | i (nodes : List Node) (finds : List (Option Wire)) (qs bs : List Nat)

def Raw.mk {τ : Type} (o : Ops τ) (g : Graph) : Raw → Event τ
  | .l ls => .links ls
  | .i ns fs qs bs => .insert (tryFromNodes o g 0 ns) fs qs bs

def Raw.nodes : Raw → List Node
  | .l _ => []
  | .i ns _ _ _ => ns

def Raw.finds : Raw → List (Option Wire)
  | .l _ => []
  | .i _ fs _ _ => fs

def Raw.ls : Raw → List Link
  | .l ls => ls
  | .i _ _ _ _ => []

/-- The region 0 with input 1 and output 2 and nodes up to 5, node 6 in node 5, the new region 10. -/
def exParent : Node → Option Node
  | 1 => some 0 | 2 => some 0 | 3 => some 0 | 4 => some 0 | 5 => some 0 | 6 => some 5
  | 11 => some 10 | 12 => some 10 | 13 => some 10 | 14 => some 10
  | _ => none

def exInside (n : Node) : List Node := if n = 6 then [6, 5] else [n]

def exRegions : Regions := ⟨1, 2, 11, 12, 0, 10⟩

def exGraph (ls : List Link) : Graph := ⟨exParent, ls⟩

/-- Types: a qubit, a boolean, a rotation and one without registers. -/
inductive Ty
  | q | b | r | u
deriving DecidableEq

def exCount : Ty → Option Count
  | .q => some ⟨1, 0, 0⟩
  | .b => some ⟨0, 1, 0⟩
  | .r => some ⟨0, 0, 1⟩
  | .u => none

/-- What is left to check of a step in a concrete setting. -/
def CheckStep (o : Ops Ty) (ls : List Link) (es : List Raw) (e : Raw) : Prop :=
  e.nodes.Nodup ∧ (∀ n ∈ e.nodes, n = 3 ∨ n = 4 ∨ n = 5) ∧
  (∀ l ∈ ls, l.dst.1 ∈ e.nodes → ((o.ins l.dst.1).any fun ts => l.dst.2 < ts.length) = true) ∧
  (∀ l ∈ ls, l.src.1 ∈ e.nodes → (o.ins l.src.1).isSome ∧ l.src.2 < (o.outs l.src.1).length) ∧
  (∀ l ∈ e.ls, 12 ≤ l.dst.1) ∧
  (∀ x ∈ (tryFromNodes o (exGraph ls) 0 e.nodes).ins.zip e.finds, x.2 = none ↔ (exCount x.1.1).isNone) ∧
  (∀ f ∈ e.finds, ∀ w ∈ f.toList, w.1 ∉ e.nodes ∧
    ∀ x ∈ exInside w.1, exParent x = some 0 → ∃ e' ∈ es, x ∈ e'.nodes)

instance (o : Ops Ty) (ls : List Link) (es : List Raw) (e : Raw) : Decidable (CheckStep o ls es e) := by
  unfold CheckStep; infer_instance

/-- What is left to check of a concrete setting. -/
def Check (o : Ops Ty) (ls : List Link) (es : List Raw) : Prop :=
  (ls.map Link.dst).Nodup ∧
  (∀ l ∈ ls, l.src.1 ≠ 11 ∧ l.dst.1 ≠ 12 ∧
    ∀ ts ∈ (o.ins l.dst.1).toList, ∀ t ∈ ts[l.dst.2]?.toList, ∀ v ∈ (o.outs l.src.1)[l.src.2]?.toList, v = t) ∧
  es.Pairwise (fun a b => (∀ n ∈ a.nodes, n ∉ b.nodes) ∧ ∀ f ∈ a.finds, ∀ w ∈ f.toList, w.1 ∉ b.nodes) ∧
  (∀ e ∈ es, CheckStep o ls es e) ∧ (∀ e ∈ es, e.nodes = [] → e.finds = [] ∧ e.ls ≠ [])

instance (o : Ops Ty) (ls : List Link) (es : List Raw) : Decidable (Check o ls es) := by
  unfold Check; infer_instance

theorem raw_inserted {o : Ops Ty} {g : Graph} {es : List Raw} {s : Sub Ty} {fs : List (Option Wire)} :
    Inserted (es.map (Raw.mk o g)) s fs ↔ ∃ ns qs bs, .i ns fs qs bs ∈ es ∧ s = tryFromNodes o g 0 ns := by
  constructor
  · rintro ⟨qs, bs, h⟩
    obtain ⟨e, he, h⟩ := List.mem_map.mp h
    cases e with
    | l ls => cases h
    | i ns fs' qs' bs' => cases h; exact ⟨ns, qs, bs, he, rfl⟩
  · rintro ⟨ns, qs, bs, h, rfl⟩
    exact ⟨qs, bs, List.mem_map.mpr ⟨_, h, rfl⟩⟩

theorem exInside_parent (n x : Node) (hx : x ∈ exInside n) (hp : exParent x = some 0) :
    x = if n = 6 then 5 else n := by
  unfold exInside at hx
  split at hx
  · simp only [List.mem_cons, List.not_mem_nil, or_false] at hx
    rcases hx with rfl | rfl
    · cases hp
    · simp [*]
  · simp [*] at hx ⊢
    exact hx

theorem raw_nodes {o : Ops Ty} {g : Graph} {e : Raw} : (Raw.mk o g e).nodes = e.nodes := by
  cases e <;> rfl

theorem raw_finds {o : Ops Ty} {g : Graph} {e : Raw} : (Raw.mk o g e).finds = e.finds := by
  cases e <;> rfl

theorem into_le_one {ls : List Link} (h : (ls.map Link.dst).Nodup) (t : Node × Nat) :
    ((exGraph ls).into t).length ≤ 1 := by
  unfold exGraph Graph.into
  simp only [List.length_map]
  induction ls with
  | nil => simp
  | cons l ls ih =>
    obtain ⟨h1, h2⟩ := List.nodup_cons.mp h
    rw [List.filter_cons]
    split
    · next e =>
      have e : l.dst = t := by simpa using e
      rw [List.filter_eq_nil_iff.mpr]
      · simp
      · intro x hx
        simp only [decide_eq_true_eq]
        intro e'
        apply h1
        rw [e, ← e']
        exact List.mem_map_of_mem hx
    · exact ih h2

theorem exSetting {o : Ops Ty} {ls : List Link} {es : List Raw} (h : Check o ls es) :
    Setting o exCount exInside exRegions 0 (exGraph ls) (es.map (Raw.mk o (exGraph ls))) := by
  obtain ⟨c1, c2, c3, c4, c5⟩ := h
  have hnodes : ∀ {ns fs qs bs}, .i ns fs qs bs ∈ es → ∀ n ∈ ns, exParent n = some 0 ∧ n ≠ 1 ∧ n ≠ 2 ∧ n < 6 := by
    intro ns fs qs bs hm n hn
    rcases (c4 _ hm).2.1 n hn with rfl | rfl | rfl <;> decide
  refine
    { self := ?_, unique := ?_, inputOld := rfl, outputOld := rfl, ioNe := by decide, regionsNe := by decide,
      newIn := ?_, newOut := ?_, freshIn := fun l hl => (c2 l hl).1, freshOut := fun l hl => (c2 l hl).2.1,
      freshParent := ?_, single := ?_, made := ?_, disjoint := ?_, ports := ?_, sources := ?_, typed := ?_,
      decoded := ?_, unsupported := ?_, available := ?_, ordered := ?_ }
  · intro n; unfold exInside; split
    · simp [*]
    · simp
  · intro n x hx y hy px py
    rw [exInside_parent n x hx px, exInside_parent n y hy py]
  · intro x hx hp
    have := exInside_parent _ x hx hp
    rw [this] at hp
    exact absurd hp (by change ¬ exParent 11 = some 0; decide)
  · intro x hx hp
    have := exInside_parent _ x hx hp
    rw [this] at hp
    exact absurd hp (by change ¬ exParent 12 = some 0; decide)
  · intro s fs hs n hw hp
    obtain ⟨ns, qs, bs, hm, rfl⟩ := raw_inserted.mp hs
    obtain ⟨x, hx, hxs⟩ := hw
    have hlt := (hnodes hm x hxs).2.2.2
    unfold exInside at hx
    change exParent n = some 10 at hp
    split at hx
    · subst n; cases hp
    · simp at hx; subst hx
      have := (hnodes hm x hxs).1
      rw [hp] at this; cases this
  · intro t
    exact into_le_one c1 t
  · intro s fs hs
    obtain ⟨ns, qs, bs, hm, rfl⟩ := raw_inserted.mp hs
    refine ⟨rfl, fun hn => ?_, (c4 _ hm).1, fun n hn => ?_⟩
    · exact (c5 _ hm hn).2 rfl
    · have := hnodes hm n hn
      exact ⟨this.1, this.2.1, this.2.2.1⟩
  · rw [List.pairwise_map]
    refine c3.imp fun {a b} h => ?_
    rw [raw_nodes, raw_nodes]; exact h.1
  · intro s fs hs l hl hd
    obtain ⟨ns, qs, bs, hm, rfl⟩ := raw_inserted.mp hs
    have := (c4 _ hm).2.2.1 l hl hd
    obtain ⟨ts, h1, h2⟩ := (Option.any_eq_true _ _).mp this
    exact ⟨ts, h1, by simpa using h2⟩
  · intro s fs hs l hl hd
    obtain ⟨ns, qs, bs, hm, rfl⟩ := raw_inserted.mp hs
    exact (c4 _ hm).2.2.2.1 l hl hd
  · intro l hl ts t h1 h2 v h3
    exact (c2 l hl).2.2 ts (Option.mem_toList.mpr h1) t (Option.mem_toList.mpr h2) v (Option.mem_toList.mpr h3)
  · intro ls' hls l hl
    obtain ⟨e, he, hm⟩ := List.mem_map.mp hls
    cases e with
    | i _ _ _ _ => cases hm
    | l ls'' =>
      cases hm
      have h12 := (c4 _ he).2.2.2.2.1 l hl
      constructor
      · intro e
        rw [e] at h12
        exact absurd h12 (by decide)
      · rintro s fs hs ⟨x, hx, hxs⟩
        obtain ⟨ns, qs, bs, hm, rfl⟩ := raw_inserted.mp hs
        have hlt : (x : Nat) < 6 := (hnodes hm x hxs).2.2.2
        have h12' : (12 : Nat) ≤ l.dst.1 := h12
        unfold exInside at hx
        rw [if_neg (fun e => by rw [e] at h12'; exact absurd h12' (by decide)), List.mem_singleton] at hx
        rw [← hx] at h12'
        exact absurd (Nat.lt_of_lt_of_le hlt (by decide : (6 : Nat) ≤ 12)) (Nat.not_lt.mpr h12')
  · intro s fs hs x hx
    obtain ⟨ns, qs, bs, hm, rfl⟩ := raw_inserted.mp hs
    have := (c4 _ hm).2.2.2.2.2.1 x hx
    rw [Option.isNone_iff_eq_none] at this
    exact this
  · intro s fs hs f hf
    obtain ⟨ns, qs, bs, hm, rfl⟩ := raw_inserted.mp hs
    obtain ⟨h1, h2⟩ := (c4 _ hm).2.2.2.2.2.2 _ hf f (Option.mem_toList.mpr rfl)
    refine ⟨fun x hx hp => ?_, h1⟩
    obtain ⟨e, he, hxe⟩ := h2 x hx hp
    cases e with
    | l ls => cases hxe
    | i ns' fs' qs' bs' => exact ⟨_, fs', raw_inserted.mpr ⟨ns', qs', bs', he, rfl⟩, hxe⟩
  · rw [List.pairwise_map]
    refine c3.imp fun {a b} h f hf => ?_
    rw [raw_nodes]
    rw [raw_finds] at hf
    exact h.2 _ hf f (Option.mem_toList.mpr rfl)

/-- An opaque node 3, a gate 4 on its qubit, an opaque node 5 with the node 6 inside. -/
def exOps : Ops Ty where
  ins n := match n with
    | 2 => some [.q, .u]
    | 3 => some [.q]
    | 4 => some [.q]
    | 5 => some [.q, .u]
    | 6 => some [.u, .u]
    | _ => some []
  outs n := match n with
    | 1 => [.q, .u]
    | 3 => [.q, .u]
    | 4 => [.q]
    | 5 => [.q, .u]
    | 6 => []
    | _ => []
  hasChildren n := n == 5
  other := []

def exLinks : List Link :=
  [⟨(1, 0), (3, 0)⟩, ⟨(3, 0), (4, 0)⟩, ⟨(4, 0), (5, 0)⟩, ⟨(3, 1), (5, 1)⟩, ⟨(5, 0), (2, 0)⟩, ⟨(5, 1), (2, 1)⟩,
    ⟨(3, 1), (6, 0)⟩, ⟨(1, 1), (6, 1)⟩]

/-- The decoder makes node 13 for the gate. -/
def exRaw : List Raw :=
  [.i [3] [some (11, 0)] [0] [], .l [⟨(3, 0), (13, 0)⟩], .i [5] [some (13, 0), none] [0] [],
    .l [⟨(5, 0), (12, 0)⟩]]

def exEvents : List (Event Ty) := exRaw.map (Raw.mk exOps (exGraph exLinks))

theorem exCheck : Check exOps exLinks exRaw := by decide +kernel

theorem exSettingHolds : Setting exOps exCount exInside exRegions 0 (exGraph exLinks) exEvents := exSetting exCheck

theorem exInserted {s : Sub Ty} {fs : List (Option Wire)} (h : Inserted exEvents s fs) :
    (s = tryFromNodes exOps (exGraph exLinks) 0 [3] ∧ fs = [some (11, 0)]) ∨
      (s = tryFromNodes exOps (exGraph exLinks) 0 [5] ∧ fs = [some (13, 0), none]) := by
  obtain ⟨ns, qs, bs, hm, rfl⟩ := raw_inserted.mp h
  simp only [exRaw, List.mem_cons, List.not_mem_nil, or_false, reduceCtorEq, false_or, Raw.i.injEq] at hm
  rcases hm with ⟨rfl, rfl, -⟩ | ⟨rfl, rfl, -⟩
  · exact .inl ⟨rfl, rfl⟩
  · exact .inr ⟨rfl, rfl⟩

/-- The links of the program after the round. -/
theorem exResult : (reassemble exCount exInside exRegions (exGraph exLinks) exEvents).map Graph.links =
    some [⟨(3, 1), (5, 1)⟩, ⟨(3, 1), (6, 0)⟩, ⟨(11, 0), (3, 0)⟩, ⟨(3, 0), (13, 0)⟩, ⟨(13, 0), (5, 0)⟩,
      ⟨(5, 1), (12, 1)⟩, ⟨(5, 0), (12, 0)⟩, ⟨(11, 1), (6, 1)⟩] := by
  decide +kernel

/-! ### Links -/

/-- At every port of a subgraph or inside it, the link from before is left exactly if its source stays and
did not become a register, and exactly the wire that was found, or that of the new input, is added. -/
theorem C70_links {o : Ops τ} {count : τ → Option Count} {inside : Node → List Node} {r : Regions}
    {entry : Node} {g g' : Graph} {es : List (Event τ)} (H : Setting o count inside r entry g es)
    (h : reassemble count inside r g es = some g')
    {s : Sub τ} {fs : List (Option Wire)} (hs : Inserted es s fs) {t : Node × Nat} (ht : Within inside s t.1)
    {w : Wire} (hw : g.into t = [w]) :
    ∃ kept add, g'.into t = kept ++ add ∧
      (((∃ s' fs', Inserted es s' fs' ∧ RegisterOutput o count g r.old s' w) ∨ ¬ Stays inside g r.old es w.1) →
        kept = []) ∧
      ((¬ ∃ s' fs', Inserted es s' fs' ∧ RegisterOutput o count g r.old s' w) → Stays inside g r.old es w.1 →
        kept = [w]) ∧
      (∀ f, Found s fs t f → add = [f]) ∧
      ((¬ ∃ f, Found s fs t f) → w.1 = r.oldIn → add = [(r.newIn, w.2)]) ∧
      ((¬ ∃ f, Found s fs t f) → w.1 ≠ r.oldIn → add = []) :=
  H.reassemble_into h hs ht hw

/-- A port of a subgraph or inside it ends with exactly one link: from the wire that the decoder found for
it, from the new input if its value came from the old one, and from the same place otherwise. Missing is
that subgraphs may use their own register outputs, and pass parameters to each other. -/
theorem C70_reassembled_partial {o : Ops τ} {count : τ → Option Count} {inside : Node → List Node} {r : Regions}
    {entry : Node} {g g' : Graph} {es : List (Event τ)} (H : Setting o count inside r entry g es)
    (P : Plain o count inside r g es) (h : reassemble count inside r g es = some g')
    {s : Sub τ} {fs : List (Option Wire)} (hs : Inserted es s fs) {t : Node × Nat} (ht : Within inside s t.1)
    {w : Wire} (hw : g.into t = [w]) :
    (∀ f, Found s fs t f → g'.into t = [f]) ∧
      ((¬ ∃ f, Found s fs t f) → w.1 = r.oldIn → g'.into t = [(r.newIn, w.2)]) ∧
      ((¬ ∃ f, Found s fs t f) → w.1 ≠ r.oldIn → g'.into t = [w]) := by
  obtain ⟨kept, add, e, k1, k2, a1, a2, a3⟩ := H.reassemble_into h hs ht hw
  have hwl : (⟨w, t⟩ : Link) ∈ g.links := mem_into.mp (by rw [hw]; simp)
  refine ⟨fun f hf => ?_, fun hf ho => ?_, fun hf ho => ?_⟩
  · rw [e, a1 f hf]
    obtain ⟨m1, m2, m3, ty, ts, o1, o2, x, hx, hx1⟩ := H.found_source hs hf hw
    obtain ⟨y, hy, y1, y2⟩ := hf
    have hxy : x = y := zip_snd_unique (H.nodup hs).1 hx hy (by rw [hx1, y1])
    have hcount : count ty ≠ none := by
      intro hc
      have := (H.unsupported s fs hs x hx).mpr (by rw [hx1]; exact hc)
      rw [hxy, y2] at this
      cases this
    obtain ⟨c, hc⟩ := Option.ne_none_iff_exists'.mp hcount
    have hkept : kept = [] := by
      apply k1
      by_cases hst : Stays inside g r.old es w.1
      · left
        by_cases hp : c.params = 0
        · obtain ⟨s', fs', hs', hm⟩ := hst w.1 (H.self _) m3
          obtain ⟨q1, q2⟩ := H.sources s' fs' hs' _ hwl hm
          have q3 := List.getElem?_eq_getElem q2
          have q4 := H.typed _ hwl ts ty o1 o2 _ q3
          refine ⟨s', fs', hs', hm, q1, ⟨_, c, q3, by rw [q4]; exact hc, hp⟩, _, hwl, rfl, ?_, ?_⟩
          · intro hts
            obtain ⟨pre, qs, bs, post, he, hd⟩ := H.split hs
            have hi : (s' = s ∧ fs' = fs) ∨ Inserted pre s' fs' ∨ Inserted post s' fs' := by
              rw [he, inserted_append, inserted_cons_iff] at hs'
              rcases hs' with h | h | h
              · exact .inr (.inl h)
              · exact .inl h
              · exact .inr (.inr h)
            rcases hi with ⟨rfl, -⟩ | hi
            · exact m2 hm
            · exact hd s' fs' hi _ m1 hts
          · exact ((H.made s fs hs).2.2.2 _ m1).1
        · exact absurd hst (P.params s fs hs t f ⟨y, hy, y1, y2⟩ ts ty c o1 o2 hc hp w (by rw [hw]; simp))
      · exact .inr hst
    rw [hkept]; rfl
  · rw [e, a2 hf ho]
    have : kept = [] := by
      apply k1
      right
      intro hst
      obtain ⟨s', fs', h1, h2⟩ := hst r.oldIn (by rw [ho]; exact H.self _) H.inputOld
      exact ((H.made s' fs' h1).2.2.2 _ h2).2.1 rfl
    rw [this]; rfl
  · rw [e, a3 hf ho, List.append_nil]
    apply k2
    · rintro ⟨s', fs', hs', hR⟩
      obtain ⟨u1, u2⟩ := P.uses s' fs' hs' w hR _ hwl rfl
      change t.1 ∉ s'.nodes at u1
      have tm : t.1 ∈ s.nodes := H.within hs ht (H.self _) u2
      have wm : w.1 ∉ s.nodes := by
        intro hm
        obtain ⟨pre, qs, bs, post, he, hd⟩ := H.split hs
        have hi : (s' = s ∧ fs' = fs) ∨ Inserted pre s' fs' ∨ Inserted post s' fs' := by
          rw [he, inserted_append, inserted_cons_iff] at hs'
          rcases hs' with h | h | h
          · exact .inr (.inl h)
          · exact .inl h
          · exact .inr (.inr h)
        rcases hi with ⟨rfl, -⟩ | hi
        · exact u1 tm
        · exact hd s' fs' hi _ hm hR.1
      obtain ⟨ts, o1, o2⟩ := H.ports s fs hs _ hwl tm
      have o3 := List.getElem?_eq_getElem o2
      have hin : (ts[t.2], t) ∈ s.ins := (H.mem_ins hs _).mpr ⟨tm, ⟨ts, o1, o3⟩, w, by rw [hw]; simp, wm,
        ((H.made s' fs' hs').2.2.2 _ hR.1).1⟩
      have hlen : s.ins.length = fs.length := by
        rw [reassemble] at h
        obtain ⟨g1, h1, -⟩ := Option.map_eq_some_iff.mp h
        exact insert_length h1 (fun s fs hs => (H.nodup hs).1) hs
      obtain ⟨b, hb⟩ := mem_zip_of_left hlen hin
      have hbn : b = none := by
        cases b with
        | none => rfl
        | some f => exact absurd ⟨f, _, hb, rfl, rfl⟩ hf
      have hcn := (H.unsupported s fs hs _ hb).mp hbn
      obtain ⟨-, -, ⟨u, c, c1, c2, -⟩, -⟩ := hR
      have := H.typed _ hwl ts _ o1 o3 u c1
      rw [this] at c2
      change count ts[t.2] = none at hcn
      rw [hcn] at c2
      cases c2
    · rcases P.sourced s fs hs t ht hf w (by rw [hw]; simp) with h | h
      · exact h
      · exact absurd h ho

/-- The example is plain. -/
theorem exPlain : Plain exOps exCount exInside exRegions (exGraph exLinks) exEvents := by
  have i3 : Inserted exEvents (tryFromNodes exOps (exGraph exLinks) 0 [3]) [some (11, 0)] :=
    raw_inserted.mpr ⟨[3], [0], [], by simp [exRaw], rfl⟩
  have i5 : Inserted exEvents (tryFromNodes exOps (exGraph exLinks) 0 [5]) [some (13, 0), none] :=
    raw_inserted.mpr ⟨[5], [0], [], by simp [exRaw], rfl⟩
  refine ⟨?_, ?_, ?_⟩
  · intro s fs hs w hR l hl hlw
    have key : ∀ ns : List Node, ns = [3] ∨ ns = [5] → ∀ l ∈ exLinks, l.src.1 ∈ ns →
        (∀ t ∈ (exOps.outs l.src.1)[l.src.2]?.toList, (exCount t).isSome) →
        l.dst.1 ∉ ns ∧ exParent l.dst.1 = some 0 := by
      rintro ns (rfl | rfl) <;> decide
    obtain ⟨h1, -, ⟨t, c, h2, h3, -⟩, -⟩ := hR
    subst hlw
    have hu : ∀ t ∈ (exOps.outs l.src.1)[l.src.2]?.toList, (exCount t).isSome := by
      intro t' ht'
      rw [h2] at ht'
      simp at ht'
      rw [ht', h3]; rfl
    rcases exInserted hs with ⟨rfl, rfl⟩ | ⟨rfl, rfl⟩
    · exact key [3] (.inl rfl) l hl h1 hu
    · exact key [5] (.inr rfl) l hl h1 hu
  · intro s fs hs t f hf ts ty c h1 h2 h3 h4
    exfalso
    have : ∀ n, ∀ ts ∈ (exOps.ins n).toList, ∀ ty ∈ ts, ty = .q ∨ ty = .u := by
      intro n ts hts ty hty
      simp only [exOps, Option.mem_toList] at hts
      split at hts <;> simp only [Option.some.injEq] at hts <;> subst hts <;> simp_all
    rcases this t.1 ts (by rw [h1]; simp) ty (List.mem_of_getElem? h2) with rfl | rfl
    · simp only [exCount, Option.some.injEq] at h3
      subst h3
      exact h4 rfl
    · cases h3
  · intro s fs hs t hw hf w hm
    by_cases ho : w.1 = 1
    · exact .inr ho
    · left
      have hl : (⟨w, t⟩ : Link) ∈ exLinks := mem_into.mp hm
      have key : ∀ l ∈ exLinks, l.src.1 = 1 ∨ l.src.1 = 3 ∨ l.src.1 = 5 ∨ l.dst = (5, 0) := by decide
      have stay : ∀ n, n = 3 ∨ n = 5 → Stays exInside (exGraph exLinks) 0 exEvents n := by
        rintro n (rfl | rfl) x hx hp
        · have := exInside_parent 3 x hx hp
          exact ⟨_, _, i3, by rw [this]; decide⟩
        · have := exInside_parent 5 x hx hp
          exact ⟨_, _, i5, by rw [this]; decide⟩
      rcases key _ hl with h | h | h | h
      · exact absurd h ho
      · change w.1 = 3 at h
        rw [h]; exact stay 3 (.inl rfl)
      · change w.1 = 5 at h
        rw [h]; exact stay 5 (.inr rfl)
      · exfalso
        change t = (5, 0) at h
        subst h
        obtain ⟨x, hx, hxs⟩ := hw
        have hx5 : x = 5 := by simpa [exInside] using hx
        subst hx5
        rcases exInserted hs with ⟨rfl, rfl⟩ | ⟨rfl, rfl⟩
        · exact absurd hxs (by decide)
        · exact hf ⟨(13, 0), ((.q, (5, 0)), some (13, 0)), by decide +kernel, rfl, rfl⟩

example : Setting exOps exCount exInside exRegions 0 (exGraph exLinks) exEvents ∧
    Plain exOps exCount exInside exRegions (exGraph exLinks) exEvents ∧
    (reassemble exCount exInside exRegions (exGraph exLinks) exEvents).isSome ∧
    (exGraph exLinks).into (6, 0) = [(3, 1)] ∧ (exGraph exLinks).into (5, 0) = [(4, 0)] :=
  ⟨exSettingHolds, exPlain, by decide +kernel, by decide, by decide⟩

/-- An output of the region that comes from a subgraph and that the decoder does not see as registers is
an output of the new region in the same place. -/
theorem C70_outputs {o : Ops τ} {count : τ → Option Count} {inside : Node → List Node} {r : Regions}
    {entry : Node} {g g' : Graph} {es : List (Event τ)} (H : Setting o count inside r entry g es)
    (h : reassemble count inside r g es = some g') {s : Sub τ} {fs : List (Option Wire)} (hs : Inserted es s fs)
    {w : Wire} {p : Nat} {ty : τ} (hw : w.1 ∈ s.nodes) (hl : (⟨w, (r.oldOut, p)⟩ : Link) ∈ g.links)
    (ht : (o.outs w.1)[w.2]? = some ty) (hc : ∀ c, count ty = some c → c.params ≠ 0)
    (hd : ∀ ls, Event.links ls ∈ es → ∀ l ∈ ls, l.dst ≠ (r.newOut, p)) :
    g'.into (r.newOut, p) = [w] :=
  H.output h hs hw hl ht hc hd

example : (⟨(5, 1), (exRegions.oldOut, 1)⟩ : Link) ∈ (exGraph exLinks).links ∧
    (exOps.outs 5)[1]? = some .u ∧ exCount .u = none ∧
    ∀ e ∈ exRaw, ∀ l ∈ e.ls, l.dst ≠ (exRegions.newOut, 1) := by decide

/-! ### Registers -/

/-- The outputs seen as registers get the registers of the command in order, each as many as its type has;
this succeeds exactly if the command has enough. -/
theorem C70_tracked (count : τ → Option Count) (oldOut newOut : Node) (g : Graph) (outs : List (τ × Wire))
    (qs bs : List Nat) :
    ((rewireOutputs count oldOut newOut g outs qs bs).isSome ↔
      ((counts count outs).map fun c => c.qubits).sum ≤ qs.length ∧
      ((counts count outs).map fun c => c.bits).sum ≤ bs.length) ∧
    ∀ res, rewireOutputs count oldOut newOut g outs qs bs = some res →
      res.2.map (fun k => k.wire) =
        (outs.filter fun x => ((count x.1).filter fun c => c.params == 0).isSome).map Prod.snd ∧
      res.2.map (fun k => (k.qubits.length, k.bits.length)) = (counts count outs).map (fun c => (c.qubits, c.bits)) ∧
      res.2.flatMap (fun k => k.qubits) = qs.take ((counts count outs).map fun c => c.qubits).sum ∧
      res.2.flatMap (fun k => k.bits) = bs.take ((counts count outs).map fun c => c.bits).sum :=
  ⟨tracked_isSome count oldOut newOut g outs qs bs, fun _ h => tracked_spec h⟩

example : (rewireOutputs exCount 2 12 (exGraph []) [(.q, (3, 0)), (.u, (3, 1)), (.b, (3, 2)), (.q, (3, 3))] [7, 8] [9]).map
    (fun r => r.2.map fun k => (k.wire, k.qubits, k.bits)) =
      some [((3, 0), [7], []), ((3, 2), [], [9]), ((3, 3), [8], [])] := by decide

/-! ### Identifiers -/

/-- After the encoders of all regions are merged, every subgraph is found by the identifier that was given
for it, and all identifiers are different. -/
theorem C70_identifiers {α : Type} (t : Table α) (count : Nat) (regions : List (List α)) :
    (encodeAll t count regions).1.map Prod.snd = regions.flatten ∧
      ((encodeAll t count regions).1.map Prod.fst).Nodup ∧
      (∀ e ∈ (encodeAll t count regions).1, (encodeAll t count regions).2.get e.1 = some e.2) ∧
      ∀ i : Id, i.1 ≤ count → (encodeAll t count regions).2.get i = t.get i := by
  obtain ⟨h1, h2, -, h3, h4⟩ := encodeAll_spec t count regions
  exact ⟨h1, h2, h3, h4⟩

example : (encodeAll (Table.new 0) 0 [["a", "b"], [], ["c"]]).1 = [((1, 0), "a"), ((1, 1), "b"), ((3, 0), "c")] := by
  decide

/-! ### Boundaries -/

/-- The ports of a subgraph are, once each, those with a link to another node of its region. -/
theorem C70_boundary (o : Ops τ) (g : Graph) (entry region n : Node) (ns : List Node)
    (hp : g.parent n = some region) (hd : (n :: ns).Nodup) :
    (∀ ty t, (ty, t) ∈ (tryFromNodes o g entry (n :: ns)).ins ↔ t.1 ∈ n :: ns ∧
      (∃ ts, o.ins t.1 = some ts ∧ ts[t.2]? = some ty) ∧
      ∃ l ∈ g.links, l.dst = t ∧ l.src.1 ∉ n :: ns ∧ g.parent l.src.1 = some region) ∧
    (∀ ty w, (ty, w) ∈ (tryFromNodes o g entry (n :: ns)).outs ↔ w.1 ∈ n :: ns ∧ (o.ins w.1).isSome ∧
      (o.outs w.1)[w.2]? = some ty ∧
      ∃ l ∈ g.links, l.src = w ∧ l.dst.1 ∉ n :: ns ∧ g.parent l.dst.1 = some region) ∧
    ((tryFromNodes o g entry (n :: ns)).ins.map Prod.snd).Nodup ∧
    ((tryFromNodes o g entry (n :: ns)).outs.map Prod.snd).Nodup := by
  refine ⟨fun ty t => ?_, fun ty w => ?_, (made_ports_nodup hd).1, (made_ports_nodup hd).2⟩
  · have e : (tryFromNodes o g entry (n :: ns)).ins = (n :: ns).flatMap (nodeIns o g (n :: ns) region) := by
      simp only [tryFromNodes, hp]
    rw [e, List.mem_flatMap]
    constructor
    · rintro ⟨m, hm, hx⟩
      obtain ⟨ts, h1, h2, h3, w, hw, h4⟩ := mem_nodeIns.mp hx
      simp only at h2 h3 hw
      subst h2
      exact ⟨hm, ⟨ts, h1, h3⟩, ⟨w, t⟩, mem_into.mp hw, rfl, h4⟩
    · rintro ⟨hm, ⟨ts, h1, h3⟩, l, hl, rfl, h4⟩
      exact ⟨_, hm, mem_nodeIns.mpr ⟨ts, h1, rfl, h3, l.src, mem_into.mpr hl, h4⟩⟩
  · have e : (tryFromNodes o g entry (n :: ns)).outs = (n :: ns).flatMap (nodeOuts o g (n :: ns) region) := by
      simp only [tryFromNodes, hp]
    rw [e, List.mem_flatMap]
    constructor
    · rintro ⟨m, hm, hx⟩
      obtain ⟨h1, h2, h3, t, ht, h4⟩ := mem_nodeOuts.mp hx
      simp only at h2 h3 ht
      subst h2
      exact ⟨hm, h1, h3, ⟨w, t⟩, mem_outOf.mp ht, rfl, h4⟩
    · rintro ⟨hm, h1, h3, l, hl, rfl, h4⟩
      exact ⟨_, hm, mem_nodeOuts.mpr ⟨h1, rfl, h3, l.dst, mem_outOf.mpr hl, h4⟩⟩

example : (tryFromNodes exOps (exGraph exLinks) 0 [5]).ins = [(.q, (5, 0)), (.u, (5, 1))] ∧
    (tryFromNodes exOps (exGraph exLinks) 0 [5]).outs = [(.q, (5, 0)), (.u, (5, 1))] ∧
    (tryFromNodes exOps (exGraph exLinks) 0 [5]).compatible = false := by decide +kernel

/-- A subgraph is kept beside the circuit as a program of its own only if it has no nested regions and no
static, ordering or outer links to other nodes. -/
theorem C70_compatible (o : Ops τ) (g : Graph) (entry region n : Node) (ns : List Node)
    (hp : g.parent n = some region) :
    (tryFromNodes o g entry (n :: ns)).compatible = true ↔
      ∀ m ∈ n :: ns, ∀ ts, o.ins m = some ts →
        o.hasChildren m = false ∧
        (∀ l ∈ o.other, (l.1 = m → l.2 ∈ n :: ns) ∧ (l.2 = m → l.1 ∈ n :: ns)) ∧
        (∀ l ∈ g.links, l.dst.1 = m → l.dst.2 < ts.length → l.src.1 ∈ n :: ns ∨ g.parent l.src.1 = some region) ∧
        (∀ l ∈ g.links, l.src.1 = m → l.src.2 < (o.outs m).length →
          l.dst.1 ∈ n :: ns ∨ g.parent l.dst.1 = some region) := by
  have e : (tryFromNodes o g entry (n :: ns)).compatible = (n :: ns).all (nodeCompatible o g (n :: ns) region) := by
    simp only [tryFromNodes, hp]
  rw [e, List.all_eq_true]
  refine forall_congr' fun m => forall_congr' fun hm => ?_
  generalize n :: ns = nodes
  rw [nodeCompatible]
  cases hi : o.ins m with
  | none => simp
  | some ts =>
    simp only [Option.some.injEq, forall_eq']
    rw [Bool.and_eq_true, Bool.and_eq_true, Bool.not_eq_true', Bool.not_eq_true', Bool.not_eq_true',
      Bool.or_eq_false_iff, List.any_eq_false, List.any_eq_false, List.any_eq_false]
    have outer : ∀ nbs : List Node, ¬ outerNb g nodes region nbs = true ↔
        ∀ x ∈ nbs, x ∈ nodes ∨ g.parent x = some region := by
      intro nbs
      simp only [outerNb, List.any_eq_true, Bool.and_eq_true, Bool.not_eq_true', not_exists, not_and,
        bne_iff_ne, Decidable.not_not]
      refine forall_congr' fun x => forall_congr' fun _ => ?_
      by_cases hx : x ∈ nodes
      · simp [hx]
      · simp [hx]
    have hio : (∀ p ∈ List.range ts.length, ¬ outerNb g nodes region ((g.into (m, p)).map Prod.fst) = true) ↔
        ∀ l ∈ g.links, l.dst.1 = m → l.dst.2 < ts.length → l.src.1 ∈ nodes ∨ g.parent l.src.1 = some region := by
      simp only [outer]
      constructor
      · intro h l hl h1 h2
        refine h l.dst.2 (List.mem_range.mpr h2) l.src.1 (List.mem_map.mpr ⟨l.src, mem_into.mpr ?_, rfl⟩)
        rw [← h1]; exact hl
      · intro h p hp x hx
        obtain ⟨w, hw, rfl⟩ := List.mem_map.mp hx
        exact h _ (mem_into.mp hw) rfl (List.mem_range.mp hp)
    have hoo : (∀ p ∈ List.range (o.outs m).length, ¬ outerNb g nodes region ((g.outOf (m, p)).map Prod.fst) = true) ↔
        ∀ l ∈ g.links, l.src.1 = m → l.src.2 < (o.outs m).length →
          l.dst.1 ∈ nodes ∨ g.parent l.dst.1 = some region := by
      simp only [outer]
      constructor
      · intro h l hl h1 h2
        refine h l.src.2 (List.mem_range.mpr h2) l.dst.1 (List.mem_map.mpr ⟨l.dst, mem_outOf.mpr ?_, rfl⟩)
        rw [← h1]; exact hl
      · intro h p hp x hx
        obtain ⟨w, hw, rfl⟩ := List.mem_map.mp hx
        exact h _ (mem_outOf.mp hw) rfl (List.mem_range.mp hp)
    have hot : (∀ l ∈ o.other, ¬ ((l.1 == m && !nodes.contains l.2) || (l.2 == m && !nodes.contains l.1)) = true) ↔
        ∀ l ∈ o.other, (l.1 = m → l.2 ∈ nodes) ∧ (l.2 = m → l.1 ∈ nodes) := by
      refine forall_congr' fun l => forall_congr' fun _ => ?_
      simp
    rw [hio, hoo, hot]
    constructor
    · rintro ⟨⟨⟨h1, h2⟩, h3⟩, h4⟩
      exact ⟨h3, h4, h1, h2⟩
    · rintro ⟨h3, h4, h1, h2⟩
      exact ⟨⟨⟨h1, h2⟩, h3⟩, h4⟩

/-! ### Where it fails -/

/-- Nodes 3 and 4 are one subgraph; the boolean of 3 goes to 4 and to another subgraph 5. -/
def lostOps : Ops Ty where
  ins n := match n with
    | 3 => some []
    | 4 => some [.b]
    | 5 => some [.b]
    | _ => some []
  outs n := match n with
    | 3 => [.b]
    | _ => []
  hasChildren _ := false
  other := []

def lostLinks : List Link := [⟨(3, 0), (4, 0)⟩, ⟨(3, 0), (5, 0)⟩]

def lostRaw : List Raw := [.i [3, 4] [] [] [0], .i [5] [some (3, 0)] [] [0]]

/-- An output that is also used inside the subgraph loses that use: the link is removed and nothing
replaces it, so the program that is put together has an input without value. -/
theorem C70_shared_output_lost : ∃ (o : Ops Ty) (ls : List Link) (es : List Raw) (g' : Graph),
    Setting o exCount exInside exRegions 0 (exGraph ls) (es.map (Raw.mk o (exGraph ls))) ∧
    reassemble exCount exInside exRegions (exGraph ls) (es.map (Raw.mk o (exGraph ls))) = some g' ∧
    (exGraph ls).into (4, 0) = [(3, 0)] ∧ g'.into (4, 0) = [] ∧ g'.into (5, 0) = [(3, 0)] ∧
    (∃ fs, Inserted (es.map (Raw.mk o (exGraph ls))) (tryFromNodes o (exGraph ls) 0 [3, 4]) fs) := by
  have h : (reassemble exCount exInside exRegions (exGraph lostLinks)
      (lostRaw.map (Raw.mk lostOps (exGraph lostLinks)))).map (fun g => (g.into (4, 0), g.into (5, 0))) =
        some ([], [(3, 0)]) := by decide +kernel
  obtain ⟨g', h1, h2⟩ := Option.map_eq_some_iff.mp h
  simp only [Prod.mk.injEq] at h2
  exact ⟨lostOps, lostLinks, lostRaw, g', exSetting (by decide +kernel), h1, by decide, h2.1, h2.2, [],
    raw_inserted.mpr ⟨[3, 4], [], [0], by simp [lostRaw], rfl⟩⟩

/-- The rotation of the subgraph 3 goes to the subgraph 5. -/
def twiceOps : Ops Ty where
  ins n := match n with
    | 5 => some [.r]
    | _ => some []
  outs n := match n with
    | 3 => [.r]
    | _ => []
  hasChildren _ := false
  other := []

def twiceLinks : List Link := [⟨(3, 0), (5, 0)⟩]

def twiceRaw : List Raw := [.i [3] [] [] [], .i [5] [some (13, 0)] [] []]

/-- A parameter that one subgraph computes for another keeps its link and gets a second one, from the
parameter that the decoder loads. -/
theorem C70_parameter_linked_twice : ∃ (o : Ops Ty) (ls : List Link) (es : List Raw) (g' : Graph),
    Setting o exCount exInside exRegions 0 (exGraph ls) (es.map (Raw.mk o (exGraph ls))) ∧
    reassemble exCount exInside exRegions (exGraph ls) (es.map (Raw.mk o (exGraph ls))) = some g' ∧
    (exGraph ls).into (5, 0) = [(3, 0)] ∧ g'.into (5, 0) = [(3, 0), (13, 0)] ∧ o.ins 5 = some [.r] := by
  have h : (reassemble exCount exInside exRegions (exGraph twiceLinks)
      (twiceRaw.map (Raw.mk twiceOps (exGraph twiceLinks)))).map (fun g => g.into (5, 0)) =
        some [(3, 0), (13, 0)] := by decide +kernel
  obtain ⟨g', h1, h2⟩ := Option.map_eq_some_iff.mp h
  exact ⟨twiceOps, twiceLinks, twiceRaw, g', exSetting (by decide +kernel), h1, by decide, h2, rfl⟩

end Verif.Opaque
