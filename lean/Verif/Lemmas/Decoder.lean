import Verif.Model.DecoderSpec
import Mathlib.Data.List.Basic
import Mathlib.Tactic.Common

/-!
# Equations for the tracker of the decoder
-/

namespace Verif.Decoder

variable {T R L : Type} [DecidableEq T] [DecidableEq R]

/-! ### The map of latest elements -/

omit [DecidableEq T] in
theorem insertLatest_snd (r : R) (id : Nat) (l : List (R × Nat)) :
    (insertLatest r id l).2 = lookupLatest r l := by
  induction l with
  | nil => rfl
  | cons x xs ih =>
    obtain ⟨r', old⟩ := x
    rw [insertLatest, lookupLatest]
    split
    · rfl
    · exact ih

omit [DecidableEq T] in
theorem lookup_insert (r r' : R) (id : Nat) (l : List (R × Nat)) :
    lookupLatest r' (insertLatest r id l).1 = if r' = r then some id else lookupLatest r' l := by
  induction l with
  | nil =>
    by_cases h : r = r'
    · simp [insertLatest, lookupLatest, h]
    · simp [insertLatest, lookupLatest, h, Ne.symm h]
  | cons x xs ih =>
    obtain ⟨k, old⟩ := x
    rw [insertLatest]
    by_cases hk : k = r
    · subst hk
      rw [if_pos rfl]
      by_cases h : k = r'
      · simp [lookupLatest, h]
      · simp [lookupLatest, h, Ne.symm h]
    · rw [if_neg hk]
      dsimp only
      rw [lookupLatest, ih, lookupLatest]
      by_cases h : k = r'
      · subst h
        simp [hk]
      · simp [h]

omit [DecidableEq T] in
theorem insert_keys (r : R) (id : Nat) (l : List (R × Nat)) :
    (insertLatest r id l).1.map Prod.fst =
      if r ∈ l.map Prod.fst then l.map Prod.fst else l.map Prod.fst ++ [r] := by
  induction l with
  | nil => simp [insertLatest]
  | cons x xs ih =>
    obtain ⟨k, old⟩ := x
    rw [insertLatest]
    by_cases hk : k = r
    · subst hk; simp
    · rw [if_neg hk]
      dsimp only
      rw [List.map_cons, ih]
      have hk' : r ≠ k := Ne.symm hk
      by_cases h : r ∈ xs.map Prod.fst
      · rw [if_pos h, if_pos (by rw [List.map_cons]; exact List.mem_cons_of_mem _ h)]; rfl
      · rw [if_neg h, if_neg (by rw [List.map_cons, List.mem_cons]; rintro (h' | h'); exacts [hk' h', h h'])]; rfl

omit [DecidableEq T] in
theorem lookup_isSome (r : R) (l : List (R × Nat)) :
    (lookupLatest r l).isSome ↔ r ∈ l.map Prod.fst := by
  induction l with
  | nil => simp [lookupLatest]
  | cons x xs ih =>
    obtain ⟨k, old⟩ := x
    rw [lookupLatest, List.map_cons, List.mem_cons]
    by_cases hk : k = r
    · subst hk; simp
    · rw [if_neg hk, ih]
      constructor
      · exact .inr
      · rintro (h | h)
        · exact absurd h.symm hk
        · exact h

omit [DecidableEq T] in
theorem lookup_of_mem {l : List (R × Nat)} (hn : (l.map Prod.fst).Nodup) {r : R} {id : Nat}
    (h : (r, id) ∈ l) : lookupLatest r l = some id := by
  induction l with
  | nil => simp at h
  | cons x xs ih =>
    obtain ⟨k, old⟩ := x
    rw [List.map_cons, List.nodup_cons] at hn
    rw [lookupLatest]
    rcases List.mem_cons.mp h with h' | h'
    · injection h' with h1 h2
      subst h1 h2
      simp
    · have : k ≠ r := by
        rintro rfl
        exact hn.1 (List.mem_map.mpr ⟨_, h', rfl⟩)
      rw [if_neg this]
      exact ih hn.2 h'

/-! ### One new element -/

/-- The half after tracking a register whose new element has the wires `ws`. -/
def Half.next (h : Half R) (r : R) (ws : List Wire) : Half R where
  elems := match lookupLatest r h.latest with
    | some p => (h.elems ++ [(⟨r, false⟩ : Elem R)]).modify p fun e => { e with outdated := true }
    | none => h.elems ++ [⟨r, false⟩]
  latest := (insertLatest r h.elems.length h.latest).1
  wires := fun i => if i = h.elems.length then ws else h.wires i

omit [DecidableEq T] in
theorem track_eq (single : R → Bool) (h : Half R) (r : R) (hs : single r = true) :
    h.track single r = .ok (h.elems.length, h.next r []) := by
  unfold Half.track
  rw [if_pos hs]
  dsimp only
  rw [insertLatest_snd]
  unfold Half.next
  cases lookupLatest r h.latest <;> rfl

omit [DecidableEq T] in
theorem push_nil (h : Half R) (w : Wire) : h.push [] w = h := by
  cases h
  simp [Half.push]

omit [DecidableEq T] in
theorem next_push (h : Half R) (r : R) (w : Wire) :
    (h.next r []).push [h.elems.length] w = h.next r [w] := by
  unfold Half.push Half.next
  congr 1
  funext i
  by_cases hi : i = h.elems.length <;> simp [hi]

/-- A new wire that carries one qubit. -/
def newQ (s : St T R L) (w : Wire) (ty : T) (r : R) : St T R L :=
  { s with
    q := s.q.next r [w]
    wires := fun w' => if w' = w then some ⟨ty, [s.q.elems.length], []⟩ else s.wires w' }

/-- A new wire that carries one bit. -/
def newB (s : St T R L) (w : Wire) (ty : T) (r : R) : St T R L :=
  { s with
    b := s.b.next r [w]
    wires := fun w' => if w' = w then some ⟨ty, [], [s.b.elems.length]⟩ else s.wires w' }

/-- A new wire that carries nothing. -/
def newW (s : St T R L) (w : Wire) (ty : T) : St T R L :=
  { s with wires := fun w' => if w' = w then some ⟨ty, [], []⟩ else s.wires w' }

theorem trackWire_q (c : Cfg T R) (s : St T R L) (w : Wire) (ty : T) (r : R)
    (hs : c.single r = true) : trackWire c s w ty [r] [] = .ok (newQ s w ty r) := by
  simp only [trackWire, Half.trackAll, track_eq _ _ _ hs, push_nil, next_push]
  rfl

theorem trackWire_b (c : Cfg T R) (s : St T R L) (w : Wire) (ty : T) (r : R)
    (hs : c.single r = true) : trackWire c s w ty [] [r] = .ok (newB s w ty r) := by
  simp only [trackWire, Half.trackAll, track_eq _ _ _ hs, push_nil, next_push]
  rfl

theorem trackWire_n (c : Cfg T R) (s : St T R L) (w : Wire) (ty : T) :
    trackWire c s w ty [] [] = .ok (newW s w ty) := by
  simp only [trackWire, Half.trackAll, push_nil]
  rfl

section
omit [DecidableEq T]

theorem mark_length (h : Half R) (id : Nat) : (h.mark id).elems.length = h.elems.length := by
  simp [Half.mark]

theorem next_length (h : Half R) (r : R) (ws : List Wire) :
    (h.next r ws).elems.length = h.elems.length + 1 := by
  unfold Half.next
  cases lookupLatest r h.latest <;> simp

theorem next_latest (h : Half R) (r r' : R) (ws : List Wire) :
    lookupLatest r' (h.next r ws).latest =
      if r' = r then some h.elems.length else lookupLatest r' h.latest :=
  lookup_insert _ _ _ _

theorem next_wires (h : Half R) (r : R) (ws : List Wire) (i : Nat) :
    (h.next r ws).wires i = if i = h.elems.length then ws else h.wires i := rfl

/-- The register of an element. -/
def Half.regOf (h : Half R) (i : Nat) : Option R := (h.elems[i]?).map Elem.reg

theorem mark_regOf (h : Half R) (id i : Nat) : (h.mark id).regOf i = h.regOf i := by
  unfold Half.regOf Half.mark
  rw [List.getElem?_modify]
  cases h.elems[i]? with
  | none => simp
  | some e => by_cases hi : id = i <;> simp [hi]

theorem next_regOf (h : Half R) (r : R) (ws : List Wire) (i : Nat) :
    (h.next r ws).regOf i = if i = h.elems.length then some r else h.regOf i := by
  have key : ((h.elems ++ [⟨r, false⟩])[i]?).map Elem.reg =
      if i = h.elems.length then some r else h.regOf i := by
    by_cases hi : i = h.elems.length
    · subst hi; simp
    · rw [if_neg hi]
      unfold Half.regOf
      by_cases hlt : i < h.elems.length
      · rw [List.getElem?_append_left hlt]
      · rw [List.getElem?_eq_none (by simp; omega), List.getElem?_eq_none (by omega)]
  unfold Half.next
  unfold Half.regOf at *
  cases lookupLatest r h.latest with
  | none => exact key
  | some p =>
    dsimp only
    rw [List.getElem?_modify]
    rw [← key]
    cases (h.elems ++ [⟨r, false⟩])[i]? with
    | none => simp
    | some e => by_cases hi : p = i <;> simp [hi]

end

/-! ### Finding a wire -/

/-- What is known about one element: either it was never put on a wire and holds the default value,
or it is alone on one wire. -/
def Holds (h : Half R) (wires : Wire → Option (WireData T)) (ev : Wire → V L)
    (mk : T → Nat → WireData T) (ok : T → Prop) (d : V L) (id : Nat) (v : V L) : Prop :=
  id < h.elems.length ∧
    ((h.wires id = [] ∧ v = d) ∨
      ∃ w ty, h.wires id = [w] ∧ wires w = some (mk ty id) ∧ ok ty ∧ ev w = v)

def mkQ (ty : T) (id : Nat) : WireData T := ⟨ty, [id], []⟩
def mkB (ty : T) (id : Nat) : WireData T := ⟨ty, [], [id]⟩

abbrev HoldsQ (c : Cfg T R) (s : St T R L) (id : Nat) (v : V L) : Prop :=
  Holds s.q s.wires (eval s.nodes) mkQ (· = c.qb) .zero id v

abbrev HoldsB (c : Cfg T R) (s : St T R L) (id : Nat) (v : V L) : Prop :=
  Holds s.b s.wires (eval s.nodes) mkB (fun t => t = c.bool ∨ t = c.tbool) .ff id v

/-- The wire and the state after looking for a qubit. -/
def takeQ (c : Cfg T R) (s : St T R L) (x : Arg R) : Wire × St T R L :=
  match s.q.wires x.id with
  | w :: _ => (w, s)
  | [] =>
    let w : Wire := ⟨s.nodes.length, 0⟩
    (w, newQ { s with nodes := ⟨.alloc, [], [], [c.qb]⟩ :: s.nodes } w c.qb x.reg)

/-- The recorded type of a wire. -/
def recTy (c : Cfg T R) (s : St T R L) (w : Wire) : T :=
  match s.wires w with
  | some d => d.ty
  | none => c.bool

/-- The conversion between the two kinds of booleans. -/
def conv (c : Cfg T R) (w : Wire) (a b : T) : Node T L :=
  if a = c.bool then ⟨.toTket, [.val w], [a], [b]⟩ else ⟨.toNative, [.val w], [a], [b]⟩

/-- The second half of looking for a bit: the conversion of a wire `w` that carries the element
`id`. -/
def convB (c : Cfg T R) (s : St T R L) (w : Wire) (id : Nat) (r : R) (ty : T) : Wire × St T R L :=
  if recTy c s w = ty then (w, s)
  else
    let w' : Wire := ⟨s.nodes.length, 0⟩
    let s1 := newB { s with nodes := conv c w (recTy c s w) ty :: s.nodes } w' (recTy c s w) r
    (w', { s1 with b := s1.b.mark id })

/-- The wire and the state after looking for a bit. -/
def takeB (c : Cfg T R) (s : St T R L) (x : Arg R) (ty : T) : Wire × St T R L :=
  match s.b.wires x.id with
  | w :: _ => convB c s w x.id x.reg ty
  | [] =>
    let w : Wire := ⟨s.nodes.length, 0⟩
    convB c (newB { s with nodes := ⟨.ff, [], [], [c.bool]⟩ :: s.nodes } w c.bool x.reg) w
      s.b.elems.length x.reg ty

theorem param_false {c : Cfg T R} (hc : c.Simple) {t : T} (h : c.supported t = true) :
    c.param t = false := by
  cases hp : c.param t with
  | false => rfl
  | true => rw [hc.param t hp] at h; exact absurd h (by simp)

theorem sup_qb {c : Cfg T R} (hc : c.Simple) : c.supported c.qb = true := by
  simp [Cfg.supported, hc.qb_q]

theorem sup_bit {c : Cfg T R} (hc : c.Simple) {t : T} (h : t = c.bool ∨ t = c.tbool) :
    c.supported t = true := by
  rcases h with rfl | rfl
  · simp [Cfg.supported, hc.bool_b]
  · simp [Cfg.supported, hc.tbool_b]

theorem bit_q {c : Cfg T R} (hc : c.Simple) {t : T} (h : t = c.bool ∨ t = c.tbool) :
    c.qubits t = 0 := by
  rcases h with rfl | rfl
  · exact hc.bool_q
  · exact hc.tbool_q

theorem bit_b {c : Cfg T R} (hc : c.Simple) {t : T} (h : t = c.bool ∨ t = c.tbool) :
    c.bits t = 1 := by
  rcases h with rfl | rfl
  · exact hc.bool_b
  · exact hc.tbool_b

theorem qb_ne {c : Cfg T R} (hc : c.Simple) {t : T} (h : t = c.bool ∨ t = c.tbool) : t ≠ c.qb := by
  rintro rfl
  have := bit_q hc h
  rw [hc.qb_q] at this
  omega

theorem bit_iso {c : Cfg T R} {a b : T} (ha : a = c.bool ∨ a = c.tbool)
    (hb : b = c.bool ∨ b = c.tbool) : c.iso a b = true := by
  rcases ha with rfl | rfl <;> rcases hb with rfl | rfl <;> simp [Cfg.iso]

/-- The heads of the argument lists are known. -/
structure Heads (c : Cfg T R) (s : St T R L) (a : Rest R) : Prop where
  q : ∀ x xs, a.q = x :: xs → ∃ v, HoldsQ c s x.id v
  b : ∀ x xs, a.b = x :: xs → ∃ v, HoldsB c s x.id v

theorem cand_q {c : Cfg T R} {s : St T R L} {a : Rest R} (ha : Heads c s a) {w : Wire}
    (h : w ∈ s.q.firstWires a.q) :
    ∃ x xs, a.q = x :: xs ∧ s.q.wires x.id = [w] ∧ s.wires w = some ⟨c.qb, [x.id], []⟩ := by
  cases hq : a.q with
  | nil => rw [hq] at h; simp [Half.firstWires] at h
  | cons x xs =>
    rw [hq] at h
    unfold Half.firstWires at h
    obtain ⟨v, _, h1 | ⟨w', ty, h1, h2, h3, _⟩⟩ := ha.q x xs hq
    · simp [h1.1] at h
    · simp only [h1, List.mem_singleton] at h
      subst h h3
      exact ⟨x, xs, rfl, h1, h2⟩

theorem cand_b {c : Cfg T R} {s : St T R L} {a : Rest R} (ha : Heads c s a) {w : Wire}
    (h : w ∈ s.b.firstWires a.b) :
    ∃ x xs ty, a.b = x :: xs ∧ s.b.wires x.id = [w] ∧ s.wires w = some ⟨ty, [], [x.id]⟩ ∧
      (ty = c.bool ∨ ty = c.tbool) := by
  cases hq : a.b with
  | nil => rw [hq] at h; simp [Half.firstWires] at h
  | cons x xs =>
    rw [hq] at h
    unfold Half.firstWires at h
    obtain ⟨v, _, h1 | ⟨w', ty, h1, h2, h3, _⟩⟩ := ha.b x xs hq
    · simp [h1.1] at h
    · simp only [h1, List.mem_singleton] at h
      subst h
      exact ⟨x, xs, ty, rfl, h1, h2, h3⟩

theorem pick_qb {c : Cfg T R} (hc : c.Simple) {s : St T R L} {a : Rest R} (ha : Heads c s a)
    {x : Arg R} {xs : List (Arg R)} (hx : a.q = x :: xs) (hs : c.single x.reg = true) :
    pick c s c.qb a = .ok (takeQ c s x) := by
  unfold pick takeQ
  obtain ⟨v, _, h1 | ⟨w', ty, h1, h2, h3, _⟩⟩ := ha.q x xs hx
  · have hn : (s.q.firstWires a.q ++ s.b.firstWires a.b).find? (fits c s c.qb a) = none := by
      rw [List.find?_eq_none]
      intro w hw
      rcases List.mem_append.mp hw with hw | hw
      · obtain ⟨y, ys, hy, hy1, _⟩ := cand_q ha hw
        rw [hx] at hy
        injection hy with hy _
        subst hy
        rw [h1.1] at hy1
        exact absurd hy1 (by simp)
      · obtain ⟨y, ys, ty, hy, hy1, hy2, _⟩ := cand_b ha hw
        unfold fits
        rw [hy2]
        simp [hx, hc.qb_q]
    rw [hn, h1.1]
    dsimp only
    rw [if_pos rfl, hx]
    dsimp only
    unfold initQubit addNode
    dsimp only
    rw [trackWire_q _ _ _ _ _ hs]
  · subst h3
    have hw : s.q.firstWires a.q = [w'] := by rw [hx]; exact h1
    have hfit : fits c s c.qb a w' = true := by
      unfold fits
      rw [h2]
      simp [mkQ, hx, hc.qb_q, hc.qb_b, Cfg.iso]
    rw [hw, List.cons_append, List.find?_cons_of_pos hfit, h1]

theorem pick_bit {c : Cfg T R} (hc : c.Simple) {s : St T R L} {a : Rest R} (ha : Heads c s a)
    {x : Arg R} {xs : List (Arg R)} (hx : a.b = x :: xs) (hs : c.single x.reg = true) {t : T}
    (ht : t = c.bool ∨ t = c.tbool) :
    pick c s t a = .ok (match s.b.wires x.id with
      | w :: _ => (w, s)
      | [] => (⟨s.nodes.length, 0⟩, newB { s with nodes := ⟨.ff, [], [], [c.bool]⟩ :: s.nodes }
          ⟨s.nodes.length, 0⟩ c.bool x.reg)) := by
  unfold pick
  have hq : ∀ w, w ∈ s.q.firstWires a.q → ¬ fits c s t a w = true := by
    intro w hw
    obtain ⟨y, ys, hy, hy1, hy2⟩ := cand_q ha hw
    unfold fits
    rw [hy2]
    simp [bit_q hc ht]
  rw [List.find?_append, List.find?_eq_none.mpr hq, Option.none_or]
  obtain ⟨v, _, h1 | ⟨w', ty, h1, h2, h3, _⟩⟩ := ha.b x xs hx
  · have hw : s.b.firstWires a.b = [] := by rw [hx]; exact h1.1
    rw [hw, h1.1, List.find?_nil]
    dsimp only
    rw [if_neg (qb_ne hc ht), if_pos ht, hx]
    dsimp only
    unfold initBit addNode
    dsimp only
    rw [trackWire_b _ _ _ _ _ hs]
  · have hw : s.b.firstWires a.b = [w'] := by rw [hx]; exact h1
    have hfit : fits c s t a w' = true := by
      unfold fits
      rw [h2]
      simp [mkB, hx, bit_q hc ht, bit_b hc ht, bit_iso h3 ht]
    rw [hw, List.find?_cons_of_pos hfit, h1]

theorem find_param (c : Cfg T R) (s : St T R L) {t : T} (a : Rest R) (u : Bool)
    (ht : c.param t = true) :
    find c s t a u = match a.p with
      | [] => .error .noParameter
      | p :: ps => .ok (.par p, { a with p := ps }, s) := by
  unfold find
  rw [if_pos ht]
  cases a.p <;> rfl

theorem find_unsupported (c : Cfg T R) (s : St T R L) {t : T} (a : Rest R) (u : Bool)
    (hp : c.param t = false) (ht : c.supported t = false) :
    find c s t a u = if u then .ok (.unsupported, a, s) else .error .unexpectedType := by
  unfold find
  rw [if_neg (by simp [hp]), if_pos ht]

theorem takeQ_wires {c : Cfg T R} {s : St T R L} {x : Arg R} {v : V L} (h : HoldsQ c s x.id v) :
    ∃ id, (takeQ c s x).2.wires (takeQ c s x).1 = some ⟨c.qb, [id], []⟩ := by
  unfold takeQ
  obtain ⟨_, h1 | ⟨w', ty, h1, h2, h3, _⟩⟩ := h
  · rw [h1.1]
    exact ⟨_, by simp [newQ]; rfl⟩
  · rw [h1]
    subst h3
    exact ⟨_, h2⟩

/-- Looking for a qubit. -/
theorem find_qb {c : Cfg T R} (hc : c.Simple) {s : St T R L} {a : Rest R} (ha : Heads c s a)
    {x : Arg R} {xs : List (Arg R)} (hx : a.q = x :: xs) (hs : c.single x.reg = true) (u : Bool) :
    ∃ d, find c s c.qb a u = if x.outdated then .error .outdatedQubit
      else .ok (.reg (takeQ c s x).1 d, { a with q := xs }, (takeQ c s x).2) := by
  obtain ⟨v, hv⟩ := ha.q x xs hx
  obtain ⟨id, hid⟩ := takeQ_wires hv
  refine ⟨⟨c.qb, [id], []⟩, ?_⟩
  unfold find
  rw [if_neg (by simp [param_false hc (sup_qb hc)]), if_neg (by simp [sup_qb hc]),
    pick_qb hc ha hx hs]
  dsimp only
  rw [hx, hc.qb_q, hc.qb_b]
  simp only [List.take_succ_cons, List.take_zero, List.any_cons, List.any_nil, Bool.or_false]
  cases x.outdated with
  | true => simp
  | false =>
    rw [if_neg (by simp), if_neg (by simp), if_neg (by simp), hid]
    dsimp only
    simp [transform]

theorem find_qb_nil {c : Cfg T R} (hc : c.Simple) {s : St T R L} {a : Rest R} (ha : Heads c s a)
    (hx : a.q = []) (u : Bool) : find c s c.qb a u = .error .panic := by
  have hp : pick c s c.qb a = .error .panic := by
    unfold pick
    have hn : s.q.firstWires a.q = [] := by rw [hx]; rfl
    rw [hn, List.nil_append, List.find?_eq_none.mpr]
    · dsimp only
      rw [if_pos rfl, hx]
    · intro w hw
      obtain ⟨y, ys, ty, hy, hy1, hy2, _⟩ := cand_b ha hw
      unfold fits
      rw [hy2]
      simp [hc.qb_b]
  unfold find
  rw [if_neg (by simp [param_false hc (sup_qb hc)]), if_neg (by simp [sup_qb hc]), hp]

theorem find_bit_nil {c : Cfg T R} (hc : c.Simple) {s : St T R L} {a : Rest R} (ha : Heads c s a)
    (hx : a.b = []) (u : Bool) {t : T} (ht : t = c.bool ∨ t = c.tbool) :
    find c s t a u = .error .panic := by
  have hp : pick c s t a = .error .panic := by
    unfold pick
    have hn : s.b.firstWires a.b = [] := by rw [hx]; rfl
    rw [hn, List.append_nil, List.find?_eq_none.mpr]
    · dsimp only
      rw [if_neg (qb_ne hc ht), if_pos ht, hx]
    · intro w hw
      obtain ⟨y, ys, hy, hy1, hy2⟩ := cand_q ha hw
      unfold fits
      rw [hy2]
      simp [bit_q hc ht]
  unfold find
  rw [if_neg (by simp [param_false hc (sup_bit hc ht)]), if_neg (by simp [sup_bit hc ht]), hp]

theorem transform_conv {c : Cfg T R} {a b : T} (ha : a = c.bool ∨ a = c.tbool)
    (hb : b = c.bool ∨ b = c.tbool) (hne : a ≠ b) (s : St T R L) (w : Wire) :
    transform c s w a b =
      .ok (⟨s.nodes.length, 0⟩, { s with nodes := conv c w a b :: s.nodes }) := by
  unfold transform conv addNode
  rw [if_neg hne]
  rcases ha with rfl | rfl
  · obtain rfl : b = c.tbool := by
      rcases hb with rfl | rfl
      · exact absurd rfl hne
      · rfl
    simp
  · obtain rfl : b = c.bool := by
      rcases hb with rfl | rfl
      · rfl
      · exact absurd rfl hne
    have hne' : ¬ c.tbool = c.bool := hne
    simp [hne']

/-- The tail of looking for a bit, once a wire has been chosen. -/
theorem find_bit_tail {c : Cfg T R} {s : St T R L} {w : Wire}
    {id : Nat} {ty t : T} (hw : s.wires w = some ⟨ty, [], [id]⟩) (hty : ty = c.bool ∨ ty = c.tbool)
    (ht : t = c.bool ∨ t = c.tbool) (hlt : w.node < s.nodes.length) (r : R)
    (hs : c.single r = true) (a' : Rest R) :
    ∃ d, (match s.wires w with
      | none => (.error .panic : Except Err (Found T × Rest R × St T R L))
      | some d =>
        match transform c s w d.ty t with
        | .error e => .error e
        | .ok (w', s2) =>
          if w = w' then .ok (.reg w d, a', s2)
          else
            match trackWire c s2 w' d.ty [] [r] with
            | .error e => .error e
            | .ok s3 =>
              match s3.wires w' with
              | none => .error .panic
              | some d' => .ok (.reg w' d', a', markWire s3 d)) =
      .ok (.reg (convB c s w id r t).1 d, a', (convB c s w id r t).2) := by
  rw [hw]
  dsimp only
  have hrec : recTy c s w = ty := by unfold recTy; rw [hw]
  unfold convB
  rw [hrec]
  by_cases hne : ty = t
  · subst hne
    refine ⟨⟨ty, [], [id]⟩, ?_⟩
    unfold transform
    rw [if_pos rfl, if_pos rfl]
    dsimp only
    rw [if_pos rfl]
  · rw [if_neg hne, transform_conv hty ht hne]
    dsimp only
    have hww : w ≠ ⟨s.nodes.length, 0⟩ := by
      rintro rfl
      exact absurd hlt (by simp)
    rw [if_neg hww, trackWire_b _ _ _ _ _ hs]
    refine ⟨⟨ty, [], [s.b.elems.length]⟩, ?_⟩
    dsimp only
    simp [newB, markWire]

/-- Looking for a bit. -/
theorem find_bit {c : Cfg T R} (hc : c.Simple) {s : St T R L} {a : Rest R} (ha : Heads c s a)
    (hf : ∀ w, s.wires w ≠ none → w.node < s.nodes.length)
    {x : Arg R} {xs : List (Arg R)} (hx : a.b = x :: xs) (hs : c.single x.reg = true) (u : Bool)
    {t : T} (ht : t = c.bool ∨ t = c.tbool) :
    ∃ d, find c s t a u = if x.outdated then .error .outdatedBit
      else .ok (.reg (takeB c s x t).1 d, { a with b := xs }, (takeB c s x t).2) := by
  obtain ⟨v, hv⟩ := ha.b x xs hx
  have hpre : ∀ (w : Wire) (s1 : St T R L), pick c s t a = .ok (w, s1) →
      ∀ y d, takeB c s x t = y → (match s1.wires w with
      | none => (.error .panic : Except Err (Found T × Rest R × St T R L))
      | some d =>
        match transform c s1 w d.ty t with
        | .error e => .error e
        | .ok (w', s2) =>
          if w = w' then .ok (.reg w d, { a with b := xs }, s2)
          else
            match trackWire c s2 w' d.ty [] [x.reg] with
            | .error e => .error e
            | .ok s3 =>
              match s3.wires w' with
              | none => .error .panic
              | some d' => .ok (.reg w' d', { a with b := xs }, markWire s3 d)) =
        .ok (.reg y.1 d, { a with b := xs }, y.2) →
      find c s t a u = if x.outdated then .error .outdatedBit
        else .ok (.reg (takeB c s x t).1 d, { a with b := xs }, (takeB c s x t).2) := by
    intro w s1 hp y d hy hm
    unfold find
    rw [if_neg (by simp [param_false hc (sup_bit hc ht)]), if_neg (by simp [sup_bit hc ht]), hp]
    dsimp only
    rw [hx, bit_q hc ht, bit_b hc ht]
    simp only [List.take_succ_cons, List.take_zero, List.any_cons, List.any_nil, Bool.or_false]
    cases x.outdated with
    | true => simp
    | false =>
      rw [if_neg (by simp), if_neg (by simp), if_neg (by simp)]
      simp only [List.drop_zero, List.drop_succ_cons, List.map_nil, List.map_cons,
        Bool.false_eq_true, if_false]
      rw [hy]
      exact hm
  obtain ⟨_, h1 | ⟨w', ty, h1, h2, h3, _⟩⟩ := hv
  · have hp := pick_bit hc ha hx hs ht
    rw [h1.1] at hp
    dsimp only at hp
    obtain ⟨d, hd⟩ := find_bit_tail (c := c) (s := newB { s with nodes := ⟨.ff, [], [], [c.bool]⟩ :: s.nodes }
          ⟨s.nodes.length, 0⟩ c.bool x.reg) (w := ⟨s.nodes.length, 0⟩) (id := s.b.elems.length)
          (ty := c.bool) (t := t) (by simp [newB]) (.inl rfl) ht (by simp [newB]) x.reg hs
          { a with b := xs }
    refine ⟨d, hpre _ _ hp _ d ?_ hd⟩
    unfold takeB
    rw [h1.1]
  · have hp := pick_bit hc ha hx hs ht
    rw [h1] at hp
    dsimp only at hp
    obtain ⟨d, hd⟩ := find_bit_tail (c := c) (s := s) (w := w') (id := x.id) (ty := ty) (t := t) h2 h3 ht
      (hf w' (by rw [h2]; simp)) x.reg hs { a with b := xs }
    refine ⟨d, hpre _ _ hp _ d ?_ hd⟩
    unfold takeB
    rw [h1]

end Verif.Decoder
