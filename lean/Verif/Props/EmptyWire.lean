import Verif.Model.EmptyWire
import Mathlib.Data.List.InsertIdx
import Mathlib.Tactic.Common

/-!
# Property C23: removing an empty wire

The meaning of a region is given relationally, independently of the removal code: `Run r beh xs ys`
says that the region can turn input values `xs` into output values `ys` when every node behaves
according to `beh` and links copy values.
-/

namespace Tket.EmptyWire

variable {T V : Type}

/-- Behaviour of the nodes: a relation between the values at input ports and output ports. -/
abbrev Beh (V : Type) := Nat → (Nat → Option V) → (Nat → Option V) → Prop

def valS (xs : List V) (vout : Nat → Nat → Option V) : Src → Option V
  | .input i => xs[i]?
  | .node n p => vout n p

def valD (ys : List V) (vin : Nat → Nat → Option V) : Dst → Option V
  | .output j => ys[j]?
  | .node n p => vin n p

/-- Relational semantics of a region. (State-order ports carry no value.) -/
def Run (r : Region T) (beh : Beh V) (xs ys : List V) : Prop :=
  xs.length = r.inTypes.length ∧ ys.length = r.outTypes.length ∧
  ∃ vin vout, (∀ n, beh n (vin n) (vout n)) ∧
    ∀ l ∈ r.links, valS xs vout l.1 = valD ys vin l.2

/-- Well-formed regions: links use existing ports, a value port of the Output node has at most one
incoming link, and values go to value ports. -/
structure WF (r : Region T) : Prop where
  src : ∀ i d, (.input i, d) ∈ r.links → i ≤ r.inTypes.length
  dst : ∀ s j, (s, .output j) ∈ r.links → j ≤ r.outTypes.length
  uniq : ∀ s s' j, j < r.outTypes.length → (s, .output j) ∈ r.links → (s', .output j) ∈ r.links →
    s = s'
  value : ∀ i j, (.input i, .output j) ∈ r.links →
    (i < r.inTypes.length ↔ j < r.outTypes.length)

/-- Type of a port (`none` for a state-order port). -/
def tyS (ins : List T) (tn : Nat → Nat → Option T) : Src → Option T
  | .input i => ins[i]?
  | .node n p => tn n p

def tyD (outs : List T) (tn : Nat → Nat → Option T) : Dst → Option T
  | .output j => outs[j]?
  | .node n p => tn n p

/-- Every link connects ports of the same type; the parent's signature is that of the region. -/
def Typed (r : Region T) (tin tout : Nat → Nat → Option T) : Prop :=
  (∀ l ∈ r.links, tyS r.inTypes tout l.1 = tyD r.outTypes tin l.2) ∧
  r.sigIn = r.inTypes ∧ r.sigOut = r.outTypes

/-! ## Helper lemmas -/

def renS (k m : Nat) : Src → Src
  | .input i => if k < i ∧ i ≤ k + m then .input (i - 1) else .input i
  | s => s

def renD (j m : Nat) : Dst → Dst
  | .output i => if j < i ∧ i ≤ j + m then .output (i - 1) else .output i
  | d => d

theorem shiftIn_eq (m : Nat) : ∀ (k : Nat) (l : List (Src × Dst)),
    shiftIn k m l = l.map (fun e => (renS k m e.1, e.2)) := by
  induction m with
  | zero =>
    intro k l
    have : ∀ e : Src × Dst, (renS k 0 e.1, e.2) = e := by
      rintro ⟨s, d⟩
      cases s with
      | input i =>
        have : ¬ (k < i ∧ i ≤ k + 0) := by omega
        simp only [renS, if_neg this]
      | node n p => rfl
    simp [shiftIn, this]
  | succ m ih =>
    intro k l
    rw [shiftIn, ih, List.map_map]
    apply List.map_congr_left
    rintro ⟨s, d⟩ _
    cases s with
    | node n p => simp [renS]
    | input i =>
      simp only [Function.comp, Src.input.injEq]
      by_cases h1 : i = k + 1
      · subst h1
        have a1 : ¬ (k + 1 < k ∧ k ≤ k + 1 + m) := by omega
        have a2 : k < k + 1 ∧ k + 1 ≤ k + (m + 1) := by omega
        simp [renS, a1, a2]
      · by_cases h2 : k + 1 < i ∧ i ≤ k + 1 + m
        · have a2 : k < i ∧ i ≤ k + (m + 1) := by omega
          simp [renS, h1, h2, a2]
        · have a2 : ¬ (k < i ∧ i ≤ k + (m + 1)) := by omega
          simp [renS, h1, h2, a2]

theorem shiftOut_eq (m : Nat) : ∀ (j : Nat) (l : List (Src × Dst)),
    shiftOut j m l = l.map (fun e => (e.1, renD j m e.2)) := by
  induction m with
  | zero =>
    intro k l
    have : ∀ e : Src × Dst, (e.1, renD k 0 e.2) = e := by
      rintro ⟨s, d⟩
      cases d with
      | output i =>
        have : ¬ (k < i ∧ i ≤ k + 0) := by omega
        simp only [renD, if_neg this]
      | node n p => rfl
    simp [shiftOut, this]
  | succ m ih =>
    intro k l
    rw [shiftOut, ih, List.map_map]
    apply List.map_congr_left
    rintro ⟨s, d⟩ _
    cases d with
    | node n p => simp [renD]
    | output i =>
      simp only [Function.comp, Dst.output.injEq]
      by_cases h1 : i = k + 1
      · subst h1
        have a1 : ¬ (k + 1 < k ∧ k ≤ k + 1 + m) := by omega
        have a2 : k < k + 1 ∧ k + 1 ≤ k + (m + 1) := by omega
        simp [renD, a1, a2]
      · by_cases h2 : k + 1 < i ∧ i ≤ k + 1 + m
        · have a2 : k < i ∧ i ≤ k + (m + 1) := by omega
          simp [renD, h1, h2, a2]
        · have a2 : ¬ (k < i ∧ i ≤ k + (m + 1)) := by omega
          simp [renD, h1, h2, a2]

theorem mem_linked {r : Region T} {k : Nat} {d : Dst} :
    d ∈ r.linked k ↔ (.input k, d) ∈ r.links := by
  simp only [Region.linked, List.mem_map, List.mem_filter, decide_eq_true_eq]
  constructor
  · rintro ⟨⟨s, d'⟩, ⟨h1, h2⟩, rfl⟩
    simp only at h2; subst h2; exact h1
  · intro h; exact ⟨_, ⟨h, rfl⟩, rfl⟩

/-- Index arithmetic: looking up a renumbered position in the list with the element inserted. -/
theorem insertIdx_ren {α : Type} (xs : List α) (k i : Nat) (v : α) (_hk : k ≤ xs.length)
    (hik : i ≠ k) : (xs.insertIdx k v)[i]? = xs[if k < i then i - 1 else i]? := by
  by_cases h : k < i
  · rw [if_pos h, List.getElem?_insertIdx_of_gt h]
  · rw [if_neg h, List.getElem?_insertIdx_of_lt (by omega)]

theorem eraseIdx_ren {α : Type} (l : List α) (k i : Nat) (hik : i ≠ k) :
    (l.eraseIdx k)[if k < i then i - 1 else i]? = l[i]? := by
  by_cases h : k < i
  · rw [if_pos h, List.getElem?_eraseIdx_of_ge (by omega)]
    congr 1; omega
  · rw [if_neg h, List.getElem?_eraseIdx_of_lt (by omega)]

theorem renS_input {k n i : Nat} (hk : k < n) (hi : i ≤ n) (_hik : i ≠ k) :
    renS k (n + 1 - (k + 1)) (.input i) = .input (if k < i then i - 1 else i) := by
  simp only [renS]
  by_cases h : k < i
  · have a : k < i ∧ i ≤ k + (n + 1 - (k + 1)) := by omega
    rw [if_pos a, if_pos h]
  · have a : ¬ (k < i ∧ i ≤ k + (n + 1 - (k + 1))) := by omega
    rw [if_neg a, if_neg h]

theorem renD_output {k n i : Nat} (hk : k < n) (hi : i ≤ n) (_hik : i ≠ k) :
    renD k (n + 1 - (k + 1)) (.output i) = .output (if k < i then i - 1 else i) := by
  simp only [renD]
  by_cases h : k < i
  · have a : k < i ∧ i ≤ k + (n + 1 - (k + 1)) := by omega
    rw [if_pos a, if_pos h]
  · have a : ¬ (k < i ∧ i ≤ k + (n + 1 - (k + 1))) := by omega
    rw [if_neg a, if_neg h]

/-- Everything a successful removal does, in terms of renumbering. -/
theorem remove_ok {r r' : Region T} {k : Nat} (h : removeEmptyWire r k = some (.ok r')) :
    k < r.inTypes.length ∧ r'.parent = r.parent ∧ r'.inTypes = r.inTypes.eraseIdx k ∧
    r'.sigIn = r'.inTypes ∧
    ((r.linked k = [] ∧ r'.outTypes = r.outTypes ∧ r'.sigOut = r.sigOut ∧
        r'.links = r.links.map (fun e => (renS k (r.inTypes.length + 1 - (k + 1)) e.1, e.2))) ∨
     (∃ j, r.linked k = [.output j] ∧ j < r.outTypes.length ∧
        r'.outTypes = r.outTypes.eraseIdx j ∧ r'.sigOut = r'.outTypes ∧
        r'.links = (r.links.filter (fun l => l.1 ≠ .input k)).map (fun e =>
          (renS k (r.inTypes.length + 1 - (k + 1)) e.1,
           renD j (r.outTypes.length + 1 - (j + 1)) e.2)))) := by
  unfold removeEmptyWire at h
  split at h
  · simp at h
  · rename_i hle
    split at h
    · rename_i hl
      by_cases hk : r.inTypes.length ≤ k
      · simp [updateSignature, hk] at h
      · simp only [shiftIn_eq, updateSignature, if_neg hk, removeOut] at h
        rcases hp : r.parent <;> rw [hp] at h <;> simp at h <;> subst h <;>
          refine ⟨by simpa using hk, ?_, rfl, rfl, Or.inl ⟨hl, rfl, rfl, ?_⟩⟩ <;> simp
    · rename_i j hl
      by_cases hk : r.inTypes.length ≤ k
      · simp [updateSignature, hk] at h
      · by_cases hj : r.outTypes.length ≤ j
        · simp [updateSignature, removeOut, hj] at h
        · simp only [shiftIn_eq, shiftOut_eq, updateSignature, if_neg hk, removeOut, if_neg hj] at h
          rcases hp : r.parent <;> rw [hp] at h <;> simp at h <;> subst h <;>
            refine ⟨by simpa using hk, by simp, rfl, rfl, Or.inr ⟨j, hl, by omega, rfl, rfl, ?_⟩⟩ <;>
            simp
    · simp at h

theorem filter_ne_links {r : Region T} {k : Nat} {l : Src × Dst} :
    l ∈ r.links.filter (fun l => l.1 ≠ .input k) ↔ l ∈ r.links ∧ l.1 ≠ .input k := by
  simp

/-! ## The property -/

/-- **C23 (meaning).** A successful removal takes out exactly one identity wire. If input `k` was wired
to output `j`, the old region always copies the value at input `k` to output `j`, and the new region
relates `xs` to `ys` exactly when the old one relates them with any common value inserted at these
positions. If input `k` was unused, the old region ignores it. -/
theorem C23_meaning_preserved {r r' : Region T} {k : Nat} (hwf : WF r)
    (h : removeEmptyWire r k = some (.ok r')) (beh : Beh V) :
    (∃ j, (.input k, .output j) ∈ r.links ∧
      (∀ xs ys, Run r beh xs ys → ∃ v : V, xs[k]? = some v ∧ ys[j]? = some v) ∧
      ∀ (xs ys : List V) (v : V), k ≤ xs.length → j ≤ ys.length →
        (Run r' beh xs ys ↔ Run r beh (xs.insertIdx k v) (ys.insertIdx j v))) ∨
    ((∀ d, (.input k, d) ∉ r.links) ∧
      ∀ (xs ys : List V) (v : V), k ≤ xs.length →
        (Run r' beh xs ys ↔ Run r beh (xs.insertIdx k v) ys)) := by
  obtain ⟨hk, _, hin, _, hcase⟩ := remove_ok h
  have hinlen : r'.inTypes.length + 1 = r.inTypes.length := by
    rw [hin, List.length_eraseIdx_of_lt hk]; omega
  have hsrc : ∀ (s : Src) (d : Dst), (s, d) ∈ r.links → s ≠ .input k → ∀ (xs : List V) (v : V) (vout : Nat → Nat → Option V),
      k ≤ xs.length →
      valS xs vout (renS k (r.inTypes.length + 1 - (k + 1)) s) = valS (xs.insertIdx k v) vout s := by
    intro s d hmem hne xs v vout hkx
    cases s with
    | node n p => rfl
    | input i =>
      have hik : i ≠ k := by rintro rfl; exact hne rfl
      rw [renS_input hk (hwf.src i d hmem) hik]
      simp only [valS]
      rw [insertIdx_ren xs k i v hkx hik]
  rcases hcase with ⟨hl, hout, _, hlinks⟩ | ⟨j, hl, hj, hout, _, hlinks⟩
  · right
    have hno : ∀ d, (.input k, d) ∉ r.links := by
      intro d hd
      have := mem_linked.2 hd
      rw [hl] at this; simp at this
    refine ⟨hno, ?_⟩
    intro xs ys v hkx
    unfold Run
    rw [hout, List.length_insertIdx_of_le_length hkx]
    have hcond : ∀ vin vout, (∀ l ∈ r'.links, valS xs vout l.1 = valD ys vin l.2) ↔
        (∀ l ∈ r.links, valS (xs.insertIdx k v) vout l.1 = valD ys vin l.2) := by
      intro vin vout
      rw [hlinks]
      simp only [List.mem_map, forall_exists_index, and_imp, forall_apply_eq_imp_iff₂]
      constructor
      · intro hh l hlm
        have hne : l.1 ≠ .input k := by
          intro he; exact hno l.2 (by rw [← he]; exact hlm)
        rw [← hsrc l.1 l.2 hlm hne xs v vout hkx]; exact hh l hlm
      · intro hh l hlm
        have hne : l.1 ≠ .input k := by
          intro he; exact hno l.2 (by rw [← he]; exact hlm)
        rw [hsrc l.1 l.2 hlm hne xs v vout hkx]; exact hh l hlm
    constructor
    · rintro ⟨h1, h2, vin, vout, h3, h4⟩
      exact ⟨by omega, h2, vin, vout, h3, (hcond vin vout).1 h4⟩
    · rintro ⟨h1, h2, vin, vout, h3, h4⟩
      exact ⟨by omega, h2, vin, vout, h3, (hcond vin vout).2 h4⟩
  · left
    have hkj : (.input k, .output j) ∈ r.links := mem_linked.1 (by rw [hl]; simp)
    have honly : ∀ d, (.input k, d) ∈ r.links → d = .output j := by
      intro d hd
      have := mem_linked.2 hd
      rw [hl] at this; simpa using this
    refine ⟨j, hkj, ?_, ?_⟩
    · rintro xs ys ⟨h1, h2, vin, vout, _, h4⟩
      have := h4 _ hkj
      simp only [valS, valD] at this
      refine ⟨xs[k]'(by omega), List.getElem?_eq_getElem _, ?_⟩
      rw [← this]; exact List.getElem?_eq_getElem _
    · intro xs ys v hkx hjy
      have houtlen : r'.outTypes.length + 1 = r.outTypes.length := by
        rw [hout, List.length_eraseIdx_of_lt hj]; omega
      have hdst : ∀ (s : Src) (d : Dst), (s, d) ∈ r.links → s ≠ .input k → ∀ (vin : Nat → Nat → Option V),
          valD ys vin (renD j (r.outTypes.length + 1 - (j + 1)) d) =
          valD (ys.insertIdx j v) vin d := by
        intro s d hmem hne vin
        cases d with
        | node n p => rfl
        | output i =>
          have hij : i ≠ j := by
            rintro rfl
            exact hne (hwf.uniq _ _ _ hj hmem hkj)
          rw [renD_output hj (hwf.dst s i hmem) hij]
          simp only [valD]
          rw [insertIdx_ren ys j i v hjy hij]
      unfold Run
      rw [List.length_insertIdx_of_le_length hkx, List.length_insertIdx_of_le_length hjy]
      have hcond : ∀ vin vout, (∀ l ∈ r'.links, valS xs vout l.1 = valD ys vin l.2) ↔
          (∀ l ∈ r.links, valS (xs.insertIdx k v) vout l.1 = valD (ys.insertIdx j v) vin l.2) := by
        intro vin vout
        rw [hlinks]
        simp only [List.mem_map, forall_exists_index, and_imp, forall_apply_eq_imp_iff₂]
        constructor
        · intro hh l hlm
          by_cases hne : l.1 = .input k
          · have hd := honly l.2 (by rw [← hne]; exact hlm)
            rw [hne, hd]
            simp only [valS, valD]
            rw [List.getElem?_insertIdx_self, List.getElem?_insertIdx_self, if_pos hkx, if_pos hjy]
          · rw [← hsrc l.1 l.2 hlm hne xs v vout hkx, ← hdst l.1 l.2 hlm hne vin]
            exact hh l (filter_ne_links.2 ⟨hlm, hne⟩)
        · intro hh l hlm
          obtain ⟨hlm, hne⟩ := filter_ne_links.1 hlm
          rw [hsrc l.1 l.2 hlm hne xs v vout hkx, hdst l.1 l.2 hlm hne vin]
          exact hh l hlm
      constructor
      · rintro ⟨h1, h2, vin, vout, h3, h4⟩
        exact ⟨by omega, by omega, vin, vout, h3, (hcond vin vout).1 h4⟩
      · rintro ⟨h1, h2, vin, vout, h3, h4⟩
        exact ⟨by omega, by omega, vin, vout, h3, (hcond vin vout).2 h4⟩

/-- **C23 (types).** The removed types are those of the wire, the parent's signature is updated, and
every link still connects ports of equal type. -/
theorem C23_types_preserved {r r' : Region T} {k : Nat} (hwf : WF r)
    (h : removeEmptyWire r k = some (.ok r')) (tin tout : Nat → Nat → Option T)
    (ht : Typed r tin tout) : Typed r' tin tout ∧ r'.inTypes = r.inTypes.eraseIdx k := by
  obtain ⟨hk, _, hin, hsi, hcase⟩ := remove_ok h
  refine ⟨?_, hin⟩
  obtain ⟨ht1, ht2, ht3⟩ := ht
  have hsrc : ∀ s d, (s, d) ∈ r.links → s ≠ .input k →
      tyS r'.inTypes tout (renS k (r.inTypes.length + 1 - (k + 1)) s) = tyS r.inTypes tout s := by
    intro s d hmem hne
    cases s with
    | node n p => rfl
    | input i =>
      have hik : i ≠ k := by rintro rfl; exact hne rfl
      rw [renS_input hk (hwf.src i d hmem) hik, hin]
      exact eraseIdx_ren _ _ _ hik
  rcases hcase with ⟨hl, hout, hso, hlinks⟩ | ⟨j, hl, hj, hout, hso, hlinks⟩
  · refine ⟨?_, hsi, by rw [hso, hout, ht3]⟩
    rw [hlinks, hout]
    simp only [List.mem_map, forall_exists_index, and_imp, forall_apply_eq_imp_iff₂]
    intro l hlm
    have hne : l.1 ≠ .input k := by
      intro he
      have : (.input k, l.2) ∈ r.links := by rw [← he]; exact hlm
      have := mem_linked.2 this
      rw [hl] at this; simp at this
    rw [hsrc l.1 l.2 hlm hne]; exact ht1 l hlm
  · have hkj : (.input k, .output j) ∈ r.links := mem_linked.1 (by rw [hl]; simp)
    refine ⟨?_, hsi, hso⟩
    rw [hlinks]
    simp only [List.mem_map, forall_exists_index, and_imp, forall_apply_eq_imp_iff₂]
    intro l hlm
    obtain ⟨hlm, hne⟩ := filter_ne_links.1 hlm
    rw [hsrc l.1 l.2 hlm hne]
    have hd : tyD r'.outTypes tin (renD j (r.outTypes.length + 1 - (j + 1)) l.2) =
        tyD r.outTypes tin l.2 := by
      obtain ⟨s, d⟩ := l
      cases d with
      | node n p => rfl
      | output i =>
        have hij : i ≠ j := by
          rintro rfl
          exact hne (hwf.uniq _ _ _ hj hlm hkj)
        simp only
        rw [renD_output hj (hwf.dst s i hlm) hij, hout]
        exact eraseIdx_ren _ _ _ hij
    rw [hd]; exact ht1 l hlm

/-- A wire is empty: it has no link, or a single one that goes to the Output node. -/
def Empty (r : Region T) (k : Nat) : Prop := r.linked k = [] ∨ ∃ j, r.linked k = [.output j]

theorem wf_remove {r r' : Region T} {k : Nat} (hwf : WF r)
    (h : removeEmptyWire r k = some (.ok r')) : WF r' := by
  obtain ⟨hk, _, hin, _, hcase⟩ := remove_ok h
  have hinlen : r'.inTypes.length + 1 = r.inTypes.length := by
    rw [hin, List.length_eraseIdx_of_lt hk]; omega
  -- preimages of renumbered sources
  have hpre : ∀ s d i, (s, d) ∈ r.links → s ≠ .input k →
      renS k (r.inTypes.length + 1 - (k + 1)) s = .input i →
      ∃ i', s = .input i' ∧ i' ≤ r.inTypes.length ∧ i' ≠ k ∧ i = if k < i' then i' - 1 else i' := by
    intro s d i hmem hne he
    cases s with
    | node n p => simp [renS] at he
    | input i' =>
      have hik : i' ≠ k := by rintro rfl; exact hne rfl
      have hle := hwf.src i' d hmem
      rw [renS_input hk hle hik] at he
      simp only [Src.input.injEq] at he
      exact ⟨i', rfl, hle, hik, he.symm⟩
  have hinj : ∀ s s' d d', (s, d) ∈ r.links → (s', d') ∈ r.links → s = s' →
      renS k (r.inTypes.length + 1 - (k + 1)) s = renS k (r.inTypes.length + 1 - (k + 1)) s' := by
    intro s s' _ _ _ _ he; rw [he]
  rcases hcase with ⟨hl, hout, _, hlinks⟩ | ⟨j, hl, hj, hout, _, hlinks⟩
  · have hne : ∀ s d, (s, d) ∈ r.links → s ≠ .input k := by
      rintro s d hmem rfl
      have := mem_linked.2 hmem
      rw [hl] at this; simp at this
    constructor
    · intro i d hm
      rw [hlinks] at hm
      simp only [List.mem_map, Prod.mk.injEq] at hm
      obtain ⟨⟨s, d'⟩, hm, he, rfl⟩ := hm
      obtain ⟨i', _, h2, h3, h4⟩ := hpre s d' i hm (hne _ _ hm) he
      split at h4 <;> omega
    · intro s i hm
      rw [hlinks] at hm
      simp only [List.mem_map, Prod.mk.injEq] at hm
      obtain ⟨⟨s', d'⟩, hm, _, he⟩ := hm
      rw [hout]; exact hwf.dst s' i (by rw [← he]; exact hm)
    · intro s s' i hi h1 h2
      rw [hlinks] at h1 h2
      simp only [List.mem_map, Prod.mk.injEq] at h1 h2
      obtain ⟨⟨a, d1⟩, hm1, rfl, he1⟩ := h1
      obtain ⟨⟨b, d2⟩, hm2, rfl, he2⟩ := h2
      simp only at he1 he2
      subst he1 he2
      rw [hout] at hi
      have := hwf.uniq a b i hi hm1 hm2
      simp only [this]
    · intro i i2 hm
      rw [hlinks] at hm
      simp only [List.mem_map, Prod.mk.injEq] at hm
      obtain ⟨⟨s, d'⟩, hm, he, he2⟩ := hm
      simp only at he he2
      subst he2
      obtain ⟨i', rfl, h2, h3, h4⟩ := hpre s _ i hm (hne _ _ hm) he
      have := hwf.value i' i2 hm
      rw [hout]
      split at h4 <;> omega
  · have hkj : (.input k, .output j) ∈ r.links := mem_linked.1 (by rw [hl]; simp)
    have houtlen : r'.outTypes.length + 1 = r.outTypes.length := by
      rw [hout, List.length_eraseIdx_of_lt hj]; omega
    have hpreD : ∀ s d i, (s, d) ∈ r.links → s ≠ .input k →
        renD j (r.outTypes.length + 1 - (j + 1)) d = .output i →
        ∃ i', d = .output i' ∧ i' ≤ r.outTypes.length ∧ i' ≠ j ∧
          i = if j < i' then i' - 1 else i' := by
      intro s d i hmem hne he
      cases d with
      | node n p => simp [renD] at he
      | output i' =>
        have hij : i' ≠ j := by
          rintro rfl
          exact hne (hwf.uniq _ _ _ hj hmem hkj)
        have hle := hwf.dst s i' hmem
        rw [renD_output hj hle hij] at he
        simp only [Dst.output.injEq] at he
        exact ⟨i', rfl, hle, hij, he.symm⟩
    have hm' : ∀ s d, (s, d) ∈ r'.links → ∃ s0 d0, (s0, d0) ∈ r.links ∧ s0 ≠ .input k ∧
        s = renS k (r.inTypes.length + 1 - (k + 1)) s0 ∧
        d = renD j (r.outTypes.length + 1 - (j + 1)) d0 := by
      intro s d hm
      rw [hlinks] at hm
      simp only [List.mem_map, Prod.mk.injEq] at hm
      obtain ⟨⟨s0, d0⟩, hm, he, he2⟩ := hm
      obtain ⟨hm, hne⟩ := filter_ne_links.1 hm
      exact ⟨s0, d0, hm, hne, he.symm, he2.symm⟩
    constructor
    · intro i d hm
      obtain ⟨s0, d0, hm, hne, he, _⟩ := hm' _ _ hm
      obtain ⟨i', _, h2, h3, h4⟩ := hpre s0 d0 i hm hne he.symm
      split at h4 <;> omega
    · intro s i hm
      obtain ⟨s0, d0, hm, hne, _, he⟩ := hm' _ _ hm
      obtain ⟨i', _, h2, h3, h4⟩ := hpreD s0 d0 i hm hne he.symm
      split at h4 <;> omega
    · intro s s' i hi h1 h2
      obtain ⟨a, d1, ha, hna, rfl, he1⟩ := hm' _ _ h1
      obtain ⟨b, d2, hb, hnb, rfl, he2⟩ := hm' _ _ h2
      obtain ⟨i1, rfl, hle1, hn1, e1⟩ := hpreD a d1 i ha hna he1.symm
      obtain ⟨i2, rfl, hle2, hn2, e2⟩ := hpreD b d2 i hb hnb he2.symm
      have : i1 = i2 := by split at e1 <;> split at e2 <;> omega
      subst this
      have hlt : i1 < r.outTypes.length := by split at e1 <;> omega
      have := hwf.uniq a b i1 hlt ha hb
      simp only [this]
    · intro i i2 hm
      obtain ⟨s0, d0, hm, hne, he, he2⟩ := hm' _ _ hm
      obtain ⟨i1, rfl, hle1, hn1, e1⟩ := hpre s0 d0 i hm hne he.symm
      obtain ⟨j1, rfl, hle2, hn2, e2⟩ := hpreD _ d0 i2 hm hne he2.symm
      have := hwf.value i1 j1 hm
      split at e1 <;> split at e2 <;> omega

/-- **C23 (success and errors).** In a well-formed DFG, function or case region, on a value port the
removal succeeds exactly if the wire is empty, and otherwise reports `DeleteNonEmptyWire`. -/
theorem C23_success_iff_empty (r : Region T) (k : Nat) (hwf : WF r) (hk : k < r.inTypes.length)
    (hp : r.parent = .dfg ∨ r.parent = .funcDefn ∨ r.parent = .case) :
    (Empty r k → ∃ r', removeEmptyWire r k = some (.ok r')) ∧
    (¬ Empty r k → removeEmptyWire r k = some (.error .deleteNonEmptyWire)) := by
  have h0 : ¬ (r.inTypes.length + 1 ≤ k) := by omega
  have h1 : ¬ (r.inTypes.length ≤ k) := by omega
  constructor
  · rintro (h | ⟨j, h⟩)
    · unfold removeEmptyWire updateSignature removeOut
      rw [if_neg h0, h]
      rcases hp with hp | hp | hp <;> simp [h1, hp]
    · have hm : (.input k, .output j) ∈ r.links := mem_linked.1 (by rw [h]; simp)
      have hj : ¬ (r.outTypes.length ≤ j) := by have := (hwf.value k j hm).1 hk; omega
      unfold removeEmptyWire updateSignature removeOut
      rw [if_neg h0, h]
      rcases hp with hp | hp | hp <;> simp [h1, hp, hj]
  · intro hne
    unfold removeEmptyWire
    rw [if_neg h0]
    split
    · rename_i hl; exact absurd (Or.inl hl) hne
    · rename_i j hl; exact absurd (Or.inr ⟨j, hl⟩) hne
    · rfl

/-- **C23 (range).** Offsets beyond the order port are reported as `InvalidPortOffset`. Finding: the
offset just past the last value (the state-order port, if unconnected) panics instead. -/
theorem C23_out_of_range (r : Region T) (k : Nat) :
    (r.inTypes.length < k → removeEmptyWire r k = some (.error .invalidPortOffset)) ∧
    (k = r.inTypes.length → r.linked k = [] → removeEmptyWire r k = none) := by
  constructor
  · intro h; unfold removeEmptyWire; rw [if_pos (by omega)]
  · rintro rfl h
    unfold removeEmptyWire updateSignature removeOut
    rw [if_neg (by omega), h]
    simp

/-- Finding: removing a wire of a loop body always panics, and so does removing a used wire of a basic
block. -/
theorem C23_loops_and_blocks_panic (r : Region T) (k : Nat) (hk : k < r.inTypes.length)
    (hwf : WF r) :
    (r.parent = .tailLoop → Empty r k → removeEmptyWire r k = none) ∧
    (r.parent = .block → (∃ j, r.linked k = [.output j]) → removeEmptyWire r k = none) := by
  have h0 : ¬ (r.inTypes.length + 1 ≤ k) := by omega
  have h1 : ¬ (r.inTypes.length ≤ k) := by omega
  constructor
  · rintro hp (h | ⟨j, h⟩)
    · unfold removeEmptyWire updateSignature removeOut
      rw [if_neg h0, h]; simp [h1, hp]
    · have hm : (.input k, .output j) ∈ r.links := mem_linked.1 (by rw [h]; simp)
      have hj : ¬ (r.outTypes.length ≤ j) := by have := (hwf.value k j hm).1 hk; omega
      unfold removeEmptyWire updateSignature removeOut
      rw [if_neg h0, h]; simp [h1, hp, hj]
  · rintro hp ⟨j, h⟩
    have hm : (.input k, .output j) ∈ r.links := mem_linked.1 (by rw [h]; simp)
    have hj : ¬ (r.outTypes.length ≤ j) := by have := (hwf.value k j hm).1 hk; omega
    unfold removeEmptyWire updateSignature removeOut
    rw [if_neg h0, h]; simp [h1, hp, hj]

theorem mem_emptyWires {r : Region T} {k : Nat} :
    k ∈ emptyWires r ↔ k < r.inTypes.length ∧ Empty r k := by
  unfold emptyWires Empty
  rw [List.mem_filter, List.mem_range]
  refine and_congr_right (fun _ => ?_)
  split
  · rename_i h; simp [h]
  · rename_i j h; simp [h]
  · rename_i h1 h2
    constructor
    · intro h; simp at h
    · rintro (h | ⟨j, h⟩)
      · exact absurd h h1
      · exact absurd h (h2 j)

theorem linked_map (l : List (Src × Dst)) (f : Src → Src) (g : Dst → Dst) (w : Nat)
    (hf : ∀ s d, (s, d) ∈ l → (f s = .input w ↔ s = .input w)) :
    ((l.map (fun e => (f e.1, g e.2))).filter (fun e => e.1 = .input w)).map (·.2) =
    ((l.filter (fun e => e.1 = .input w)).map (·.2)).map g := by
  induction l with
  | nil => rfl
  | cons a t ih =>
    have ha := hf a.1 a.2 List.mem_cons_self
    have iht := ih (fun s d hm => hf s d (List.mem_cons_of_mem _ hm))
    simp only [List.map_cons, List.filter_cons]
    by_cases h : a.1 = .input w
    · have h' := ha.2 h
      rw [if_pos (by simpa using h'), if_pos (by simpa using h)]
      simp only [List.map_cons]
      rw [iht]
    · have h' : ¬ f a.1 = .input w := fun hh => h (ha.1 hh)
      simp only [h, h', decide_false, Bool.false_eq_true, if_false]
      exact iht

theorem empty_remove {r r' : Region T} {k w : Nat} (hwf : WF r)
    (h : removeEmptyWire r k = some (.ok r')) (hw : w < k) (he : Empty r w) : Empty r' w := by
  obtain ⟨hk, _, hin, _, hcase⟩ := remove_ok h
  have hf : ∀ s d, (s, d) ∈ r.links → s ≠ .input k →
      (renS k (r.inTypes.length + 1 - (k + 1)) s = .input w ↔ s = .input w) := by
    intro s d hm hne
    cases s with
    | node n p => simp [renS]
    | input i =>
      have hik : i ≠ k := by rintro rfl; exact hne rfl
      rw [renS_input hk (hwf.src i d hm) hik]
      simp only [Src.input.injEq]
      split <;> omega
  rcases hcase with ⟨hl, hout, _, hlinks⟩ | ⟨j, hl, hj, hout, _, hlinks⟩
  · have hne : ∀ s d, (s, d) ∈ r.links → s ≠ .input k := by
      rintro s d hmem rfl
      have := mem_linked.2 hmem
      rw [hl] at this; simp at this
    have : r'.linked w = (r.linked w).map id := by
      unfold Region.linked
      rw [hlinks]
      exact linked_map r.links _ id w (fun s d hm => hf s d hm (hne s d hm))
    unfold Empty
    rw [this, List.map_id]; exact he
  · have : r'.linked w = (r.linked w).map (renD j (r.outTypes.length + 1 - (j + 1))) := by
      unfold Region.linked
      rw [hlinks, linked_map _ _ _ w (fun s d hm => by
        obtain ⟨hm, hne⟩ := filter_ne_links.1 hm
        exact hf s d hm hne)]
      congr 2
      rw [List.filter_filter]
      apply List.filter_congr
      intro e _
      by_cases hh : e.1 = .input w
      · have : ¬ w = k := by omega
        simp [hh, this]
      · simp [hh]
    unfold Empty
    rw [this]
    rcases he with he | ⟨j', he⟩
    · left; rw [he]; rfl
    · right
      rw [he]
      simp only [List.map_cons, List.map_nil, renD]
      split
      · exact ⟨_, rfl⟩
      · exact ⟨_, rfl⟩

/-- **C23 (all at once).** The way the rewriter removes wires is safe: if the positions `ws` are
increasing and all are empty in the region (which the rewriter checks for targets and knows for
patterns), removing them from last to first never fails and takes out exactly that many inputs. -/
theorem C23_reverse_removal_never_fails (r : Region T) (ws : List Nat) (hwf : WF r)
    (hp : r.parent = .dfg ∨ r.parent = .funcDefn ∨ r.parent = .case)
    (hsorted : ws.Pairwise (· < ·)) (hws : ∀ w ∈ ws, w ∈ emptyWires r) :
    ∃ r', removeAll r ws.reverse = some r' ∧ WF r' ∧
      r'.inTypes.length + ws.length = r.inTypes.length := by
  have main : ∀ (vs : List Nat) (r : Region T), WF r →
      (r.parent = .dfg ∨ r.parent = .funcDefn ∨ r.parent = .case) →
      vs.Pairwise (· > ·) → (∀ w ∈ vs, w < r.inTypes.length ∧ Empty r w) →
      ∃ r', removeAll r vs = some r' ∧ WF r' ∧ r'.inTypes.length + vs.length = r.inTypes.length := by
    intro vs
    induction vs with
    | nil => intro r hwf _ _ _; exact ⟨r, rfl, hwf, rfl⟩
    | cons k ks ih =>
      intro r hwf hp hs hall
      obtain ⟨hk, he⟩ := hall k List.mem_cons_self
      obtain ⟨r1, h1⟩ := (C23_success_iff_empty r k hwf hk hp).1 he
      obtain ⟨_, hpar, hin, _, _⟩ := remove_ok h1
      have hlen : r1.inTypes.length + 1 = r.inTypes.length := by
        rw [hin, List.length_eraseIdx_of_lt hk]; omega
      rw [List.pairwise_cons] at hs
      obtain ⟨r2, h2, h3, h4⟩ := ih r1 (wf_remove hwf h1) (by rw [hpar]; exact hp) hs.2 (by
        intro w hw
        have hlt : w < k := hs.1 w hw
        exact ⟨by omega, empty_remove hwf h1 hlt (hall w (List.mem_cons_of_mem _ hw)).2⟩)
      refine ⟨r2, ?_, h3, ?_⟩
      · simp only [removeAll, h1]; exact h2
      · simp only [List.length_cons]; omega
  obtain ⟨r', h1, h2, h3⟩ := main ws.reverse r hwf hp (by
    rw [List.pairwise_reverse]; exact hsorted) (by
    intro w hw
    exact mem_emptyWires.1 (hws w (by simpa using hw)))
  exact ⟨r', h1, h2, by simpa using h3⟩

/-- A concrete circuit on three qubits and an unused angle: a two-qubit gate (node 7) on qubits 0 and 2;
qubit 1 passes through to output 2, the outputs of the gate are 0 and 1. -/
def exampleRegion : Region String :=
  { parent := .dfg, inTypes := ["qubit", "qubit", "qubit", "angle"],
    outTypes := ["qubit", "qubit", "qubit"], sigIn := ["qubit", "qubit", "qubit", "angle"],
    sigOut := ["qubit", "qubit", "qubit"],
    links := [(.input 0, .node 7 0), (.input 2, .node 7 1), (.input 1, .output 2),
      (.node 7 0, .output 0), (.node 7 1, .output 1), (.input 4, .node 7 2)] }

example : emptyWires exampleRegion = [1, 3] ∧
    (removeAll exampleRegion [3, 1]).map (fun r => (r.inTypes, r.outTypes, r.links)) =
      some (["qubit", "qubit"], ["qubit", "qubit"],
        [(.input 0, .node 7 0), (.input 1, .node 7 1), (.node 7 0, .output 0),
          (.node 7 1, .output 1), (.input 2, .node 7 2)]) := by decide

example : WF exampleRegion := by
  constructor <;> (try simp [exampleRegion]) ; all_goals aesop

end Tket.EmptyWire
