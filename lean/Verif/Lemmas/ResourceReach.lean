import Verif.Lemmas.Interval
import Mathlib.Data.List.Nodup

/-!
# Lemmas about reachability, and concrete regions
-/

namespace Verif.Resource

variable {T : Type}

/-! ### The breadth first search -/

/-- A wanted node is reachable from `x` through nodes of the scope that are not in `V`. -/
inductive Avoid (st : St) (nbr : Nat → List Nat) (ends V : List Nat) : Nat → Prop
  | stop {e} (he : e ∈ ends) (hp : st.getPos e ≠ none) (hv : e ∉ V) : Avoid st nbr ends V e
  | step {x y} (hp : st.getPos x ≠ none) (hv : x ∉ V) (hy : y ∈ nbr x)
      (h : Avoid st nbr ends V y) : Avoid st nbr ends V x

theorem Avoid.mono {st nbr ends V V' x} (h : Avoid st nbr ends V x) (hV : ∀ a ∈ V', a ∈ V) :
    Avoid st nbr ends V' x := by
  induction h with
  | stop he hp hv => exact .stop he hp fun h => hv (hV _ h)
  | step hp hv hy _ ih => exact .step hp (fun h => hv (hV _ h)) hy ih

theorem Avoid.not_mem {st nbr ends V x} (h : Avoid st nbr ends V x) : x ∉ V := by
  cases h <;> assumption

theorem Avoid.pos {st nbr ends V x} (h : Avoid st nbr ends V x) : st.getPos x ≠ none := by
  cases h <;> assumption

theorem Avoid.shorten {st nbr ends V x n} (h : Avoid st nbr ends V x) (hn : n ∉ ends) :
    Avoid st nbr ends (n :: V) x ∨ ∃ y ∈ nbr n, Avoid st nbr ends (n :: V) y := by
  induction h with
  | stop he hp hv =>
    left
    refine .stop he hp ?_
    rw [List.mem_cons]
    rintro (rfl | h)
    · exact hn he
    · exact hv h
  | @step x y hp hv hy _ ih =>
    rcases ih with ih | ih
    · by_cases hx : x = n
      · subst hx
        exact .inr ⟨y, hy, ih⟩
      · left
        refine .step hp ?_ hy ih
        rw [List.mem_cons]
        rintro (rfl | h)
        · exact hx rfl
        · exact hv h
    · exact .inr ih

/-- Neighbours inside the scope have greater positions. -/
def Increasing (st : St) (nbr : Nat → List Nat) : Prop :=
  ∀ x y a b, y ∈ nbr x → st.getPos x = some a → st.getPos y = some b → a < b

theorem Avoid.le_max {st nbr ends V x a m} (h : Avoid st nbr ends V x) (hi : Increasing st nbr)
    (hm : ∀ e ∈ ends, ∀ b, st.getPos e = some b → b ≤ m) (ha : st.getPos x = some a) : a ≤ m := by
  induction h generalizing a with
  | stop he _ _ => exact hm _ he _ ha
  | step hp hv hy h ih =>
    obtain ⟨b, hb⟩ := Option.ne_none_iff_exists'.1 h.pos
    have := ih hb
    have := hi _ _ _ _ hy ha hb
    omega

theorem search_sound {st nbr ends m} (hi : Increasing st nbr)
    (hm : ∀ e ∈ ends, ∀ b, st.getPos e = some b → b ≤ m) (fuel : Nat) :
    ∀ q V b, search st nbr ends m fuel q V = some b →
      (b = true ↔ ∃ x ∈ q, Avoid st nbr ends V x) := by
  induction fuel with
  | zero => intro q V b h; exact absurd h (by simp [search])
  | succ fuel ih =>
    intro q V b h
    cases q with
    | nil =>
      simp only [search, Option.some.injEq] at h
      subst h
      simp
    | cons n q =>
      rw [search] at h
      have skip : (¬ Avoid st nbr ends V n) → search st nbr ends m fuel q V = some b →
          (b = true ↔ ∃ x ∈ n :: q, Avoid st nbr ends V x) := by
        intro hn h
        rw [ih _ _ _ h]
        simp [hn]
      cases hp : st.getPos n with
      | none =>
        rw [hp] at h
        exact skip (fun h => h.pos hp) h
      | some p =>
        rw [hp] at h
        dsimp only at h
        split at h
        · rename_i hc
          refine skip ?_ h
          intro ha
          rcases hc with hc | hc
          · have := ha.le_max hi hm hp
            omega
          · exact ha.not_mem hc
        · rename_i hc
          rw [not_or] at hc
          split at h
          · rename_i he
            obtain rfl := Option.some.inj h
            refine iff_of_true rfl ⟨n, by simp, .stop he (by simp [hp]) hc.2⟩
          · rename_i he
            rw [ih _ _ _ h]
            constructor
            · rintro ⟨x, hx, ha⟩
              rw [List.mem_append] at hx
              have ha' := ha.mono (V' := V) (fun _ h => List.mem_cons_of_mem _ h)
              rcases hx with hx | hx
              · exact ⟨x, List.mem_cons_of_mem _ hx, ha'⟩
              · exact ⟨n, by simp, .step (by simp [hp]) hc.2 hx ha'⟩
            · rintro ⟨x, hx, ha⟩
              rcases ha.shorten he with h' | ⟨y, hy, h'⟩
              · rw [List.mem_cons] at hx
                rcases hx with rfl | hx
                · exact absurd (by simp) h'.not_mem
                · exact ⟨x, List.mem_append_left _ hx, h'⟩
              · exact ⟨y, List.mem_append_right _ hy, h'⟩

/-- How much work the unvisited nodes can still cause. -/
def pending (nbr : Nat → List Nat) (V : List Nat) : List Nat → Nat
  | [] => 0
  | n :: ns => (if n ∈ V then 0 else (nbr n).length) + pending nbr V ns

theorem pending_not_mem {nbr V n} : ∀ ns : List Nat, n ∉ ns →
    pending nbr (n :: V) ns = pending nbr V ns
  | [], _ => rfl
  | m :: ns, h => by
    rw [List.mem_cons, not_or] at h
    simp only [pending, List.mem_cons]
    rw [pending_not_mem ns h.2]
    have : ¬ m = n := fun e => h.1 e.symm
    simp [this]

theorem pending_visit {nbr V n} : ∀ ns : List Nat, ns.Nodup → n ∈ ns → n ∉ V →
    pending nbr (n :: V) ns + (nbr n).length = pending nbr V ns
  | m :: ns, hd, h, hv => by
    obtain ⟨hm, hd⟩ := List.nodup_cons.1 hd
    by_cases hmn : m = n
    · subst hmn
      simp only [pending, List.mem_cons, true_or, if_true]
      rw [pending_not_mem ns hm]
      simp only [hv, if_false]
      omega
    · have hn : n ∈ ns := by
        rcases List.mem_cons.1 h with h | h
        · exact absurd h.symm hmn
        · exact h
      have := pending_visit (nbr := nbr) ns hd hn hv
      simp only [pending, List.mem_cons, hmn, false_or]
      omega

theorem search_total {st nbr ends m nodes} (hnd : nodes.Nodup)
    (hn : ∀ n, st.getPos n ≠ none → n ∈ nodes) (fuel : Nat) :
    ∀ q V, q.length + pending nbr V nodes < fuel → ∃ b, search st nbr ends m fuel q V = some b := by
  induction fuel with
  | zero => intro q V h; omega
  | succ fuel ih =>
    intro q V h
    cases q with
    | nil => exact ⟨false, rfl⟩
    | cons n q =>
      rw [search]
      rw [List.length_cons] at h
      cases hp : st.getPos n with
      | none => exact ih q V (by omega)
      | some p =>
        dsimp only
        split
        · exact ih q V (by omega)
        · rename_i hc
          rw [not_or] at hc
          split
          · exact ⟨true, rfl⟩
          · apply ih
            have := pending_visit (nbr := nbr) nodes hnd (hn n (by simp [hp])) hc.2
            rw [List.length_append]
            omega

theorem maxPos_spec {st ends m} (h : maxPos st ends = some m) :
    ∀ e ∈ ends, ∀ b, st.getPos e = some b → b ≤ m := by
  intro e he b hb
  unfold maxPos at h
  rw [List.max?_eq_some_iff] at h
  exact h.2 b (List.mem_filterMap.2 ⟨e, he, hb⟩)

theorem maxPos_none {st ends} (h : maxPos st ends = none) :
    ∀ e ∈ ends, st.getPos e = none := by
  intro e he
  unfold maxPos at h
  rw [List.max?_eq_none_iff, List.filterMap_eq_nil_iff] at h
  exact h e he

/-! ### Regions given by lists of signatures and wires -/

/-- The region with the given operations and wires.  Nodes which have no operation are outside of
the region. -/
def ofWires (cp : T → Bool) (sigs : List (Nat × List T × List T))
    (wires : List ((Nat × Nat) × (Nat × Nat))) (incoming : List (Nat × Nat)) : Region T where
  copyable := cp
  nodes := sigs.map Prod.fst
  sig n := sigs.lookup n
  linked n p := (wires.filter fun w => w.1 = (n, p)).map Prod.snd
  source m q := (wires.find? fun w => w.2 = (m, q)).map Prod.fst
  incoming := incoming

/-- The checks that make a region well-formed. -/
structure Check [DecidableEq T] (cp : T → Bool) (sigs : List (Nat × List T × List T))
    (wires : List ((Nat × Nat) × (Nat × Nat))) (incoming : List (Nat × Nat))
    (order : List Nat) : Prop where
  nodup : (sigs.map Prod.fst).Nodup
  targets : (wires.map Prod.snd).Nodup
  types : ∀ w ∈ wires, w.1.1 ∈ sigs.map Prod.fst → w.2.1 ∈ sigs.map Prod.fst →
    ((ofWires cp sigs wires incoming).type? w.2.1 .inc w.2.2 =
      (ofWires cp sigs wires incoming).type? w.1.1 .out w.1.2 ∧
      (ofWires cp sigs wires incoming).type? w.1.1 .out w.1.2 ≠ none)
  perm : order.Perm (sigs.map Prod.fst)
  topo : order.Pairwise fun a b => ∀ w ∈ wires, ¬ (w.1.1 = b ∧ w.2.1 = a)
  acyclic : ∀ w ∈ wires, w.1.1 ≠ w.2.1
  connected : ∀ s ∈ sigs, ∀ q < s.2.1.length, (s.1, q) ∈ wires.map Prod.snd
  incoming : ∀ x ∈ incoming, x.1 ∈ sigs.map Prod.fst ∧
    (ofWires cp sigs wires incoming).type? x.1 .inc x.2 ≠ none
  linear : ∀ s ∈ sigs, ∀ p < s.2.2.length, (s.2.2[p]?.map cp = some false) →
    (wires.filter fun w => w.1 = (s.1, p)).length = 1

theorem ofWires_linked {cp : T → Bool} {sigs wires incoming n p x} :
    x ∈ (ofWires cp sigs wires incoming).linked n p ↔ ((n, p), x) ∈ wires := by
  simp only [ofWires, List.mem_map, List.mem_filter, decide_eq_true_eq]
  constructor
  · rintro ⟨⟨a, b⟩, ⟨h1, h2⟩, h3⟩
    dsimp only at h2 h3
    subst h2 h3
    exact h1
  · intro h
    exact ⟨_, ⟨h, rfl⟩, rfl⟩

theorem ofWires_source {cp : T → Bool} {sigs wires incoming m q x}
    (hn : (wires.map Prod.snd).Nodup) :
    (ofWires cp sigs wires incoming).source m q = some x ↔ (x, (m, q)) ∈ wires := by
  simp only [ofWires, Option.map_eq_some_iff]
  constructor
  · rintro ⟨⟨a, b⟩, h, h3⟩
    have h1 := List.mem_of_find?_eq_some h
    have h2 := List.find?_some h
    simp only [decide_eq_true_eq] at h2
    dsimp only at h3
    subst h2 h3
    exact h1
  · intro h
    cases hf : wires.find? fun w => w.2 = (m, q) with
    | none =>
      have := List.find?_eq_none.1 hf _ h
      simp at this
    | some w =>
      refine ⟨w, rfl, ?_⟩
      have h1 := List.mem_of_find?_eq_some hf
      have h2 := List.find?_some hf
      simp only [decide_eq_true_eq] at h2
      have := List.inj_on_of_nodup_map hn h1 h h2
      rw [this]

theorem mem_of_lookup {B : Type} {n : Nat} {x : B} : ∀ {l : List (Nat × B)},
    l.lookup n = some x → (n, x) ∈ l
  | (k, v) :: l, h => by
    rw [List.lookup_cons] at h
    split at h
    · rename_i hk
      obtain rfl := Option.some.inj h
      rw [beq_iff_eq] at hk
      subst hk
      simp
    · exact List.mem_cons_of_mem _ (mem_of_lookup h)

theorem wf_ofWires [DecidableEq T] {cp : T → Bool} {sigs wires incoming order}
    (c : Check cp sigs wires incoming order) :
    WF (ofWires cp sigs wires incoming) order ∧ (ofWires cp sigs wires incoming).LinearUse := by
  have hw : ∀ {n p m q}, (ofWires cp sigs wires incoming).Wire n p m q →
      ((n, p), (m, q)) ∈ wires := fun h => ofWires_linked.1 h.2.2.2
  refine ⟨⟨c.nodup, c.perm, ?_, ?_, ?_, ?_, ?_, ?_, ?_⟩, ?_⟩
  · refine c.topo.imp ?_
    intro a b h p q hwire
    exact h _ (hw hwire) ⟨rfl, rfl⟩
  · intro n p q h
    exact c.acyclic _ (hw h) rfl
  · intro n p m q h
    exact (c.types _ (hw h) h.1 h.2.1).1
  · intro n p m q _ _
    rw [ofWires_linked, ofWires_source c.targets]
  · intro n p m q hn hm hs
    rw [ofWires_source c.targets] at hs
    exact Option.ne_none_iff_exists'.1 (c.types _ hs hn hm.1).2
  · rintro m q ⟨hm, t, ht⟩
    unfold Region.type? at ht
    cases hl : (ofWires cp sigs wires incoming).sig m with
    | none => rw [hl] at ht; exact absurd ht (by simp)
    | some s =>
      obtain ⟨ins, outs⟩ := s
      rw [hl] at ht
      have hlt : q < ins.length := by
        have := List.getElem?_eq_some_iff.1 ht
        exact this.1
      have := c.connected _ (mem_of_lookup hl) q hlt
      rw [List.mem_map] at this
      obtain ⟨⟨⟨n, p⟩, b⟩, h1, h2⟩ := this
      dsimp only at h2
      subst h2
      exact ⟨n, p, (ofWires_source c.targets).2 h1⟩
  · intro x hx
    exact ⟨(c.incoming x hx).1, Option.ne_none_iff_exists'.1 (c.incoming x hx).2⟩
  · rintro n p ⟨hn, t, ht, hc⟩
    unfold Region.type? at ht
    cases hl : (ofWires cp sigs wires incoming).sig n with
    | none => rw [hl] at ht; exact absurd ht (by simp)
    | some s =>
      obtain ⟨ins, outs⟩ := s
      rw [hl] at ht
      have ht' : outs[p]? = some t := ht
      have hlt : p < outs.length := (List.getElem?_eq_some_iff.1 ht').1
      have := c.linear _ (mem_of_lookup hl) p hlt (by
        rw [show ((n, ins, outs).2.2) = outs from rfl, ht', Option.map_some]
        exact congrArg some hc)
      obtain ⟨w, hw⟩ := List.length_eq_one_iff.1 this
      exact ⟨w.2, by simp only [ofWires]; rw [hw]; rfl⟩

end Verif.Resource
