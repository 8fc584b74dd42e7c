import Verif.Model.Commands
import Mathlib.Data.List.Basic
import Mathlib.Data.List.Nodup
import Mathlib.Data.List.Perm.Basic
import Mathlib.Tactic.Common

/-!
# Lemmas about linear units of commands
-/

namespace Tket.Commands

abbrev Units := List (Wire × Nat)

/-- The unit assigned to a wire. -/
def unitOf (m : Units) (w : Wire) : Option Nat := (m.find? (fun e => e.1 = w)).map (·.2)

def keys (m : Units) : List Wire := m.map (·.1)
def vals (m : Units) : List Nat := m.map (·.2)

theorem unitOf_of_mem {m : Units} (hk : (keys m).Nodup) {w : Wire} {u : Nat} (h : (w, u) ∈ m) :
    unitOf m w = some u := by
  induction m with
  | nil => simp at h
  | cons e m ih =>
    simp only [keys, List.map_cons, List.nodup_cons] at hk
    unfold unitOf
    rw [List.find?_cons]
    rcases List.mem_cons.1 h with rfl | h
    · simp
    · have : e.1 ≠ w := by
        rintro rfl
        exact hk.1 (List.mem_map.2 ⟨_, h, rfl⟩)
      simp only [this, decide_false]
      exact ih hk.2 h

theorem mem_of_unitOf {m : Units} {w : Wire} {u : Nat} (h : unitOf m w = some u) : (w, u) ∈ m := by
  unfold unitOf at h
  cases hf : m.find? (fun e => e.1 = w) with
  | none => rw [hf] at h; simp at h
  | some e =>
    rw [hf] at h
    have h1 := List.find?_some hf
    have h2 := List.mem_of_find?_eq_some hf
    simp only [decide_eq_true_eq] at h1
    simp only [Option.map_some, Option.some.injEq] at h
    rw [← h1, ← h]; exact h2

theorem unitOf_some_of_key {m : Units} {w : Wire} (h : w ∈ keys m) : ∃ u, unitOf m w = some u := by
  unfold keys at h
  obtain ⟨e, he, rfl⟩ := List.mem_map.1 h
  unfold unitOf
  cases hf : m.find? (fun e' => e'.1 = e.1) with
  | none => exact absurd (List.find?_eq_none.1 hf e he) (by simp)
  | some x => exact ⟨x.2, rfl⟩

theorem keys_filter (m : Units) (w : Wire) :
    keys (m.filter (fun e => e.1 ≠ w)) = (keys m).filter (· ≠ w) := by
  unfold keys
  rw [List.filter_map]
  rfl

theorem nodup_keys_filter {m : Units} (h : (keys m).Nodup) (w : Wire) :
    (keys (m.filter (fun e => e.1 ≠ w))).Nodup := by
  rw [keys_filter]; exact h.filter _

/-- Removing a key takes exactly its unit away. -/
theorem perm_remove {m : Units} (hk : (keys m).Nodup) {w : Wire} {u : Nat} (h : unitOf m w = some u) :
    m.Perm ((w, u) :: m.filter (fun e => e.1 ≠ w)) := by
  induction m with
  | nil => simp [unitOf] at h
  | cons e m ih =>
    have hk' := hk
    simp only [keys, List.map_cons, List.nodup_cons] at hk'
    unfold unitOf at h
    rw [List.find?_cons] at h
    by_cases he : e.1 = w
    · simp only [he, decide_true, Option.map_some, Option.some.injEq] at h
      have : e = (w, u) := by rw [← he, ← h]
      subst this
      have hf : m.filter (fun e => e.1 ≠ w) = m := by
        rw [List.filter_eq_self]
        intro x hx
        have : x.1 ≠ w := by
          rintro rfl
          exact hk'.1 (List.mem_map.2 ⟨x, hx, rfl⟩)
        simpa using this
      rw [List.filter_cons_of_neg (by simp), hf]
    · simp only [he, decide_false] at h
      rw [List.filter_cons_of_pos (by simpa using he)]
      exact ((ih hk'.2 h).cons e).trans (List.Perm.swap _ _ _)

theorem unitOf_filter_ne {m : Units} {w o : Wire} (h : w ≠ o) :
    unitOf (m.filter (fun e => e.1 ≠ o)) w = unitOf m w := by
  unfold unitOf
  induction m with
  | nil => rfl
  | cons e m ih =>
    by_cases he : e.1 = o
    · rw [List.filter_cons_of_neg (by simp [he]), ih, List.find?_cons]
      have : e.1 ≠ w := by rw [he]; exact h.symm
      simp [this]
    · rw [List.filter_cons_of_pos (by simpa using he), List.find?_cons, List.find?_cons]
      split
      · rfl
      · exact ih

theorem unitOf_insert_self (m : Units) (o : Wire) (u : Nat) : unitOf (insertWire o u m) o = some u := by
  unfold unitOf insertWire
  simp

theorem unitOf_insert_ne {m : Units} {w o : Wire} (u : Nat) (h : w ≠ o) :
    unitOf (insertWire o u m) w = unitOf m w := by
  rw [← unitOf_filter_ne (m := m) h]
  unfold unitOf insertWire
  rw [List.find?_cons]
  have : o ≠ w := h.symm
  simp [this]

/-- What is known of the map between two nodes, for the wires `live`. -/
structure Ok (m : Units) (live : List Wire) : Prop where
  keysNodup : (keys m).Nodup
  keysLive : ∀ w, w ∈ keys m ↔ w ∈ live
  valsNodup : (vals m).Nodup

/-- The units in use are exactly the numbers below the size of the map. -/
def Tight (m : Units) : Prop := ∀ v ∈ vals m, v < m.length

/-- Wires remaining after a node. -/
def liveAfter (live ws outs : List Wire) : List Wire := live.filter (· ∉ ws) ++ outs

theorem ok_remove {m : Units} {live : List Wire} (h : Ok m live) (w : Wire) :
    Ok (m.filter (fun e => e.1 ≠ w)) (live.filter (· ≠ w)) where
  keysNodup := nodup_keys_filter h.keysNodup w
  keysLive := by intro x; rw [keys_filter]; simp [h.keysLive]
  valsNodup := h.valsNodup.sublist (List.filter_sublist.map _)

theorem filter_self {m : Units} {o : Wire} (h : o ∉ keys m) : m.filter (fun e => e.1 ≠ o) = m := by
  rw [List.filter_eq_self]
  intro x hx
  have : x.1 ≠ o := by
    rintro rfl
    exact h (List.mem_map.2 ⟨x, hx, rfl⟩)
  simpa using this

theorem ok_insert {m : Units} {live : List Wire} (h : Ok m live) {o : Wire} {u : Nat} (ho : o ∉ live)
    (hu : u ∉ vals m) : Ok (insertWire o u m) (o :: live) := by
  have hok : o ∉ keys m := fun hc => ho ((h.keysLive o).1 hc)
  unfold insertWire
  rw [filter_self hok]
  refine ⟨?_, ?_, ?_⟩
  · simp only [keys, List.map_cons, List.nodup_cons]
    exact ⟨hok, h.keysNodup⟩
  · intro w
    have := h.keysLive w
    simp only [keys, List.map_cons, List.mem_cons] at this ⊢
    rw [this]
  · simp only [vals, List.map_cons, List.nodup_cons]
    exact ⟨hu, h.valsNodup⟩

theorem Ok.congr {m : Units} {l l' : List Wire} (h : Ok m l) (hl : ∀ w, w ∈ l ↔ w ∈ l') : Ok m l' :=
  ⟨h.keysNodup, fun w => (h.keysLive w).trans (hl w), h.valsNodup⟩

theorem mem_liveAfter_cons {live ws os : List Wire} {w o : Wire} (ho : o ∉ ws) (x : Wire) :
    x ∈ liveAfter (o :: live.filter (· ≠ w)) ws os ↔ x ∈ liveAfter live (w :: ws) (o :: os) := by
  simp only [liveAfter, List.mem_append, List.mem_filter, List.mem_cons, decide_eq_true_eq]
  by_cases hx : x = o
  · subst hx; simp [ho]
  · simp only [hx, false_or, not_or]
    tauto

/-- The effect of a node on the map. -/
theorem process_ok : ∀ (ws outs : List Wire) (m : Units) (live : List Wire), Ok m live →
    ws.Nodup → (∀ w ∈ ws, w ∈ live) → outs.Nodup → (∀ o ∈ outs, o ∉ live) →
    (outs.length ≤ ws.length ∨ Tight m) →
    Ok (process (ws.map some) outs m).1 (liveAfter live ws outs) ∧
    (Tight m → ws.length ≤ outs.length → Tight (process (ws.map some) outs m).1) := by
  intro ws
  induction ws with
  | nil =>
    intro outs
    induction outs with
    | nil =>
      intro m live h _ _ _ _ _
      simp only [List.map_nil, process, allocate]
      exact ⟨h.congr (l' := liveAfter live [] []) (by simp [liveAfter]), fun ht _ => ht⟩
    | cons o os ih =>
      intro m live h _ _ hn hd ht
      have ht : Tight m := by
        rcases ht with h' | h'
        · simp at h'
        · exact h'
      have hu : m.length ∉ vals m := fun hc => by have := ht _ hc; omega
      have hol : o ∉ live := hd o (by simp)
      have hok := ok_insert h hol hu
      have hlen : (insertWire o m.length m).length = m.length + 1 := by
        unfold insertWire
        rw [filter_self (fun hc => hol ((h.keysLive o).1 hc))]; rfl
      have htight : Tight (insertWire o m.length m) := by
        intro v hv
        rw [hlen]
        unfold insertWire at hv
        rw [filter_self (fun hc => hol ((h.keysLive o).1 hc))] at hv
        simp only [vals, List.map_cons, List.mem_cons] at hv
        rcases hv with rfl | hv
        · omega
        · have := ht v hv; omega
      rw [List.nodup_cons] at hn
      obtain ⟨r1, r2⟩ := ih (insertWire o m.length m) (o :: live) hok (by simp) (by simp) hn.2
        (by
          intro x hx hc
          rcases List.mem_cons.1 hc with rfl | hc
          · exact hn.1 hx
          · exact hd x (by simp [hx]) hc) (Or.inr htight)
      simp only [List.map_nil, process] at r1 r2
      simp only [List.map_nil, process, allocate]
      refine ⟨?_, fun _ _ => r2 htight (by simp)⟩
      exact r1.congr (l' := liveAfter live [] (o :: os)) (by intro w; simp [liveAfter]; tauto)
  | cons w ws ih =>
    intro outs m live h hnw hw hn hd ht
    rw [List.nodup_cons] at hnw
    have hwl := hw w (by simp)
    obtain ⟨u, hu⟩ := unitOf_some_of_key ((h.keysLive w).2 hwl)
    have hperm := perm_remove h.keysNodup hu
    have hlen := hperm.length_eq
    have hvp : (vals m).Perm (u :: vals (m.filter (fun e => e.1 ≠ w))) := hperm.map _
    have hrem := ok_remove h w
    have hterm : terminate (some w) m = (some u, m.filter (fun e => e.1 ≠ w)) := by
      unfold terminate removeWire
      simp only
      unfold unitOf at hu
      rw [hu]
    cases outs with
    | nil =>
      have hterm2 : (terminate (some w) m).2 = m.filter (fun e => e.1 ≠ w) := by rw [hterm]
      simp only [List.map_cons, process, hterm2]
      obtain ⟨r1, _⟩ := ih [] _ _ hrem hnw.2
        (by
          intro x hx
          rw [List.mem_filter]
          refine ⟨hw x (by simp [hx]), ?_⟩
          have : x ≠ w := by rintro rfl; exact hnw.1 hx
          simpa using this) (by simp) (by simp) (Or.inl (by simp))
      refine ⟨r1.congr ?_, fun _ h' => absurd h' (by simp)⟩
      intro x; simp [liveAfter]; tauto
    | cons o os =>
      simp only [List.map_cons, process, hterm]
      rw [List.nodup_cons] at hn
      have hol : o ∉ live := hd o (by simp)
      have hun : u ∉ vals (m.filter (fun e => e.1 ≠ w)) := by
        have := hvp.nodup_iff.1 h.valsNodup
        exact (List.nodup_cons.1 this).1
      have hok := ok_insert hrem (o := o) (u := u) (by
        intro hc; exact hol (List.mem_filter.1 hc).1) hun
      have hmeq : insertWire o u (m.filter (fun e => e.1 ≠ w)) =
          (o, u) :: m.filter (fun e => e.1 ≠ w) := by
        unfold insertWire
        rw [filter_self]
        intro hc
        exact hol (List.mem_filter.1 ((hrem.keysLive o).1 hc)).1
      have htight : Tight m → Tight (insertWire o u (m.filter (fun e => e.1 ≠ w))) := by
        intro ht v hv
        rw [hmeq] at hv ⊢
        have : v ∈ vals m := hvp.mem_iff.2 hv
        have := ht v this
        simp only [List.length_cons] at hlen ⊢
        omega
      obtain ⟨r1, r2⟩ := ih os _ _ hok hnw.2
        (by
          intro x hx
          refine List.mem_cons.2 (Or.inr (List.mem_filter.2 ⟨hw x (by simp [hx]), ?_⟩))
          have : x ≠ w := by rintro rfl; exact hnw.1 hx
          simpa using this) hn.2
        (by
          intro x hx hc
          rcases List.mem_cons.1 hc with rfl | hc
          · exact hn.1 hx
          · exact hd x (by simp [hx]) (List.mem_filter.1 hc).1)
        (by
          rcases ht with ht | ht
          · left; simpa using ht
          · exact Or.inr (htight ht))
      refine ⟨r1.congr ?_, fun h1 h2 => r2 (htight h1) (by simpa using h2)⟩
      exact mem_liveAfter_cons (fun hc => hol (hw o (by simp [hc])))

theorem mem_keys_insert {m : Units} {o x : Wire} {u : Nat} :
    x ∈ keys (insertWire o u m) ↔ x = o ∨ x ∈ keys m := by
  unfold insertWire
  have := keys_filter m o
  simp only [keys, List.map_cons, List.mem_cons] at this ⊢
  rw [this]
  simp only [List.mem_filter, decide_eq_true_eq]
  by_cases h : x = o <;> simp [h]

/-- What a node reports, and what it leaves alone. -/
theorem process_report : ∀ (ws outs : List Wire) (m : Units), ws.Nodup → (∀ w ∈ ws, w ∈ keys m) →
    outs.Nodup → (∀ o ∈ outs, o ∉ ws) →
    (∀ x, x ∉ ws → x ∉ outs → unitOf (process (ws.map some) outs m).1 x = unitOf m x) ∧
    (process (ws.map some) outs m).2.1.map some = ws.map (unitOf m) ∧
    (process (ws.map some) outs m).2.2.map some =
      outs.map (unitOf (process (ws.map some) outs m).1) ∧
    (∀ (k : Nat), k < ws.length → k < outs.length →
      (process (ws.map some) outs m).2.2[k]? = (process (ws.map some) outs m).2.1[k]?) := by
  intro ws
  induction ws with
  | nil =>
    intro outs
    induction outs with
    | nil => intro m _ _ _ _; simp [process, allocate]
    | cons o os ih =>
      intro m _ _ hn _
      rw [List.nodup_cons] at hn
      obtain ⟨a, b, c, _⟩ := ih (insertWire o m.length m) (by simp) (by simp) hn.2 (by simp)
      simp only [List.map_nil, process] at a b c
      simp only [List.map_nil, process, allocate]
      refine ⟨?_, b, ?_, by simp⟩
      · intro x _ hx
        rw [List.mem_cons, not_or] at hx
        rw [a x (by simp) hx.2, unitOf_insert_ne _ hx.1]
      · simp only [List.map_cons]
        rw [a o (by simp) hn.1, unitOf_insert_self, c]
  | cons w ws ih =>
    intro outs m hnw hw hn hd
    rw [List.nodup_cons] at hnw
    obtain ⟨u, hu⟩ := unitOf_some_of_key (hw w (by simp))
    have hterm : terminate (some w) m = (some u, m.filter (fun e => e.1 ≠ w)) := by
      unfold terminate removeWire
      simp only
      unfold unitOf at hu
      rw [hu]
    have hkf : ∀ x ∈ ws, x ∈ keys (m.filter (fun e => e.1 ≠ w)) := by
      intro x hx
      rw [keys_filter, List.mem_filter]
      refine ⟨hw x (by simp [hx]), ?_⟩
      have : x ≠ w := by rintro rfl; exact hnw.1 hx
      simpa using this
    have hws : ∀ x ∈ ws, x ≠ w := by rintro x hx rfl; exact hnw.1 hx
    cases outs with
    | nil =>
      obtain ⟨a, b, c, _⟩ := ih [] (m.filter (fun e => e.1 ≠ w)) hnw.2 hkf (by simp) (by simp)
      simp only [List.map_cons, process, hterm]
      refine ⟨?_, ?_, c, by simp⟩
      · intro x hx hx'
        rw [List.mem_cons, not_or] at hx
        rw [a x hx.2 hx', unitOf_filter_ne hx.1]
      · simp only [Option.toList_some, List.singleton_append, List.map_cons, hu, b]
        congr 1
        exact List.map_congr_left (fun x hx => unitOf_filter_ne (hws x hx))
    | cons o os =>
      rw [List.nodup_cons] at hn
      have how : o ∉ w :: ws := hd o (by simp)
      rw [List.mem_cons, not_or] at how
      obtain ⟨a, b, c, d⟩ := ih os (insertWire o u (m.filter (fun e => e.1 ≠ w))) hnw.2
        (fun x hx => mem_keys_insert.2 (Or.inr (hkf x hx))) hn.2
        (fun x hx hc => hd x (by simp [hx]) (by simp [hc]))
      simp only [List.map_cons, process, hterm]
      refine ⟨?_, ?_, ?_, ?_⟩
      · intro x hx hx'
        rw [List.mem_cons, not_or] at hx hx'
        rw [a x hx.2 hx'.2, unitOf_insert_ne _ hx'.1, unitOf_filter_ne hx.1]
      · simp only [hu, b]
        congr 1
        refine List.map_congr_left (fun x hx => ?_)
        have : x ≠ o := by rintro rfl; exact how.2 hx
        rw [unitOf_insert_ne _ this, unitOf_filter_ne (hws x hx)]
      · rw [a o how.2 hn.1, unitOf_insert_self, c]
      · intro k h1 h2
        cases k with
        | zero => rfl
        | succ k =>
          simp only [List.getElem?_cons_succ]
          exact d k (by simpa using h1) (by simpa using h2)

end Tket.Commands
