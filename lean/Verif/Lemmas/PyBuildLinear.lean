import Verif.Lemmas.PyBuild

namespace Verif.PyBuild

variable {L : Type}

theorem count_sets_old {node k : Nat} {rs : List Nat} {t : List Wire} {w : Wire} (hw : w.node ≠ node)
    (hd : rs.Nodup) (hr : ∀ r ∈ rs, r < t.length) :
    (rs.map fun r => t[r]?.getD ⟨0, 0⟩).count w + (sets node k rs t).count w = t.count w := by
  induction rs generalizing k t with
  | nil => simp [sets]
  | cons r rs ih =>
    rw [List.nodup_cons] at hd
    have h1 := ih (k := k + 1) (t := t.set r ⟨node, k⟩) hd.2
      (fun r' h' => by simpa using hr r' (by simp [h']))
    have h2 : (rs.map fun r' => (t.set r ⟨node, k⟩)[r']?.getD ⟨0, 0⟩) =
        rs.map fun r' => t[r']?.getD ⟨0, 0⟩ := by
      apply List.map_congr_left
      intro r' h'
      have : r ≠ r' := fun h => hd.1 (h ▸ h')
      rw [List.getElem?_set_ne this]
    rw [h2] at h1
    have hlt := hr r (by simp)
    have h3 : (t.set r ⟨node, k⟩).count w = t.count w - (if t[r] == w then 1 else 0) := by
      rw [List.count_set hlt]
      have : ((⟨node, k⟩ : Wire) == w) = false := by
        simp only [beq_eq_false_iff_ne, ne_eq]
        intro h; exact hw (h ▸ rfl)
      simp [this]
    have h4 : (if t[r] == w then 1 else 0) ≤ t.count w := by
      split_ifs with h5
      · have : t[r] = w := by simpa using h5
        have : w ∈ t := this ▸ List.getElem_mem hlt
        exact List.count_pos_iff.2 this
      · omega
    rw [List.map_cons, List.count_cons, sets]
    have h5 : t[r]?.getD ⟨0, 0⟩ = t[r] := by simp [hlt]
    rw [h5]
    omega

theorem count_sets_new {node k : Nat} {rs : List Nat} {t : List Wire} {w : Wire} (hw : w.node = node)
    (hd : rs.Nodup) (hr : ∀ r ∈ rs, r < t.length) (ht : ∀ r ∈ rs, t[r]?.getD ⟨0, 0⟩ ≠ w) :
    (sets node k rs t).count w = t.count w + if k ≤ w.port ∧ w.port < k + rs.length then 1 else 0 := by
  induction rs generalizing k t with
  | nil => simp [sets]
  | cons r rs ih =>
    rw [List.nodup_cons] at hd
    have hlt := hr r (by simp)
    have h1 := ih (k := k + 1) (t := t.set r ⟨node, k⟩) hd.2
      (fun r' h' => by simpa using hr r' (by simp [h'])) (by
        intro r' h'
        have : r ≠ r' := fun h => hd.1 (h ▸ h')
        rw [List.getElem?_set_ne this]
        exact ht r' (by simp [h']))
    rw [sets, h1, List.count_set hlt]
    have h2 : (t[r] == w) = false := by
      have := ht r (by simp)
      simpa [hlt] using this
    have h3 : ((⟨node, k⟩ : Wire) == w) = decide (w.port = k) := by
      rw [Bool.eq_iff_iff]
      simp only [beq_iff_eq, decide_eq_true_eq]
      constructor
      · intro h; rw [← h]
      · intro h; cases w; simp_all
    rw [h2, h3]
    simp only [List.length_cons, decide_eq_true_eq, Bool.false_eq_true, if_false]
    split_ifs <;> omega

/-- Every qubit wire is used or tracked, once. -/
structure Lin (st : St L) : Prop where
  tr : ∀ w ∈ st.tracked, wireTy st.qubits st.nodes w = some .qubit
  ins : ∀ w ∈ (st.nodes.map Node.ins).flatten, w.node ≤ st.nodes.length
  once : ∀ w, wireTy st.qubits st.nodes w = some .qubit →
    (st.nodes.map Node.ins).flatten.count w + st.tracked.count w = 1

/-- The first outputs of the operation are the qubits it was applied to, the other outputs are not
qubits. -/
def Keeps (c : Com L) : Prop :=
  ∀ k, (c.outs[k]? = some .qubit ↔ k < c.args.length)

theorem lin_after {st : St L} {c : Com L} {rs : List Nat} (hw : Wf st) (hl : Lin st) (hk : Keeps c)
    (hlen : rs.length = c.args.length) (hd : rs.Nodup) (hr : ∀ r ∈ rs, r < st.tracked.length) :
    Lin (after st c rs) := by
  have hws : ∀ w ∈ rs.map fun r => st.tracked[r]?.getD ⟨0, 0⟩, w ∈ st.tracked := by
    intro w h
    obtain ⟨r, h1, rfl⟩ := List.mem_map.1 h
    exact get_mem (hr r h1)
  refine ⟨?_, ?_, ?_⟩
  · intro w h
    rcases sets_mem h with h1 | ⟨h1, _, h3⟩
    · simp only [after]; rw [wireTy_old (hw.2 w h1)]; exact hl.tr w h1
    · simp only [after, wireTy, if_pos h1]
      exact (hk _).2 (by omega)
  · intro w h
    simp only [after, List.map_cons, List.flatten_cons, List.mem_append] at h
    simp only [after, List.length_cons]
    rcases h with h | h
    · have := hw.2 w (hws w h); omega
    · have := hl.ins w h; omega
  · intro w h
    simp only [after, List.map_cons, List.flatten_cons, List.count_append]
    by_cases hn : w.node = st.nodes.length + 1
    · have h1 : (rs.map fun r => st.tracked[r]?.getD ⟨0, 0⟩).count w = 0 := by
        rw [List.count_eq_zero]
        intro hm
        have := hw.2 w (hws w hm); omega
      have h2 : ((st.nodes.map Node.ins).flatten).count w = 0 := by
        rw [List.count_eq_zero]
        intro hm
        have := hl.ins w hm; omega
      have h3 : st.tracked.count w = 0 := by
        rw [List.count_eq_zero]
        intro hm
        have := hw.2 w hm; omega
      simp only [after, wireTy, if_pos hn] at h
      have h4 := (hk _).1 h
      rw [h1, h2, count_sets_new hn hd hr, h3, if_pos (by omega)]
      intro r h5 h6
      have := hw.2 w (h6 ▸ get_mem (hr r h5)); omega
    · have h1 := count_sets_old (k := 0) hn hd hr
      have h2 : w.node ≤ st.nodes.length := by
        have := wireTy_node h
        simp only [after, List.length_cons] at this; omega
      simp only [after] at h
      rw [wireTy_old h2] at h
      have := hl.once w h
      omega

theorem lin_init (n : Nat) : Lin (withNqb n : St L) := by
  refine ⟨?_, by simp [withNqb], ?_⟩
  · intro w h
    simp only [withNqb, List.mem_map, List.mem_range] at h
    obtain ⟨i, h1, rfl⟩ := h
    simp [withNqb, wireTy, h1]
  · intro w h
    simp only [withNqb, wireTy] at h
    split_ifs at h with h1
    simp only [withNqb, List.map_nil, List.flatten_nil, List.count_nil, Nat.zero_add]
    apply List.count_eq_one_of_mem
    · apply List.Nodup.map _ List.nodup_range
      intro a b hab
      simpa using hab
    · rw [List.mem_map]
      exact ⟨w.port, List.mem_range.2 h1.2, by cases w; simp_all⟩

theorem extend_lin {st st' : St L} {cs : List (Com L)} (hw : Wf st) (hl : Lin st)
    (hi : ∀ c ∈ cs, Indexed c) (hk : ∀ c ∈ cs, Keeps c)
    (hd : ∀ c ∈ cs, ∀ rs, List.Forall₂ (Is st.qubits) c.args rs → rs.Nodup)
    (h : extend st cs = .ok st') : Lin st' ∧ st'.qubits = st.qubits ∧ Wf st' := by
  induction cs generalizing st with
  | nil => cases h; exact ⟨hl, rfl, hw⟩
  | cons c cs ih =>
    rw [extend] at h
    cases h1 : add st c with
    | error e => rw [h1] at h; cases h
    | ok s1 =>
      rw [h1] at h
      obtain ⟨rs, h2, rfl, h3⟩ := add_regs hw (hi c (by simp)) h1
      have hr : ∀ r ∈ rs, r < st.tracked.length := hw.1 ▸ forall2_lt h2
      exact ih (st := after st c rs) (wf_after hw) (lin_after hw hl (hk c (by simp)) h2.length_eq.symm (hd c (by simp) rs h2) hr)
        (fun c hc => hi c (by simp [hc])) (fun c hc => hk c (by simp [hc]))
        (fun c hc => hd c (by simp [hc])) h

end Verif.PyBuild
