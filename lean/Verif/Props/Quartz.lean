import Verif.Lemmas.QuartzLoad

/-
C73: circuits of Quartz files.
-/
namespace Verif.Quartz

open Tket

set_option linter.unusedSectionVars false

variable {R : Type} [Add R]

/-- A circuit of a file with a meaning is loaded, and the graph has that meaning for all parameters. Missing are
circuits whose gates give other names to their qubits. -/
theorem C73_meaning_partial (d : Data) (hk : Kept d) (θ : Nat → R) (m : Meaning R) (h : d.eval θ = some m) :
    ∃ g, load d = some g ∧ g.eval θ = some m := by
  unfold Data.eval at h
  simp only [Option.bind_eq_bind, Option.bind_eq_some_iff] at h
  obtain ⟨qs, h1, vs, h2, ls, h3, h4⟩ := h
  cases h4
  obtain ⟨st, gs, h5, hi⟩ := (Inv.init d θ).all d.cmds hk h1
  have hout := hi.outs hi.full
  have hls : ls = List.range d.nQb := by
    have : ((List.range d.nQb).map Name.q).mapM qs.env = some ((List.range d.nQb).map Val.label) := by
      apply mapM_of_get
      · simp
      · intro k
        by_cases hk : k < d.nQb
        · rw [List.getElem?_map, List.getElem?_map, List.getElem?_range hk]
          exact (hi.home k hk).symm
        · rw [List.getElem?_eq_none (by simpa using hk), List.getElem?_eq_none (by simpa using hk)]
          rfl
    rw [this] at h2
    cases h2
    rw [mapM_label] at h3
    exact (Option.some.inj h3).symm
  have hv : (st.graph d).Valid := by
    refine ⟨hi.typed, ?_, fun w hw => ?_⟩
    · have hl : (st.wires.filterMap id).length = d.nQb := by
        have := mapM_length hout
        simpa using this.symm
      refine List.eq_replicate_iff.mpr ⟨by rw [List.length_map]; exact hl, ?_⟩
      intro t ht
      obtain ⟨w, hw, rfl⟩ := List.mem_map.mp ht
      obtain ⟨k, hk, e⟩ := List.getElem_of_mem hw
      have := hi.wires k w (filterMap_get hi.full (by rw [← e]; exact List.getElem?_eq_getElem hk))
      exact hi.ty w _ this
    · have := hi.once w (mem_qubitWires hw)
      unfold Graph.uses
      rw [List.count_append]
      change _ + (st.wires.filterMap id).count w = 1
      rw [count_filterMap_id]
      exact this
  refine ⟨st.graph d, ?_, ?_⟩
  · unfold load
    rw [h5]
    simp only [Option.bind_eq_bind, Option.bind_some]
    rw [if_pos hv]
  · unfold Graph.eval
    have hr : (st.graph d).nodes.foldlM nodeStep (gInit (st.graph d).nQb (st.graph d).nParam θ) = some gs := hi.run
    rw [hr]
    simp only [Option.bind_eq_bind, Option.bind_some]
    have ho : (st.graph d).outs.mapM gs.env = some ((List.range d.nQb).map .label) := hout
    rw [ho]
    simp only [Option.bind_some, mapM_label]
    rw [hi.acts, hls]

/-- Loaded graphs leave the qubits where they were, whatever the outputs of the gates are called. -/
theorem C73_never_permutes (d : Data) (g : Graph) (θ : Nat → R) (m : Meaning R) (h : load d = some g) (he : g.eval θ = some m) :
    m.outs = List.range d.nQb := by
  unfold load at h
  simp only [Option.bind_eq_bind, Option.bind_eq_some_iff] at h
  obtain ⟨st, h1, h2⟩ := h
  split at h2
  · rename_i hv
    cases h2
    unfold Graph.eval at he
    simp only [Option.bind_eq_bind, Option.bind_eq_some_iff] at he
    obtain ⟨gs, h3, vs, h4, ls, h5, h6⟩ := he
    cases h6
    have hi : Inv1 d θ st gs := Inv1.all d.cmds h1 h3
    have hlen : (st.wires.filterMap id).length = st.wires.length := by
      have := congrArg List.length hv.2.1
      rw [List.length_map, List.length_replicate] at this
      rw [hi.len]
      exact this
    have hfull : none ∉ st.wires := by
      intro hm
      have aux : ∀ l : List (Option Wire), (l.filterMap id).length = l.length → none ∉ l := by
        intro l
        induction l with
        | nil => exact fun _ h => (List.not_mem_nil h).elim
        | cons a l ih =>
          have hle : (l.filterMap id).length ≤ l.length := List.length_filterMap_le id l
          cases a with
          | none =>
            intro h
            have e : (none :: l).filterMap id = l.filterMap id := rfl
            rw [e, List.length_cons] at h
            omega
          | some w =>
            intro h hn
            have e : (some w :: l).filterMap id = w :: l.filterMap id := rfl
            rw [e, List.length_cons, List.length_cons] at h
            rcases List.mem_cons.mp hn with h' | h'
            · cases h'
            · exact ih (by omega) h'
      exact aux _ hlen hm
    have ho : (st.graph d).outs.mapM gs.env = some ((List.range d.nQb).map .label) := hi.outs hfull
    rw [ho] at h4
    cases h4
    rw [mapM_label] at h5
    exact (Option.some.inj h5).symm
  · cases h2

/-- A circuit that swaps the names of its qubits is loaded as another circuit. -/
theorem C73_renamed_outputs :
    ∃ d : Data, ∃ g, load d = some g ∧ d.eval (fun _ => (0 : Nat)) = some ⟨[⟨.CX, [0, 1], []⟩, ⟨.H, [1], []⟩], [1, 0]⟩ ∧
      g.eval (fun _ => (0 : Nat)) = some ⟨[⟨.CX, [0, 1], []⟩, ⟨.H, [0], []⟩], [0, 1]⟩ :=
  ⟨⟨2, 0, ["a"], [⟨"cx", [.q 1, .q 0], [.q 0, .q 1]⟩, ⟨"h", [.q 0], [.q 0]⟩]⟩,
    ⟨2, 0, [(.gate .CX, [.inp 0, .inp 1]), (.gate .H, [.out 0 0])], [.out 1 0, .out 0 1]⟩, by decide +kernel, by decide +kernel, by decide +kernel⟩

theorem mapM_map {α β γ : Type} {f : α → Option β} {p : β → γ} {q : α → Option γ} (hpq : ∀ a b, f a = some b → q a = some (p b)) :
    ∀ {xs : List α} {ys : List β}, xs.mapM f = some ys → xs.map q = ys.map (fun y => some (p y))
  | [], ys, h => by cases h; rfl
  | x :: xs, ys, h => by
    obtain ⟨y, ys', h1, h2, rfl⟩ := mapM_cons'.mp h
    simp only [List.map_cons, hpq x y h1, mapM_map hpq h2]

theorem insertClass_fold : ∀ (es m : List (String × List Graph)), (m.map (·.1) ++ es.map (·.1)).Nodup → es.foldl insertClass m = m ++ es
  | [], m, _ => by simp
  | e :: es, m, h => by
    have hf : insertClass m e = m ++ [e] := by
      unfold insertClass
      rw [List.filter_eq_self.mpr]
      intro x hx
      simp only [ne_eq, decide_eq_true_eq]
      intro he
      rw [List.nodup_append] at h
      exact h.2.2 x.1 (List.mem_map.mpr ⟨x, hx, rfl⟩) e.1 (by simp) he
    rw [List.foldl_cons, hf, insertClass_fold es _ (by simpa using h), List.append_assoc]
    rfl

/-- All classes of a file are loaded, in the order of the file and with all their circuits. Missing are files in
which two classes begin with the same identifier. -/
theorem C73_classes_partial (cs : List (List Data)) (hd : (cs.map (fun c => c.head?.bind (·.ids.head?))).Nodup)
    (r : List (String × List Graph)) (h : loadSet cs = some r) :
    r.length = cs.length ∧ ∀ (k : Nat) (c : List Data), cs[k]? = some c → ∃ id gs, r[k]? = some (id, gs) ∧
      c.head?.bind (·.ids.head?) = some id ∧ gs.length = c.length ∧
      ∀ (j : Nat) (d : Data), c[j]? = some d → ∃ g, gs[j]? = some g ∧ load d = some g := by
  unfold loadSet at h
  simp only [Option.bind_eq_bind, Option.bind_eq_some_iff] at h
  obtain ⟨es, h1, h2⟩ := h
  have hclass : ∀ c e, loadClass c = some e → c.head?.bind (·.ids.head?) = some e.1 ∧ c.mapM load = some e.2 := by
    intro c e hc
    unfold loadClass at hc
    simp only [Option.bind_eq_bind, Option.bind_eq_some_iff] at hc
    obtain ⟨d, a1, id, a2, gs, a3, a4⟩ := hc
    cases a4
    refine ⟨?_, a3⟩
    rw [a1]
    exact a2
  have hids := mapM_map (p := (·.1)) (fun c e hc => (hclass c e hc).1) h1
  have hnd : (es.map (·.1)).Nodup := by
    rw [hids] at hd
    have : es.map (fun y => some y.1) = (es.map (·.1)).map some := by rw [List.map_map]; rfl
    rw [this] at hd
    exact List.Nodup.of_map _ hd
  rw [insertClass_fold es [] (by simpa using hnd)] at h2
  cases h2
  refine ⟨by simpa using mapM_length h1, fun k c hc => ?_⟩
  have hg := mapM_get h1 k
  rw [hc, Option.bind_some] at hg
  have hlt : k < es.length := by
    rw [mapM_length h1]
    exact (List.getElem?_eq_some_iff.mp hc).1
  rw [List.getElem?_eq_getElem hlt] at hg
  obtain ⟨b1, b2⟩ := hclass c _ hg.symm
  refine ⟨es[k].1, es[k].2, by simp [hlt], b1, mapM_length b2, fun j d hj => ?_⟩
  have hgj := mapM_get b2 j
  rw [hj, Option.bind_some] at hgj
  have hlt' : j < (es[k].2).length := by
    rw [mapM_length b2]
    exact (List.getElem?_eq_some_iff.mp hj).1
  rw [List.getElem?_eq_getElem hlt'] at hgj
  exact ⟨_, List.getElem?_eq_getElem hlt', hgj.symm⟩

/-- Of two classes whose first circuits have the same identifier only one is loaded, and an empty class is a
panic. -/
theorem C73_class_lost :
    ∃ a b : List Data, ∃ ga gb, a.mapM load = some ga ∧ b.mapM load = some gb ∧ ga ≠ gb ∧
      loadSet [a, b] = some [("x", gb)] ∧ loadSet [[]] = none :=
  ⟨[⟨1, 0, ["x"], [⟨"h", [.q 0], [.q 0]⟩]⟩], [⟨1, 0, ["x"], []⟩],
    [⟨1, 0, [(.gate .H, [.inp 0])], [.out 0 0]⟩], [⟨1, 0, [], [.inp 0]⟩],
    by decide +kernel, by decide +kernel, by decide +kernel, by decide +kernel, by decide +kernel⟩

/-- The hypotheses are satisfiable: angles are added and used in a rotation. -/
example : ∃ d : Data, Kept d ∧ d.eval (fun i => i + 3) = some ⟨[⟨.H, [0], []⟩, ⟨.CX, [1, 0], []⟩, ⟨.Rz, [1], [7]⟩], [0, 1]⟩ ∧
    (load d).isSome = true := by
  refine ⟨⟨2, 2, [], [⟨"add", [.p 2], [.p 0, .p 1]⟩, ⟨"h", [.q 0], [.q 0]⟩, ⟨"cx", [.q 1, .q 0], [.q 1, .q 0]⟩,
    ⟨"rz", [.q 1], [.q 1, .p 2]⟩]⟩, ?_, by decide +kernel, by decide +kernel⟩
  intro c hc g hg
  simp only [List.mem_cons, List.not_mem_nil, or_false] at hc
  rcases hc with rfl | rfl | rfl | rfl
  · have : quartzNames.lookup "add" = some .radd := by decide +kernel
    rw [this] at hg
    cases hg
  · have : quartzNames.lookup "h" = some (.gate .H) := by decide +kernel
    rw [this] at hg
    cases hg
    rfl
  · have : quartzNames.lookup "cx" = some (.gate .CX) := by decide +kernel
    rw [this] at hg
    cases hg
    rfl
  · have : quartzNames.lookup "rz" = some (.gate .Rz) := by decide +kernel
    rw [this] at hg
    cases hg
    rfl

end Verif.Quartz
