import Verif.Lemmas.BorrowSquashSem

/-!
# Properties of the borrow-squash pass (C27)
-/

namespace Tket.BorrowSquash

/-! ## The pairs found by the scan can be elided one after the other -/

/-- `ElidesTo l ps l'`: the pairs `ps` can be removed from the operations `l`, in order, each being a
return followed by a borrow at the same index, with a remaining borrow before; `l'` is left. -/
inductive ElidesTo : List Step → List (Nat × Nat) → List Step → Prop where
  | nil (l : List Step) : ElidesTo l [] l
  | cons {pre mid post l' : List Step} {r b : Step} {ps : List (Nat × Nat)} :
      Elidable pre mid r b → ElidesTo (pre ++ (mid ++ post)) ps l' →
      ElidesTo (pre ++ r :: (mid ++ b :: post)) ((r.node, b.node) :: ps) l'

theorem ElidesTo.append {l l' : List Step} {ps : List (Nat × Nat)} (h : ElidesTo l ps l')
    (m : List Step) : ElidesTo (l ++ m) ps (l' ++ m) := by
  induction h with
  | nil l => exact .nil _
  | @cons pre mid post l' r b ps h1 _ ih =>
    have e1 : pre ++ r :: (mid ++ b :: post) ++ m = pre ++ r :: (mid ++ b :: (post ++ m)) := by simp
    have e2 : pre ++ (mid ++ post) ++ m = pre ++ (mid ++ (post ++ m)) := by simp
    rw [e1]
    exact .cons h1 (by rw [← e2]; exact ih)

theorem ElidesTo.snoc {l pre mid post : List Step} {r b : Step} {ps : List (Nat × Nat)}
    (h : ElidesTo l ps (pre ++ r :: (mid ++ b :: post))) (he : Elidable pre mid r b) :
    ElidesTo l (ps ++ [(r.node, b.node)]) (pre ++ (mid ++ post)) := by
  generalize hl : pre ++ r :: (mid ++ b :: post) = l' at h
  induction h with
  | nil l => rw [← hl]; exact .cons he (.nil _)
  | cons h1 _ ih => exact .cons h1 (ih hl)

theorem opsAt_append (i : Nat) (l m : List Step) : opsAt i (l ++ m) = opsAt i l ++ opsAt i m :=
  List.filter_append ..

theorem opsAt_single (i : Nat) (s : Step) : opsAt i [s] = if s.idx = i then [s] else [] := by
  unfold opsAt
  split
  · rename_i h; simp [h]
  · rename_i h; simp [h]

/-- Splitting a list at the last operation on an index. -/
theorem split_last {i : Nat} {l f : List Step} {x : Step} (h : opsAt i l = f ++ [x]) :
    ∃ pre mid, l = pre ++ x :: mid ∧ opsAt i pre = f ∧ opsAt i mid = [] ∧ x.idx = i := by
  induction l using List.reverseRecOn generalizing f x with
  | nil => simp [opsAt] at h
  | append_singleton l s ih =>
    rw [opsAt_append, opsAt_single] at h
    by_cases hs : s.idx = i
    · rw [if_pos hs] at h
      obtain ⟨h1, h2⟩ := List.append_inj' h rfl
      simp only [List.cons.injEq, and_true] at h2
      subst h2
      exact ⟨l, [], by simp, h1, rfl, hs⟩
    · rw [if_neg hs, List.append_nil] at h
      obtain ⟨pre, mid, h1, h2, h3, h4⟩ := ih h
      refine ⟨pre, mid ++ [s], by rw [h1]; simp, h2, ?_, h4⟩
      rw [opsAt_append, h3, opsAt_single, if_neg hs]
      rfl

/-- What the map `borrowed` records about the operations left at index `i`. -/
def Records (l : List Step) (i : Nat) : Option (Nat × Option Nat) → Prop
  | none => True
  | some (b, none) => ∃ f x, opsAt i l = f ++ [x] ∧ x.isBorrow = true ∧ x.node = b
  | some (b, some r) => ∃ f x y, opsAt i l = f ++ [x, y] ∧ x.isBorrow = true ∧ x.node = b ∧
      y.isBorrow = false ∧ y.node = r

structure ScanInv (l : List Step) (st : Scan) (l' : List Step) : Prop where
  elides : ElidesTo l st.pairs l'
  records : ∀ i, Records l' i (st.borrowed i)

theorem Records.other {l : List Step} {i : Nat} {e : Option (Nat × Option Nat)} (h : Records l i e)
    {l' : List Step} (hl : opsAt i l' = opsAt i l) : Records l' i e := by
  match e, h with
  | none, _ => trivial
  | some (b, none), h => simpa only [Records, hl] using h
  | some (b, some r), h => simpa only [Records, hl] using h

theorem scan_step {l l' : List Step} {st : Scan} (h : ScanInv l st l') (s : Step) :
    ∃ l'', ScanInv (l ++ [s]) (st.step s) l'' := by
  obtain ⟨h1, h2⟩ := h
  have happ := h1.append [s]
  have hops : opsAt s.idx (l' ++ [s]) = opsAt s.idx l' ++ [s] := by
    rw [opsAt_append, opsAt_single, if_pos rfl]
  have hoth : ∀ i, i ≠ s.idx → opsAt i (l' ++ [s]) = opsAt i l' := by
    intro i hi
    rw [opsAt_append, opsAt_single, if_neg (Ne.symm hi), List.append_nil]
  have hs := h2 s.idx
  -- a new entry at the index, everything else kept
  have upd : ∀ e, Records (l' ++ [s]) s.idx e →
      ∀ i, Records (l' ++ [s]) i (Function.update st.borrowed s.idx e i) := by
    intro e he i
    by_cases hi : i = s.idx
    · subst hi; rw [Function.update_self]; exact he
    · rw [Function.update_of_ne hi]
      exact (h2 i).other (hoth i hi)
  unfold Scan.step
  match hb : s.isBorrow, he : st.borrowed s.idx with
  | true, none =>
    exact ⟨l' ++ [s], happ, upd _ ⟨opsAt s.idx l', s, hops, hb, rfl⟩⟩
  | false, some (b, none) =>
    rw [he] at hs
    obtain ⟨f, x, k1, k2, k3⟩ := hs
    exact ⟨l' ++ [s], happ, upd _ ⟨f, x, s, by rw [hops, k1]; simp, k2, k3, hb, rfl⟩⟩
  | false, some (_, some _) => exact ⟨l' ++ [s], happ, upd _ trivial⟩
  | true, some (_, none) => exact ⟨l' ++ [s], happ, upd _ trivial⟩
  | false, none =>
    refine ⟨l' ++ [s], happ, ?_⟩
    intro i
    by_cases hi : i = s.idx
    · subst hi; rw [he]; trivial
    · exact (h2 i).other (hoth i hi)
  | true, some (b, some r) =>
    rw [he] at hs
    obtain ⟨f, x, y, k1, k2, k3, k4, k5⟩ := hs
    have k1' : opsAt s.idx l' = (f ++ [x]) ++ [y] := by rw [k1]; simp
    obtain ⟨pre, mid, q1, q2, q3, q4⟩ := split_last k1'
    have hel : Elidable pre mid y s :=
      ⟨k4, hb, q4.symm, by rw [q4]; exact ⟨f, x, q2, k2⟩, by rw [q4]; exact q3⟩
    have happ' : ElidesTo (l ++ [s]) st.pairs (pre ++ y :: (mid ++ s :: [])) := by
      have e : l' ++ [s] = pre ++ y :: (mid ++ s :: []) := by rw [q1]; simp
      rw [← e]; exact happ
    refine ⟨pre ++ (mid ++ []), ?_, ?_⟩
    · rw [← k5]; exact happ'.snoc hel
    · intro i
      by_cases hi : i = s.idx
      · subst hi
        change Records _ _ (Function.update st.borrowed s.idx (some (b, none)) s.idx)
        rw [Function.update_self]
        exact ⟨f, x, by rw [List.append_nil, opsAt_append, q2, q3, List.append_nil], k2, k3⟩
      · change Records _ _ (Function.update st.borrowed s.idx (some (b, none)) i)
        rw [Function.update_of_ne hi]
        refine (h2 i).other ?_
        rw [q1, List.append_nil, opsAt_append, opsAt_append]
        congr 1
        unfold opsAt
        rw [List.filter_cons_of_neg]
        simp only [decide_eq_true_eq]
        rw [q4]; exact Ne.symm hi

theorem scan_inv (l : List Step) : ∃ l', ScanInv l (scan l) l' := by
  induction l using List.reverseRecOn with
  | nil => exact ⟨[], .nil _, fun _ => trivial⟩
  | append_singleton l s ih =>
    obtain ⟨l', h⟩ := ih
    have e : scan (l ++ [s]) = (scan l).step s := by unfold scan; rw [List.foldl_append]; rfl
    rw [e]
    exact scan_step h s

/-! ## Eliding all pairs -/

theorem elideAll_spec {l l' : List Step} {ps : List (Nat × Nat)} (h : ElidesTo l ps l') :
    ∀ {g : G} {w : Port}, WF g → IsChain g w l →
    ∃ g', g.elideAll ps = some g' ∧ Same g g' ∧ WF g' ∧ IsChain g' w l' ∧ Equiv g g' ∧
      (∀ m, m ∈ g'.nodes ↔ m ∈ g.nodes ∧ ∀ p ∈ ps, m ≠ p.1 ∧ m ≠ p.2) := by
  induction h with
  | nil l =>
    intro g w hg hc
    exact ⟨g, rfl, Same.refl g, hg, hc, Equiv.refl g, fun m => by simp⟩
  | @cons pre mid post l' r b ps h1 _ ih =>
    intro g w hg hc
    obtain ⟨g1, e1, s1, w1, n1, c1, q1⟩ := elide_one hg hc h1
    obtain ⟨g2, e2, s2, w2, c2, q2, n2⟩ := ih w1 c1
    refine ⟨g2, ?_, s1.trans s2, w2, c2, q1.trans s1.op s2.op q2, ?_⟩
    · simp only [G.elideAll, e1, Option.bind_some, e2]
    · intro m
      rw [n2, n1]
      simp only [List.mem_cons, forall_eq_or_imp]
      tauto

theorem findConst_some {g : G} {n i : Nat} (h : g.findConst n = some (some i)) : HasIdx g n i := by
  unfold G.findConst at h
  split at h
  · simp at h
  · rename_i m hm
    split at h
    · rename_i c hc
      simp only [Option.some.injEq] at h
      subst h
      exact ⟨m, (srcOf_mem hm).1, hc⟩
    · simp at h

theorem findConst_ok {g : G} (hg : WF g) {n : Nat} {s : Port} (h : (s, (n, 1)) ∈ g.links) :
    ∃ c, g.findConst n = some c := by
  have := srcOf_eq h (fun s' h' => hg.func _ _ _ h' h)
  unfold G.findConst
  rw [this]
  simp only
  split
  · exact ⟨_, rfl⟩
  · exact ⟨_, rfl⟩

theorem nextOp_spec {g : G} (hg : WF g) {w : Port} {k : Nat} {t : Ty} (hw : w.1 ∈ g.nodes)
    (ht : g.tyOut w = .array k t) :
    ∃ o, g.nextOp w = some o ∧ ∀ s, o = some s →
      (w, (s.node, 0)) ∈ g.links ∧ StepOk g s ∧ g.tyOut (s.node, 0) = .array k t := by
  obtain ⟨⟨n, q⟩, hl⟩ := hg.array_used w k t hw ht
  have htgt := tgtOf_eq hl (fun d' h' => hg.linear _ _ _ (by rw [ht]; rfl) h' hl)
  have hty := hg.typed _ _ hl
  rw [ht] at hty
  have hn : n ∈ g.nodes := (hg.ends _ _ hl).2
  unfold G.nextOp
  rw [htgt]
  simp only
  match ho : g.op n with
  | .borrow =>
    obtain ⟨k', t', e1, e2, e3, e4⟩ := hg.borrow_ty n ho
    have hq := (hg.borrow_ports n ho).1 w q hl
    have hq0 : q = 0 := by
      rcases q with _ | _ | q
      · rfl
      · simp only [Nat.zero_add] at hty; rw [e2] at hty; cases hty
      · omega
    subst hq0
    rw [e1] at hty
    obtain ⟨s1, h1⟩ := hg.borrow_in n hn ho 1 (by omega)
    obtain ⟨c, hc⟩ := findConst_ok hg h1
    simp only [if_true, hc, Option.map_some]
    refine ⟨_, rfl, ?_⟩
    intro s hs
    obtain ⟨i, rfl, rfl⟩ := Option.map_eq_some_iff.1 hs
    exact ⟨hl, ⟨ho, findConst_some hc⟩, by rw [e3, hty]⟩
  | .ret =>
    obtain ⟨k', t', e1, e2, e3, e4⟩ := hg.ret_ty n ho
    have hq := (hg.ret_ports n ho).1 w q hl
    rcases q with _ | _ | _ | q
    · rw [e1] at hty
      obtain ⟨s1, h1⟩ := hg.ret_in n hn ho 1 (by omega)
      obtain ⟨c, hc⟩ := findConst_ok hg h1
      simp only [if_true, hc, Option.map_some]
      refine ⟨_, rfl, ?_⟩
      intro s hs
      obtain ⟨i, rfl, rfl⟩ := Option.map_eq_some_iff.1 hs
      exact ⟨hl, ⟨ho, findConst_some hc⟩, by rw [e4, hty]⟩
    · simp only [Nat.zero_add] at hty; rw [e2] at hty; cases hty
    · exact ⟨none, by simp, fun s hs => by cases hs⟩
    · omega
  | .load c => exact ⟨none, rfl, fun s hs => by cases hs⟩
  | .other => exact ⟨none, rfl, fun s hs => by cases hs⟩

theorem steps_spec {g : G} (hg : WF g) (fuel : Nat) : ∀ {w : Port} {k : Nat} {t : Ty},
    w.1 ∈ g.nodes → g.tyOut w = .array k t → ∃ l, g.steps fuel w = some l ∧ IsChain g w l := by
  induction fuel with
  | zero => intro w k t _ _; exact ⟨[], rfl, trivial⟩
  | succ fuel ih =>
    intro w k t hw ht
    obtain ⟨o, ho, hs⟩ := nextOp_spec hg hw ht
    unfold G.steps
    rw [ho]
    match o with
    | none => exact ⟨[], rfl, trivial⟩
    | some s =>
      obtain ⟨h1, h2, h3⟩ := hs s rfl
      obtain ⟨l, e, hc⟩ := ih (w := (s.node, 0)) (hg.ends _ _ h1).2 h3
      exact ⟨s :: l, by simp only [e, Option.map_some], h1, h2, hc⟩

/-! ## C27 -/

/-- The removed nodes: pairs of a return and a borrow with the same constant index. -/
def PairOk (g : G) (p : Nat × Nat) : Prop :=
  ∃ i, g.op p.1 = .ret ∧ g.op p.2 = .borrow ∧ HasIdx g p.1 i ∧ HasIdx g p.2 i

theorem elidesTo_mem {l l' : List Step} {ps : List (Nat × Nat)} (h : ElidesTo l ps l') :
    (∀ p ∈ ps, ∃ r b, r ∈ l ∧ b ∈ l ∧ r.node = p.1 ∧ b.node = p.2 ∧ r.isBorrow = false ∧
      b.isBorrow = true ∧ b.idx = r.idx) ∧ ∀ s ∈ l', s ∈ l := by
  induction h with
  | nil l => exact ⟨fun p h => absurd h (by simp), fun s h => h⟩
  | @cons pre mid post l' r b ps h1 _ ih =>
    have sub : ∀ s ∈ pre ++ (mid ++ post), s ∈ pre ++ r :: (mid ++ b :: post) := by
      intro s hs
      simp only [List.mem_append, List.mem_cons] at hs ⊢
      tauto
    refine ⟨?_, fun s hs => sub s (ih.2 s hs)⟩
    intro p hp
    rcases List.mem_cons.1 hp with rfl | hp
    · exact ⟨r, b, by simp, by simp, rfl, rfl, h1.ret, h1.bor, h1.idx⟩
    · obtain ⟨r', b', k1, k2, k3⟩ := ih.1 p hp
      exact ⟨r', b', sub _ k1, sub _ k2, k3⟩

/-- **C27.** One traversal, from any wire of a valid region: it does not panic, the region stays valid
(types, linearity, no cycles), exactly the reported nodes — pairs of a return and a borrow with the same
constant index — disappear, and the behaviour is the same: for whatever meaning of the other operations
and whatever inputs, the same values flow into and out of every other operation, and the new region
panics if and only if the old one does. -/
theorem C27_traversal_preserves_behaviour (g : G) (hg : WF g) (fuel : Nat) (w : Port)
    (hw : w.1 ∈ g.nodes) :
    ∃ g' ps, g.squash fuel w = some (g', ps) ∧ WF g' ∧ Equiv g g' ∧
      g'.op = g.op ∧ g'.tyIn = g.tyIn ∧ g'.tyOut = g.tyOut ∧
      (∀ p ∈ ps, PairOk g p) ∧
      (∀ m, m ∈ g'.nodes ↔ m ∈ g.nodes ∧ ∀ p ∈ ps, m ≠ p.1 ∧ m ≠ p.2) := by
  unfold G.squash
  match ht : g.tyOut w with
  | .other _ _ =>
    exact ⟨g, [], rfl, hg, Equiv.refl g, rfl, rfl, rfl, fun p h => absurd h (by simp), by simp⟩
  | .array k t =>
    obtain ⟨l, hl, hc⟩ := steps_spec hg fuel hw ht
    obtain ⟨l', hinv⟩ := scan_inv l
    obtain ⟨g', e, s, wf, _, eqv, nd⟩ := elideAll_spec hinv.elides hg hc
    refine ⟨g', (scan l).pairs, ?_, wf, eqv, s.op, s.tyIn, s.tyOut, ?_, nd⟩
    · simp only [hl, Option.bind_some, e, Option.map_some]
    · intro p hp
      obtain ⟨r, b, k1, k2, k3, k4, k5, k6, k7⟩ := (elidesTo_mem hinv.elides).1 p hp
      obtain ⟨r1, r2⟩ := (chain_mem_ok hc r k1).1
      obtain ⟨b1, b2⟩ := (chain_mem_ok hc b k2).1
      rw [k5, k3] at r1
      rw [k6, k4] at b1
      rw [k3] at r2
      rw [k7, k4] at b2
      exact ⟨r.idx, r1, b1, r2, b2⟩

/-- **C27.** A wire that leaves anything but a borrow or return with constant index stays: the wires put
on the worklist still exist when they are taken off. -/
theorem C27_worklist_wires_survive (g : G) (hg : WF g) (fuel : Nat) (w : Port) (hw : w.1 ∈ g.nodes)
    (g' : G) (ps : List (Nat × Nat)) (h : g.squash fuel w = some (g', ps)) (n : Nat) (hn : n ∈ g.nodes)
    (hno : (g.op n ≠ .borrow ∧ g.op n ≠ .ret) ∨ ∀ i, ¬ HasIdx g n i) : n ∈ g'.nodes := by
  obtain ⟨g1, ps1, e, _, _, _, _, _, hp, hnd⟩ := C27_traversal_preserves_behaviour g hg fuel w hw
  rw [h] at e
  injection e with e
  injection e with e1 e2
  subst e1
  subst e2
  rw [hnd]
  refine ⟨hn, fun p hps => ?_⟩
  obtain ⟨i, o1, o2, i1, i2⟩ := hp p hps
  constructor
  · rintro rfl
    rcases hno with ⟨_, h⟩ | h
    · exact h o1
    · exact h i i1
  · rintro rfl
    rcases hno with ⟨h, _⟩ | h
    · exact h o2
    · exact h i i2

/-! ## Recursion into nested arrays -/

def Ty.size : Ty → Nat
  | .array _ t => t.size + 1
  | .other _ _ => 0

/-- Type of the array a borrow or return works on. -/
def arrTy (g : G) (n : Nat) : Ty := g.tyIn (n, 0)

theorem chain_arrTy {g : G} (hg : WF g) {w : Port} {l : List Step} (h : IsChain g w l) :
    ∀ s ∈ l, arrTy g s.node = g.tyOut w := by
  induction l generalizing w with
  | nil => intro s hs; cases hs
  | cons a l ih =>
    obtain ⟨h1, h2, h3⟩ := h
    have e1 : arrTy g a.node = g.tyOut w := (hg.typed _ _ h1).symm
    have e2 : g.tyOut (a.node, 0) = g.tyOut w := chain_type hg (l := [a]) ⟨h1, h2, trivial⟩
    intro s hs
    rcases List.mem_cons.1 hs with rfl | hs
    · exact e1
    · rw [ih h3 s hs, e2]

/-- What a traversal from wires of type `t` achieves. -/
structure Good (g g' : G) (t : Ty) (ps : List (Nat × Nat)) : Prop where
  wf : WF g'
  same : Same g g'
  equiv : Equiv g g'
  pairs : ∀ p ∈ ps, g.op p.1 = .ret ∧ g.op p.2 = .borrow ∧
    (arrTy g p.1).size ≤ t.size ∧ (arrTy g p.2).size ≤ t.size
  nodes : ∀ m, m ∈ g'.nodes ↔ m ∈ g.nodes ∧ ∀ p ∈ ps, m ≠ p.1 ∧ m ≠ p.2

theorem Good.trans {a b c : G} {t : Ty} {ps qs : List (Nat × Nat)} (h : Good a b t ps)
    (k : Good b c t qs) : Good a c t (ps ++ qs) := by
  refine ⟨k.wf, h.same.trans k.same, h.equiv.trans h.same.op k.same.op k.equiv, ?_, ?_⟩
  · intro p hp
    rcases List.mem_append.1 hp with hp | hp
    · exact h.pairs p hp
    · have := k.pairs p hp
      rw [h.same.op] at this
      unfold arrTy at *
      rw [h.same.tyIn] at this
      exact this
  · intro m
    rw [k.nodes, h.nodes]
    simp only [List.mem_append]
    constructor
    · rintro ⟨⟨h1, h2⟩, h3⟩
      exact ⟨h1, fun p hp => hp.elim (h2 p) (h3 p)⟩
    · rintro ⟨h1, h2⟩
      exact ⟨⟨h1, fun p hp => h2 p (Or.inl hp)⟩, fun p hp => h2 p (Or.inr hp)⟩

theorem Good.weaken {a b : G} {t u : Ty} {ps : List (Nat × Nat)} (h : Good a b t ps)
    (hs : t.size ≤ u.size) : Good a b u ps :=
  ⟨h.wf, h.same, h.equiv, fun p hp =>
    ⟨(h.pairs p hp).1, (h.pairs p hp).2.1, Nat.le_trans (h.pairs p hp).2.2.1 hs,
      Nat.le_trans (h.pairs p hp).2.2.2 hs⟩, h.nodes⟩

theorem inTurn_spec {f : G → Port → Option (G × List (Nat × Nat))} {t : Ty}
    (hf : ∀ g w, WF g → w.1 ∈ g.nodes → g.tyOut w = t → ∃ g' ps, f g w = some (g', ps) ∧ Good g g' t ps) :
    ∀ (ws : List Port) (g : G), WF g →
      (∀ w ∈ ws, w.1 ∈ g.nodes ∧ g.tyOut w = t ∧ t.size < (arrTy g w.1).size) →
      ∃ g' ps, inTurn f ws g = some (g', ps) ∧ Good g g' t ps := by
  intro ws
  induction ws with
  | nil =>
    intro g hg _
    exact ⟨g, [], rfl, hg, Same.refl g, Equiv.refl g, fun p hp => absurd hp (by simp), fun m => by simp⟩
  | cons w ws ih =>
    intro g hg hw
    obtain ⟨g1, ps, e1, q1⟩ := hf g w hg (hw w (by simp)).1 (hw w (by simp)).2.1
    obtain ⟨g2, qs, e2, q2⟩ := ih g1 q1.wf (by
      intro v hv
      obtain ⟨v1, v2, v3⟩ := hw v (by simp [hv])
      refine ⟨(q1.nodes _).2 ⟨v1, ?_⟩, by rw [q1.same.tyOut]; exact v2, by
        unfold arrTy; rw [q1.same.tyIn]; exact v3⟩
      intro p hp
      obtain ⟨_, _, s1, s2⟩ := q1.pairs p hp
      constructor
      · intro h; rw [h] at v3; omega
      · intro h; rw [h] at v3; omega)
    refine ⟨g2, ps ++ qs, ?_, q1.trans q2⟩
    simp only [inTurn, e1, Option.bind_some, e2, Option.map_some]

theorem starts_spec {l l' : List Step} {st : Scan} (h : ScanInv l st l') {w : Port}
    (hw : w ∈ st.starts l) : ∃ x ∈ l', x.isBorrow = true ∧ w = (x.node, 1) := by
  unfold Scan.starts at hw
  obtain ⟨i, _, hi⟩ := List.mem_filterMap.1 hw
  obtain ⟨⟨b, r⟩, he, rfl⟩ := Option.map_eq_some_iff.1 hi
  have hr := h.records i
  rw [he] at hr
  have mem : ∀ x, x ∈ opsAt i l' → x ∈ l' := fun x hx => (List.mem_filter.1 hx).1
  match r, hr with
  | none, ⟨f, x, k1, k2, k3⟩ => exact ⟨x, mem x (by rw [k1]; simp), k2, by rw [k3]⟩
  | some r, ⟨f, x, y, k1, k2, k3, _, _⟩ => exact ⟨x, mem x (by rw [k1]; simp), k2, by rw [k3]⟩

/-- **C27.** The traversal with its recursion into nested arrays, for every iteration order of the hash
map: it does not panic — in particular all the borrows it recurses from are still there —, the region
stays valid, exactly the reported nodes disappear, and the behaviour is the same. -/
theorem C27_recursive_traversal (ord : List Port → List Port) (hord : ∀ l, (ord l).Perm l) (fuel : Nat)
    (t : Ty) : ∀ (g : G) (w : Port), WF g → w.1 ∈ g.nodes → g.tyOut w = t →
    ∃ g' ps, squashRec ord fuel t g w = some (g', ps) ∧ Good g g' t ps := by
  induction t with
  | other k b =>
    intro g w hg _ _
    exact ⟨g, [], rfl, hg, Same.refl g, Equiv.refl g, fun p hp => absurd hp (by simp), fun m => by simp⟩
  | array k e ih =>
    intro g w hg hw ht
    obtain ⟨l, hl, hc⟩ := steps_spec hg fuel hw ht
    obtain ⟨l', hinv⟩ := scan_inv l
    obtain ⟨g1, e1, s1, wf1, c1, q1, n1⟩ := elideAll_spec hinv.elides hg hc
    have good1 : Good g g1 (.array k e) (scan l).pairs := by
      refine ⟨wf1, s1, q1, ?_, n1⟩
      intro p hp
      obtain ⟨r, b, k1, k2, k3, k4, k5, k6, k7⟩ := (elidesTo_mem hinv.elides).1 p hp
      have r1 := (chain_mem_ok hc r k1).1.1
      have b1 := (chain_mem_ok hc b k2).1.1
      have tr := chain_arrTy hg hc r k1
      have tb := chain_arrTy hg hc b k2
      rw [k5, k3] at r1
      rw [k6, k4] at b1
      rw [k3, ht] at tr
      rw [k4, ht] at tb
      exact ⟨r1, b1, by rw [tr]; exact Nat.le_refl _, by rw [tb]; exact Nat.le_refl _⟩
    obtain ⟨g2, ps2, e2, good2⟩ := inTurn_spec ih (ord ((scan l).starts l)) g1 wf1 (by
      intro v hv
      have hv' := (hord _).mem_iff.1 hv
      obtain ⟨x, k1, k2, rfl⟩ := starts_spec hinv hv'
      obtain ⟨⟨o, _⟩, u, hu, _⟩ := chain_mem_ok c1 x k1
      rw [k2] at o
      have ta : arrTy g1 x.node = .array k e := by
        rw [chain_arrTy wf1 c1 x k1, s1.tyOut, ht]
      refine ⟨(wf1.ends _ _ hu).2, ?_, ?_⟩
      · obtain ⟨k', t', a1, _, _, a2⟩ := wf1.borrow_ty _ o
        rw [a2]
        unfold arrTy at ta
        rw [ta] at a1
        injection a1 with _ a1
        exact a1.symm
      · rw [ta]; simp [Ty.size])
    refine ⟨g2, (scan l).pairs ++ ps2, ?_, good1.trans (good2.weaken (by simp [Ty.size]))⟩
    simp only [squashRec, hl, Option.bind_some, e1, e2, Option.map_some]

/-- The whole pass (`BorrowSquashPass::run`, borrow_squash.rs 51-80): traversals from existing wires, one
after the other. The worklist and the set of wires already seen only decide which wires, and in what
order. -/
inductive PassRun (ord : List Port → List Port) (fuel : Nat) : G → G → Prop where
  | done (g : G) : PassRun ord fuel g g
  | more {g g1 g2 : G} {w : Port} {ps : List (Nat × Nat)} : w.1 ∈ g.nodes →
      squashRec ord fuel (g.tyOut w) g w = some (g1, ps) → PassRun ord fuel g1 g2 → PassRun ord fuel g g2

/-- **C27.** The whole pass yields a valid region with the same behaviour. -/
theorem C27_pass_preserves_behaviour (ord : List Port → List Port) (hord : ∀ l, (ord l).Perm l)
    (fuel : Nat) {g g' : G} (h : PassRun ord fuel g g') (hg : WF g) :
    WF g' ∧ Equiv g g' ∧ g'.op = g.op ∧ g'.tyIn = g.tyIn ∧ g'.tyOut = g.tyOut := by
  induction h with
  | done g => exact ⟨hg, Equiv.refl g, rfl, rfl, rfl⟩
  | @more g g1 g2 w ps hw e _ ih =>
    obtain ⟨g1', ps', e', good⟩ := C27_recursive_traversal ord hord fuel _ g w hg hw rfl
    rw [e] at e'
    injection e' with e'
    injection e' with e1 e2
    subst e1
    obtain ⟨i1, i2, i3, i4, i5⟩ := ih good.wf
    exact ⟨i1, good.equiv.trans good.same.op i3 i2, i3.trans good.same.op, i4.trans good.same.tyIn,
      i5.trans good.same.tyOut⟩

/-! ## How much is elided -/

/-- Borrow, return, borrow, … -/
def Alternates (l : List Step) : Prop := ∀ j s, l[j]? = some s → s.isBorrow = decide (j % 2 = 0)

/-- State of the map and of what is left at an index used properly so far. -/
def Tight (i : Nat) (l l' : List Step) (e : Option (Nat × Option Nat)) : Prop :=
  Alternates (opsAt i l) →
    (e = none ∧ opsAt i l = [] ∧ opsAt i l' = []) ∨
    (∃ b x, e = some (b, none) ∧ (opsAt i l).length % 2 = 1 ∧ opsAt i l' = [x]) ∨
    (∃ b r x y, e = some (b, some r) ∧ (opsAt i l).length % 2 = 0 ∧ opsAt i l' = [x, y])

theorem alternates_snoc {l : List Step} {s : Step} (h : Alternates (l ++ [s])) :
    Alternates l ∧ s.isBorrow = decide (l.length % 2 = 0) := by
  constructor
  · intro j x hx
    have hlt := (List.getElem?_eq_some_iff.1 hx).1
    exact h j x (by rw [List.getElem?_append_left hlt]; exact hx)
  · exact h l.length s (by simp)

theorem scan_tight (l : List Step) : ∃ l', ElidesTo l (scan l).pairs l' ∧
    ∀ i, Records l' i ((scan l).borrowed i) ∧ Tight i l l' ((scan l).borrowed i) := by
  induction l using List.reverseRecOn with
  | nil => exact ⟨[], .nil _, fun i => ⟨trivial, fun _ => Or.inl ⟨rfl, rfl, rfl⟩⟩⟩
  | append_singleton l s ih =>
    obtain ⟨l', h1, h2⟩ := ih
    have e : scan (l ++ [s]) = (scan l).step s := by unfold scan; rw [List.foldl_append]; rfl
    rw [e]
    generalize hst : scan l = st at *
    have happ := h1.append [s]
    have hops : ∀ m, opsAt s.idx (m ++ [s]) = opsAt s.idx m ++ [s] := by
      intro m
      rw [opsAt_append, opsAt_single, if_pos rfl]
    have hoth : ∀ m i, i ≠ s.idx → opsAt i (m ++ [s]) = opsAt i m := by
      intro m i hi
      rw [opsAt_append, opsAt_single, if_neg (Ne.symm hi), List.append_nil]
    obtain ⟨hs, htight⟩ := h2 s.idx
    have keep : ∀ i, i ≠ s.idx → ∀ m', opsAt i m' = opsAt i l' →
        Records m' i (st.borrowed i) ∧ Tight i (l ++ [s]) m' (st.borrowed i) := by
      intro i hi m' hm
      refine ⟨(h2 i).1.other hm, ?_⟩
      intro ha
      rw [hoth l i hi] at ha ⊢
      rw [hm]
      exact (h2 i).2 ha
    have upd : ∀ e, Records (l' ++ [s]) s.idx e → Tight s.idx (l ++ [s]) (l' ++ [s]) e →
        ∀ i, Records (l' ++ [s]) i (Function.update st.borrowed s.idx e i) ∧
          Tight i (l ++ [s]) (l' ++ [s]) (Function.update st.borrowed s.idx e i) := by
      intro e he ht i
      by_cases hi : i = s.idx
      · subst hi; rw [Function.update_self]; exact ⟨he, ht⟩
      · rw [Function.update_of_ne hi]
        exact keep i hi _ (hoth l' i hi)
    unfold Scan.step
    match hb : s.isBorrow, he : st.borrowed s.idx with
    | true, none =>
      refine ⟨l' ++ [s], happ, upd _ ⟨opsAt s.idx l', s, hops l', hb, rfl⟩ ?_⟩
      intro ha
      rw [hops] at ha
      obtain ⟨a1, a2⟩ := alternates_snoc ha
      rcases htight a1 with ⟨_, k1, k2⟩ | ⟨b, x, k1, _⟩ | ⟨b, r, x, y, k1, _⟩
      · right; left
        refine ⟨s.node, s, rfl, ?_, ?_⟩
        · rw [hops, k1]; rfl
        · rw [hops, k2]; rfl
      · rw [he] at k1; cases k1
      · rw [he] at k1; cases k1
    | false, some (b, none) =>
      rw [he] at hs
      obtain ⟨f, x, k1, k2, k3⟩ := hs
      refine ⟨l' ++ [s], happ, upd _ ⟨f, x, s, by rw [hops, k1]; simp, k2, k3, hb, rfl⟩ ?_⟩
      intro ha
      rw [hops] at ha
      obtain ⟨a1, a2⟩ := alternates_snoc ha
      rcases htight a1 with ⟨k1, _⟩ | ⟨b, x', k1, k2, k3⟩ | ⟨b, r, x, y, k1, _⟩
      · rw [he] at k1; cases k1
      · right; right
        refine ⟨_, _, x', s, rfl, ?_, ?_⟩
        · rw [hops, List.length_append, List.length_singleton]; omega
        · rw [hops, k3]; rfl
      · rw [he] at k1; cases k1
    | false, some (_, some _) =>
      refine ⟨l' ++ [s], happ, upd _ trivial ?_⟩
      intro ha
      rw [hops] at ha
      obtain ⟨a1, a2⟩ := alternates_snoc ha
      rcases htight a1 with ⟨k1, _⟩ | ⟨b, x', k1, k2, k3⟩ | ⟨b, r, x, y, k1, k2, _⟩
      · rw [he] at k1; cases k1
      · rw [he] at k1; cases k1
      · rw [k2] at a2; rw [hb] at a2; simp at a2
    | true, some (_, none) =>
      refine ⟨l' ++ [s], happ, upd _ trivial ?_⟩
      intro ha
      rw [hops] at ha
      obtain ⟨a1, a2⟩ := alternates_snoc ha
      rcases htight a1 with ⟨k1, _⟩ | ⟨b, x', k1, k2, k3⟩ | ⟨b, r, x, y, k1, k2, _⟩
      · rw [he] at k1; cases k1
      · rw [k2] at a2; rw [hb] at a2; simp at a2
      · rw [he] at k1; cases k1
    | false, none =>
      refine ⟨l' ++ [s], happ, ?_⟩
      intro i
      by_cases hi : i = s.idx
      · subst hi
        rw [he]
        refine ⟨trivial, ?_⟩
        intro ha
        rw [hops] at ha
        obtain ⟨a1, a2⟩ := alternates_snoc ha
        rcases htight a1 with ⟨_, k1, _⟩ | ⟨b, x', k1, k2, k3⟩ | ⟨b, r, x, y, k1, k2, _⟩
        · rw [k1, hb] at a2; simp at a2
        · rw [he] at k1; cases k1
        · rw [he] at k1; cases k1
      · exact keep i hi _ (hoth l' i hi)
    | true, some (b, some r) =>
      rw [he] at hs
      obtain ⟨f, x, y, k1, k2, k3, k4, k5⟩ := hs
      have k1' : opsAt s.idx l' = (f ++ [x]) ++ [y] := by rw [k1]; simp
      obtain ⟨pre, mid, q1, q2, q3, q4⟩ := split_last k1'
      have hel : Elidable pre mid y s :=
        ⟨k4, hb, q4.symm, by rw [q4]; exact ⟨f, x, q2, k2⟩, by rw [q4]; exact q3⟩
      have happ' : ElidesTo (l ++ [s]) st.pairs (pre ++ y :: (mid ++ s :: [])) := by
        have e : l' ++ [s] = pre ++ y :: (mid ++ s :: []) := by rw [q1]; simp
        rw [← e]; exact happ
      have hleft : opsAt s.idx (pre ++ (mid ++ [])) = f ++ [x] := by
        rw [List.append_nil, opsAt_append, q2, q3, List.append_nil]
      refine ⟨pre ++ (mid ++ []), ?_, ?_⟩
      · rw [← k5]; exact happ'.snoc hel
      · intro i
        by_cases hi : i = s.idx
        · subst hi
          change Records _ _ (Function.update st.borrowed s.idx (some (b, none)) s.idx) ∧
            Tight _ _ _ (Function.update st.borrowed s.idx (some (b, none)) s.idx)
          rw [Function.update_self]
          refine ⟨⟨f, x, hleft, k2, k3⟩, ?_⟩
          intro ha
          rw [hops] at ha
          obtain ⟨a1, a2⟩ := alternates_snoc ha
          rcases htight a1 with ⟨k1, _⟩ | ⟨b, x', k1, _⟩ | ⟨b', r', x', y', k6, k7, k8⟩
          · rw [he] at k1; cases k1
          · rw [he] at k1; cases k1
          · right; left
            refine ⟨b, x, rfl, ?_, ?_⟩
            · rw [hops, List.length_append, List.length_singleton]; omega
            · rw [hleft]
              rw [k8] at k1
              have hlen := congrArg List.length k1
              simp at hlen
              subst hlen
              rfl
        · change Records _ _ (Function.update st.borrowed s.idx (some (b, none)) i) ∧
            Tight _ _ _ (Function.update st.borrowed s.idx (some (b, none)) i)
          rw [Function.update_of_ne hi]
          refine keep i hi _ ?_
          rw [q1, List.append_nil, opsAt_append, opsAt_append]
          congr 1
          unfold opsAt
          rw [List.filter_cons_of_neg]
          simp only [decide_eq_true_eq]
          rw [q4]; exact Ne.symm hi

/-- **C27 (completeness).** Let `l` be the constant-index operations met along an array. After the
traversal, `l'` is what is left of them on the way of the array, and at every index where borrows and
returns alternated properly at most one borrow and one return are left. -/
theorem C27_at_most_one_pair_left (g : G) (hg : WF g) (fuel : Nat) (w : Port) (hw : w.1 ∈ g.nodes)
    (k : Nat) (t : Ty) (ht : g.tyOut w = .array k t) :
    ∃ l l' g' ps, g.steps fuel w = some l ∧ IsChain g w l ∧ g.squash fuel w = some (g', ps) ∧
      IsChain g' w l' ∧ (∀ s ∈ l', s ∈ l) ∧
      ∀ i, Alternates (opsAt i l) → (opsAt i l').length ≤ 2 := by
  obtain ⟨l, hl, hc⟩ := steps_spec hg fuel hw ht
  obtain ⟨l', h1, h2⟩ := scan_tight l
  obtain ⟨g', e, _, _, c', _, _⟩ := elideAll_spec h1 hg hc
  refine ⟨l, l', g', (scan l).pairs, hl, hc, ?_, c', (elidesTo_mem h1).2, ?_⟩
  · unfold G.squash
    simp only [ht, hl, Option.bind_some, e, Option.map_some]
  · intro i ha
    rcases (h2 i).2 ha with ⟨_, _, k1⟩ | ⟨_, _, _, _, k1⟩ | ⟨_, _, _, _, _, _, k1⟩ <;> rw [k1] <;> simp

/-! ## Examples -/

/-- Borrow, return, borrow, return of element 1 (nodes 2-5), node 0 the input, 1 the constant, 6 the
output. -/
def exampleG : G where
  nodes := [0, 1, 2, 3, 4, 5, 6]
  links := [((0, 0), (2, 0)), ((1, 0), (2, 1)), ((2, 0), (3, 0)), ((1, 0), (3, 1)), ((2, 1), (3, 2)),
    ((3, 0), (4, 0)), ((1, 0), (4, 1)), ((4, 0), (5, 0)), ((1, 0), (5, 1)), ((4, 1), (5, 2)),
    ((5, 0), (6, 0))]
  op := fun n => if n = 1 then .load 1 else if n = 2 ∨ n = 4 then .borrow
    else if n = 3 ∨ n = 5 then .ret else .other
  tyOut := fun p => if p.1 = 1 ∨ p.1 = 6 then .index else if p.2 = 0 then .array 3 (.other 7 true) else .other 7 true
  tyIn := fun p => if p.2 = 0 then .array 3 (.other 7 true) else if p.2 = 1 then .index else .other 7 true

example : WF exampleG := by
  have hop : ∀ n, (exampleG.op n = .borrow → n = 2 ∨ n = 4) ∧ (exampleG.op n = .ret → n = 3 ∨ n = 5) := by
    intro n
    simp only [exampleG]
    constructor
    · intro h
      split at h
      · cases h
      · split at h
        · assumption
        · split at h <;> cases h
    · intro h
      split at h
      · cases h
      · split at h
        · cases h
        · split at h
          · assumption
          · cases h
  have hin : ∀ x ∈ exampleG.links, x.2.1 ∈ [2, 4] → x.2.2 < 2 := by decide
  have hout : ∀ x ∈ exampleG.links, x.1.1 ∈ [2, 4] → x.1.2 < 2 := by decide
  have hin' : ∀ x ∈ exampleG.links, x.2.1 ∈ [3, 5] → x.2.2 < 3 := by decide
  have hout' : ∀ x ∈ exampleG.links, x.1.1 ∈ [3, 5] → x.1.2 < 1 := by decide
  constructor
  · have : ∀ x ∈ exampleG.links, x.1.1 ∈ exampleG.nodes ∧ x.2.1 ∈ exampleG.nodes := by decide
    intro s d h; exact this _ h
  · have : ∀ x ∈ exampleG.links, exampleG.tyOut x.1 = exampleG.tyIn x.2 := by decide
    intro s d h; exact this _ h
  · have : ∀ x ∈ exampleG.links, ∀ y ∈ exampleG.links, x.2 = y.2 → x.1 = y.1 := by decide
    intro s s' d h h'; exact this _ h _ h' rfl
  · have : ∀ x ∈ exampleG.links, ∀ y ∈ exampleG.links, (exampleG.tyOut x.1).linear = true →
      x.1 = y.1 → x.2 = y.2 := by decide
    intro s d d' hl h h'; exact this _ h _ h' hl rfl
  · rintro ⟨n, p⟩ k t hn ht
    have hp : p = 0 ∧ n ≠ 1 ∧ n ≠ 6 := by
      simp only [exampleG] at ht
      split at ht
      · cases ht
      · rename_i h
        split at ht
        · rename_i h'; exact ⟨h', by omega, by omega⟩
        · cases ht
    obtain ⟨rfl, h1, h6⟩ := hp
    have : ∀ m ∈ exampleG.nodes, m ≠ 1 → m ≠ 6 → ∃ x ∈ exampleG.links, x.1 = (m, 0) := by decide
    obtain ⟨⟨a, d⟩, hx, rfl⟩ := this n hn h1 h6
    exact ⟨d, hx⟩
  · intro n h
    refine ⟨3, .other 7 true, rfl, rfl, ?_, ?_⟩ <;> rcases (hop n).1 h with rfl | rfl <;> rfl
  · intro n h
    refine ⟨3, .other 7 true, rfl, rfl, rfl, ?_⟩
    rcases (hop n).2 h with rfl | rfl <;> rfl
  · intro n h
    exact ⟨fun s p hl => hin _ hl (by simpa using (hop n).1 h),
      fun p d hl => hout _ hl (by simpa using (hop n).1 h)⟩
  · intro n h
    exact ⟨fun s p hl => hin' _ hl (by simpa using (hop n).2 h),
      fun p d hl => hout' _ hl (by simpa using (hop n).2 h)⟩
  · have : ∀ n ∈ [2, 4], ∀ p < 2, ∃ x ∈ exampleG.links, x.2 = (n, p) := by decide
    intro n _ h p hp
    obtain ⟨⟨s, d⟩, hx, rfl⟩ := this n (by simpa using (hop n).1 h) p hp
    exact ⟨s, hx⟩
  · have : ∀ n ∈ [3, 5], ∀ p < 3, ∃ x ∈ exampleG.links, x.2 = (n, p) := by decide
    intro n _ h p hp
    obtain ⟨⟨s, d⟩, hx, rfl⟩ := this n (by simpa using (hop n).2 h) p hp
    exact ⟨s, hx⟩
  · have : ∀ x ∈ exampleG.links, x.1.1 < x.2.1 := by decide
    exact ⟨id, fun s d h => this _ h⟩

/-- The example runs: an array of three elements, element 1 being taken out and put back twice. -/
example : Run (α := Nat) (fun _ _ _ => True) exampleG
    (fun p => if p.2 = 1 then .idx 1 else if p.2 = 2 then .atom 8
      else if p.1 = 3 ∨ p.1 = 5 then .arr [some (.atom 7), none, some (.atom 9)]
      else .arr [some (.atom 7), some (.atom 8), some (.atom 9)])
    (fun p => if p.1 = 1 then .idx 1 else if p.2 = 1 then .atom 8
      else if p.1 = 2 ∨ p.1 = 4 then .arr [some (.atom 7), none, some (.atom 9)]
      else .arr [some (.atom 7), some (.atom 8), some (.atom 9)]) := by
  constructor
  · intro s d h
    simp only [exampleG, List.mem_cons, Prod.mk.injEq, List.not_mem_nil, or_false] at h
    rcases h with ⟨rfl, rfl⟩ | ⟨rfl, rfl⟩ | ⟨rfl, rfl⟩ | ⟨rfl, rfl⟩ | ⟨rfl, rfl⟩ | ⟨rfl, rfl⟩ |
      ⟨rfl, rfl⟩ | ⟨rfl, rfl⟩ | ⟨rfl, rfl⟩ | ⟨rfl, rfl⟩ | ⟨rfl, rfl⟩ <;> rfl
  · intro n hn
    simp only [exampleG, List.mem_cons, List.not_mem_nil, or_false] at hn
    rcases hn with rfl | rfl | rfl | rfl | rfl | rfl | rfl
    · trivial
    · intro p; rfl
    · exact ⟨_, 1, .atom 8, rfl, rfl, rfl, rfl, rfl⟩
    · exact ⟨_, 1, rfl, rfl, rfl, rfl⟩
    · exact ⟨_, 1, .atom 8, rfl, rfl, rfl, rfl, rfl⟩
    · exact ⟨_, 1, rfl, rfl, rfl, rfl⟩
    · trivial

example : (exampleG.squash 10 (0, 0)).map (fun r => (r.1.nodes, r.1.links, r.2)) =
    some ([0, 1, 2, 5, 6],
      [((2, 0), (5, 0)), ((2, 1), (5, 2)), ((0, 0), (2, 0)), ((1, 0), (2, 1)), ((1, 0), (5, 1)),
        ((5, 0), (6, 0))], [(3, 4)]) := by decide

end Tket.BorrowSquash
