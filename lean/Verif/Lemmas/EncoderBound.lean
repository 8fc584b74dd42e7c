import Verif.Lemmas.Encoder
import Mathlib.Data.Finset.Card

/-!
# All registers of commands are registers of the tracker
-/

set_option linter.unusedSectionVars false

namespace Verif.Encoder

variable {W E : Type} [DecidableEq W]

/-- All registers that the tracker knows of are below its number of registers. -/
def TBnd (t : Tracker W E) : Prop :=
  ∀ s, (∀ r ∈ (t.pool s).unused, r < (t.pool s).size) ∧
    ∀ w tr, t.wires w = some tr → ∀ r ∈ tr.vals.reg s, r < (t.pool s).size

def VBnd (t : Tracker W E) (v : Srt → List Nat) : Prop := ∀ s, ∀ r ∈ v s, r < (t.pool s).size

def Grows (t t' : Tracker W E) : Prop := ∀ s, (t.pool s).size ≤ (t'.pool s).size

theorem Grows.refl (t : Tracker W E) : Grows t t := fun _ => Nat.le_refl _

theorem Grows.trans {a b c : Tracker W E} (h : Grows a b) (h' : Grows b c) : Grows a c :=
  fun s => Nat.le_trans (h s) (h' s)

theorem VBnd.mono {t t' : Tracker W E} {v : Srt → List Nat} (h : VBnd t v) (hg : Grows t t') : VBnd t' v :=
  fun s r hr => Nat.lt_of_lt_of_le (h s r hr) (hg s)

theorem registerWire_bnd {c : Circ W E} {w : W} {v : Vals} {t t' : Tracker W E} (ht : TBnd t)
    (hv : VBnd t v.reg) (h : registerWire c w v t = .ok t') : TBnd t' ∧ Grows t t' := by
  unfold registerWire at h
  split at h
  · cases h
  split at h
  · cases h
    refine ⟨fun s => ⟨?_, fun w tr hw => (ht s).2 w tr hw⟩, fun s => Nat.le_refl _⟩
    intro r hr
    simp only [Pool.release, Pool.claim, Finset.mem_union, Finset.mem_sdiff, List.mem_toFinset] at hr
    rcases hr with hr | hr
    · exact (ht s).1 r hr.1
    · exact hv s r hr
  · cases h
    refine ⟨fun s => ⟨?_, ?_⟩, fun s => Nat.le_refl _⟩
    · intro r hr
      simp only [Pool.claim, Finset.mem_sdiff, List.mem_toFinset] at hr
      exact (ht s).1 r hr.1
    · intro w' tr hw r hr
      by_cases hww : w' = w
      · subst hww
        simp only [Function.update_self, Option.some.injEq] at hw
        subst hw
        exact hv s r hr
      · simp only [Function.update_of_ne hww] at hw
        exact (ht s).2 w' tr hw r hr

theorem wireValues_bnd {w : W} {v : Vals} {t t' : Tracker W E} (ht : TBnd t)
    (h : wireValues w t = some (v, t')) : TBnd t' ∧ Grows t t' ∧ VBnd t' v.reg := by
  unfold wireValues at h
  split at h
  · cases h
  rename_i tr htr
  split at h
  · cases h
    refine ⟨fun s => ⟨(ht s).1, ?_⟩, fun s => Nat.le_refl _, fun s r hr => (ht s).2 w tr htr r hr⟩
    intro w' tr' hw r hr
    by_cases hww : w' = w
    · subst hww
      simp only [Function.update_self, Option.some.injEq] at hw
      subst hw
      exact (ht s).2 _ _ htr r hr
    · simp only [Function.update_of_ne hww] at hw
      exact (ht s).2 w' tr' hw r hr
  · cases h
    refine ⟨fun s => ⟨?_, ?_⟩, fun s => Nat.le_refl _, fun s r hr => (ht s).2 w tr htr r hr⟩
    · intro r hr
      simp only [Pool.release, Finset.mem_union, List.mem_toFinset] at hr
      rcases hr with hr | hr
      · exact (ht s).1 r hr
      · exact (ht s).2 _ _ htr r hr
    · intro w' tr' hw r hr
      by_cases hww : w' = w
      · subst hww
        simp at hw
      · simp only [Function.update_of_ne hww] at hw
        exact (ht s).2 w' tr' hw r hr

theorem registerOuts_bnd {c : Circ W E} : ∀ (ws : List W) (reuse : Srt → List Nat) (ps : List E)
    (t t' : Tracker W E) (new : Srt → List Nat), TBnd t → VBnd t reuse →
    registerOuts c ws reuse ps t = .ok (new, t') → TBnd t' ∧ Grows t t' ∧ VBnd t' new
  | [], _, _, t, t', new, ht, _, h => by
    cases h
    exact ⟨ht, .refl _, fun s r hr => by cases hr⟩
  | w :: ws, reuse, ps, t, t', new, ht, hr, h => by
    unfold registerOuts at h
    simp only at h
    split at h
    · cases h
    rename_i t2 h2
    split at h
    · cases h
    rename_i new2 t3 h3
    cases h
    have hf := fun s => freshN_spec ((c.cnt w).reg s - ((reuse s).take ((c.cnt w).reg s)).length) (t.pool s) (ht s).1
    have hg1 : Grows t { t with
        pool := fun s => ((t.pool s).freshN ((c.cnt w).reg s - ((reuse s).take ((c.cnt w).reg s)).length)).2,
        exprs := t.exprs ++ ps.take (c.cnt w).params } := fun s => (hf s).1.size
    have hgot := fun s => (hf s).1.lt
    obtain ⟨a1, a2⟩ := registerWire_bnd (t := { t with
        pool := fun s => ((t.pool s).freshN ((c.cnt w).reg s - ((reuse s).take ((c.cnt w).reg s)).length)).2,
        exprs := t.exprs ++ ps.take (c.cnt w).params }) (by
      intro s
      refine ⟨(hf s).2.1, fun w' tr hw r hrr => Nat.lt_of_lt_of_le ((ht s).2 w' tr hw r hrr) (hg1 s)⟩) (by
      intro s r hrr
      rcases List.mem_append.1 hrr with hrr | hrr
      · exact Nat.lt_of_lt_of_le (hr s r (List.mem_of_mem_take hrr)) (hg1 s)
      · exact hgot s r hrr) h2
    obtain ⟨b1, b2, b3⟩ := registerOuts_bnd ws _ _ _ _ _ a1 (by
      intro s r hrr
      exact Nat.lt_of_lt_of_le (hr s r (List.mem_of_mem_drop hrr)) (hg1.trans a2 s)) h3
    refine ⟨b1, (hg1.trans a2).trans b2, fun s r hrr => ?_⟩
    rcases List.mem_append.1 hrr with hrr | hrr
    · exact Nat.lt_of_lt_of_le (hgot s r hrr) (a2.trans b2 s)
    · exact b3 s r hrr

theorem emitOp_bnd {c : Circ W E} {it : Item W E} {v : Vals} {t t' : Tracker W E} {cmd : Cmd E}
    (ht : TBnd t) (hv : VBnd t v.reg) (h : emitOp c it v t = .ok (cmd, t')) :
    TBnd t' ∧ Grows t t' ∧ VBnd t' cmd.args := by
  unfold emitOp at h
  split at h
  · cases h
  split at h
  · cases h
  split at h
  · cases h
  rename_i h3
  cases h
  obtain ⟨a, b, d⟩ := registerOuts_bnd _ _ _ _ _ _ ht hv h3
  refine ⟨a, b, fun s r hr => ?_⟩
  rcases List.mem_append.1 hr with hr | hr
  · exact hv.mono b s r hr
  · exact d s r hr

theorem Vals.append_bnd {t : Tracker W E} {a b : Vals} (ha : VBnd t a.reg) (hb : VBnd t b.reg) :
    VBnd t (a.append b).reg := by
  intro s r hr
  rcases List.mem_append.1 hr with hr | hr
  · exact ha s r hr
  · exact hb s r hr

theorem collectGroup_bnd : ∀ (ws : List W) (t : Tracker W E), TBnd t →
    TBnd (collectGroup ws t).2 ∧ Grows t (collectGroup ws t).2 ∧
      VBnd (collectGroup ws t).2 (collectGroup ws t).1.reg
  | [], t, ht => ⟨ht, .refl _, fun s r hr => by cases hr⟩
  | w :: ws, t, ht => by
    unfold collectGroup
    split
    · exact collectGroup_bnd ws t ht
    · rename_i v t1 h
      obtain ⟨a, b, d⟩ := wireValues_bnd ht h
      obtain ⟨a', b', d'⟩ := collectGroup_bnd ws t1 a
      exact ⟨a', b.trans b', Vals.append_bnd (d.mono b') d'⟩

/-- The same for the state of the encoder. -/
def EBnd (e : Enc W E) : Prop := TBnd e.tr ∧ ∀ cmd ∈ e.cmds, VBnd e.tr cmd.args

theorem EBnd.push {e : Enc W E} {t : Tracker W E} {cmd : Cmd E} {p : List (Item W E)} (h : EBnd e)
    (ht : TBnd t) (hg : Grows e.tr t) (hc : VBnd t cmd.args) : EBnd ⟨t, p, e.cmds ++ [cmd]⟩ := by
  refine ⟨ht, fun x hx => ?_⟩
  rcases List.mem_append.1 hx with hx | hx
  · exact (h.2 x hx).mono hg
  · cases List.mem_singleton.1 hx
    exact hc

theorem EBnd.keep {e : Enc W E} {t : Tracker W E} {p : List (Item W E)} (h : EBnd e)
    (ht : TBnd t) (hg : Grows e.tr t) : EBnd ⟨t, p, e.cmds⟩ :=
  ⟨ht, fun x hx => (h.2 x hx).mono hg⟩

theorem emitGroup_bnd {c : Circ W E} {g : Item W E} {e e' : Enc W E} (he : EBnd e)
    (h : emitGroup c g e = .ok e') : EBnd e' ∧ Grows e.tr e'.tr := by
  unfold emitGroup at h
  simp only at h
  obtain ⟨a, b, d⟩ := collectGroup_bnd g.ins e.tr he.1
  split at h
  · cases h
  rename_i h1
  obtain ⟨a', b', d'⟩ := emitOp_bnd a d h1
  split at h
  · cases h
  cases h
  exact ⟨he.push a' (b.trans b') d', b.trans b'⟩

theorem getWire_bnd {c : Circ W E} {w : W} {e e' : Enc W E} {v : Vals} (he : EBnd e)
    (h : getWire c w e = .ok (v, e')) : EBnd e' ∧ Grows e.tr e'.tr ∧ VBnd e'.tr v.reg := by
  unfold getWire at h
  split at h
  · rename_i h1
    cases h
    obtain ⟨a, b, d⟩ := wireValues_bnd he.1 h1
    exact ⟨he.keep a b, b, d⟩
  · split at h
    · cases h
    split at h
    · cases h
    rename_i h1
    split at h
    · cases h
    rename_i h2
    cases h
    obtain ⟨a, b⟩ := emitGroup_bnd (e := { e with pending := dropOwner w e.pending }) he h1
    obtain ⟨a', b', d'⟩ := wireValues_bnd a.1 h2
    exact ⟨a.keep a' b', b.trans b', d'⟩

theorem collect_bnd {c : Circ W E} : ∀ (ws : List W) (e e' : Enc W E) (v : Vals), EBnd e →
    collect c ws e = .ok (v, e') → EBnd e' ∧ Grows e.tr e'.tr ∧ VBnd e'.tr v.reg
  | [], e, e', v, he, h => by
    cases h
    exact ⟨he, .refl _, fun s r hr => by cases hr⟩
  | w :: ws, e, e', v, he, h => by
    unfold collect at h
    split at h
    · cases h
    rename_i h1
    split at h
    · cases h
    rename_i h2
    cases h
    obtain ⟨a, b, d⟩ := getWire_bnd he h1
    obtain ⟨a', b', d'⟩ := collect_bnd ws _ _ _ a h2
    exact ⟨a', b.trans b', Vals.append_bnd (d.mono b') d'⟩

theorem registerAll_bnd {c : Circ W E} {v : Vals} : ∀ (ws : List W) (t t' : Tracker W E), TBnd t →
    VBnd t v.reg → registerAll c v ws t = .ok t' → TBnd t' ∧ Grows t t'
  | [], t, t', ht, _, h => by cases h; exact ⟨ht, .refl _⟩
  | w :: ws, t, t', ht, hv, h => by
    unfold registerAll at h
    split at h
    · cases h
    rename_i h1
    obtain ⟨a, b⟩ := registerWire_bnd ht hv h1
    obtain ⟨a', b'⟩ := registerAll_bnd ws _ _ a (hv.mono b) h
    exact ⟨a', b.trans b'⟩

theorem encItem_bnd {c : Circ W E} {it : Item W E} {e e' : Enc W E} (he : EBnd e)
    (h : encItem c it e = .ok e') : EBnd e' ∧ Grows e.tr e'.tr := by
  unfold encItem at h
  split at h
  · cases h; exact ⟨he, .refl _⟩
  · cases h; exact ⟨he, .refl _⟩
  · rename_i s _
    split at h
    · simp only at h
      split at h
      · cases h
      rename_i h1
      cases h
      obtain ⟨f1, f2⟩ := fresh_spec (e.tr.pool s) (he.1 s).1
      have hg : Grows e.tr { e.tr with pool := Function.update e.tr.pool s (e.tr.pool s).fresh.2 } := by
        intro s'
        by_cases hs : s' = s
        · subst hs; simp only [Function.update_self]; exact f1.size
        · simp only [Function.update_of_ne hs]; exact Nat.le_refl _
      obtain ⟨a, b⟩ := registerWire_bnd (t := { e.tr with pool := Function.update e.tr.pool s (e.tr.pool s).fresh.2 })
        (by
          intro s'
          refine ⟨?_, fun w tr hw r hr => Nat.lt_of_lt_of_le ((he.1 s').2 w tr hw r hr) (hg s')⟩
          by_cases hs : s' = s
          · subst hs; simp only [Function.update_self]; exact f2
          · simp only [Function.update_of_ne hs]; exact (he.1 s').1)
        (by
          intro s' r hr
          by_cases hs : s' = s
          · subst hs
            simp only [single, if_true, List.mem_singleton] at hr
            subst hr
            simp only [Function.update_self]
            exact f1.lt _ (by simp)
          · simp [single, hs] at hr) h1
      exact ⟨he.keep a (hg.trans b), hg.trans b⟩
    · cases h
  · split at h
    · cases h
    rename_i h1
    split at h
    · cases h
    rename_i h2
    cases h
    obtain ⟨a, b, d⟩ := collect_bnd _ _ _ _ he h1
    obtain ⟨a', b', d'⟩ := emitOp_bnd a.1 d h2
    exact ⟨a.push a' b' d', b.trans b'⟩
  · split at h
    · cases h
    rename_i h1
    split at h
    · cases h
    rename_i h2
    cases h
    obtain ⟨a, b, d⟩ := collect_bnd _ _ _ _ he h1
    unfold emitTransparent at h2
    split at h2
    · cases h2
    split at h2
    · cases h2
    split at h2
    · cases h2
    rename_i h3
    cases h2
    obtain ⟨a', b', _⟩ := registerOuts_bnd _ _ _ _ _ _ a.1 d h3
    exact ⟨a.keep a' b', b.trans b'⟩
  · split at h
    · cases h
    rename_i h1
    split at h
    · cases h
    rename_i h2
    cases h
    obtain ⟨a, b, d⟩ := collect_bnd _ _ _ _ he h1
    obtain ⟨a', b'⟩ := registerAll_bnd _ _ _ a.1 d h2
    exact ⟨a.keep a' b', b.trans b'⟩

theorem encItems_bnd {c : Circ W E} : ∀ (its : List (Item W E)) (e e' : Enc W E), EBnd e →
    encItems c its e = .ok e' → EBnd e' ∧ Grows e.tr e'.tr
  | [], e, e', he, h => by cases h; exact ⟨he, .refl _⟩
  | it :: its, e, e', he, h => by
    unfold encItems at h
    split at h
    · cases h
    rename_i h1
    obtain ⟨a, b⟩ := encItem_bnd he h1
    obtain ⟨a', b'⟩ := encItems_bnd its _ _ a h
    exact ⟨a', b.trans b'⟩

theorem flush_bnd {c : Circ W E} : ∀ (gs : List (Item W E)) (e e' : Enc W E), EBnd e →
    flush c gs e = .ok e' → EBnd e' ∧ Grows e.tr e'.tr
  | [], e, e', he, h => by cases h; exact ⟨he, .refl _⟩
  | g :: gs, e, e', he, h => by
    unfold flush at h
    simp only at h
    obtain ⟨a, b, d⟩ := collectGroup_bnd g.ins e.tr he.1
    split at h
    · cases h
    rename_i h1
    obtain ⟨a', b', d'⟩ := emitOp_bnd a d h1
    split at h
    · obtain ⟨x, y⟩ := flush_bnd gs _ _ (he.keep (p := e.pending) a' (b.trans b')) h
      exact ⟨x, (b.trans b').trans y⟩
    · obtain ⟨x, y⟩ := flush_bnd gs _ _ (he.push (p := e.pending) a' (b.trans b') d') h
      exact ⟨x, (b.trans b').trans y⟩

theorem fresh_card (p : Pool) : p.size + 1 + p.fresh.2.unused.card = p.fresh.2.size + p.unused.card := by
  unfold Pool.fresh
  split
  · rename_i h
    have := Finset.card_erase_add_one (p.unused.min'_mem h)
    simp only
    omega
  · simp only

theorem freshN_card : ∀ (n : Nat) (p : Pool),
    p.size + n + (p.freshN n).2.unused.card = (p.freshN n).2.size + p.unused.card
  | 0, p => rfl
  | n + 1, p => by
    have h1 := fresh_card p
    have h2 := freshN_card n p.fresh.2
    simp only [Pool.freshN]
    omega

/-- Registering wires without registers to reuse takes as many registers as the wires need. -/
theorem registerOuts_size {c : Circ W E} {s : Srt} : ∀ (ws : List W) (ps : List E)
    (t t' : Tracker W E) (new : Srt → List Nat), DeadLast c s ws → TBnd t →
    registerOuts c ws (fun _ => []) ps t = .ok (new, t') →
    (t.pool s).size + c.total ws s ≤ (t'.pool s).size + (t.pool s).unused.card
  | [], _, t, t', new, _, _, h => by
    cases h
    simp [Circ.total]
  | w :: ws, ps, t, t', new, hd, ht, h => by
    unfold registerOuts at h
    simp only [List.take_nil, List.length_nil, Nat.sub_zero, List.drop_nil, List.nil_append] at h
    split at h
    · cases h
    rename_i t2 h2
    split at h
    · cases h
    rename_i new2 t3 h3
    cases h
    have hf := fun s => freshN_spec ((c.cnt w).reg s) (t.pool s) (ht s).1
    have hg1 : Grows t { t with
        pool := fun s => ((t.pool s).freshN ((c.cnt w).reg s)).2,
        exprs := t.exprs ++ ps.take (c.cnt w).params } := fun s => (hf s).1.size
    obtain ⟨a1, a2⟩ := registerWire_bnd (t := { t with
        pool := fun s => ((t.pool s).freshN ((c.cnt w).reg s)).2,
        exprs := t.exprs ++ ps.take (c.cnt w).params }) (by
      intro s
      refine ⟨(hf s).2.1, fun w' tr hw r hrr => Nat.lt_of_lt_of_le ((ht s).2 w' tr hw r hrr) (hg1 s)⟩) (by
      intro s r hrr
      exact (hf s).1.lt r hrr) h2
    obtain ⟨_, b2, _⟩ := registerOuts_bnd ws _ _ _ _ _ a1 (fun s r hr => by cases hr) h3
    have ih := registerOuts_size ws _ _ _ _ hd.2 a1 h3
    have hc := freshN_card ((c.cnt w).reg s) (t.pool s)
    have e0 : c.total (w :: ws) s = (c.cnt w).reg s + c.total ws s := by simp [Circ.total]
    have e1 := a2 s
    have e2 := b2 s
    simp only at e1
    by_cases hdead : c.nbrs w = 0 ∧ (c.cnt w).reg s ≠ 0
    · have hz := (hd.1 hdead.1).resolve_left hdead.2
      omega
    · have hcard : (t2.pool s).unused.card ≤ ((t.pool s).freshN ((c.cnt w).reg s)).2.unused.card := by
        unfold registerWire at h2
        split at h2
        · cases h2
        split at h2
        · rename_i h0
          cases h2
          have hz : (c.cnt w).reg s = 0 := Decidable.not_not.1 fun h => hdead ⟨h0, h⟩
          have hl : ((t.pool s).freshN ((c.cnt w).reg s)).1 = [] :=
            List.length_eq_zero_iff.1 ((hf s).2.2.trans hz)
          simp [hl, Pool.release, Pool.claim]
        · cases h2
          exact Finset.card_le_card Finset.sdiff_subset
      omega

/-- The registers of all commands and wires are registers of the circuit, and there are enough of them
for the inputs. -/
theorem encode_bnd {c : Circ W E} {order : List (Item W E) → List (Item W E)} {e : Enc W E}
    (h : encode c order = .ok e) :
    EBnd e ∧ ∀ s, DeadLast c s c.inputs → c.total c.inputs s ≤ (e.tr.pool s).size := by
  unfold encode at h
  split at h
  · cases h
  rename_i t ht
  split at h
  · cases h
  rename_i e1 h1
  unfold initTracker at ht
  split at ht
  · cases ht
  rename_i h0
  cases ht
  have hb : TBnd (⟨fun s => ⟨c.declared s, Finset.range (c.declared s)⟩, [], fun _ => none⟩ : Tracker W E) := by
    intro s
    exact ⟨fun r hr => by simpa using hr, fun w tr hw => by cases hw⟩
  obtain ⟨a, b, d⟩ := registerOuts_bnd _ _ _ _ _ _ hb (fun s r hr => by cases hr) h0
  obtain ⟨a1, b1⟩ := encItems_bnd _ _ _ ⟨a, fun x hx => by cases hx⟩ h1
  obtain ⟨a2, b2⟩ := flush_bnd _ _ _ (a1.keep (p := []) a1.1 (.refl _)) h
  refine ⟨a2, fun s hd => ?_⟩
  have h3 := registerOuts_size _ _ _ _ _ hd hb h0
  have h4 := b1 s
  have h5 := b2 s
  simp only [Finset.card_range] at h3
  simp only at h4 h5
  omega

end Verif.Encoder
