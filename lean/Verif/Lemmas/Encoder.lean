import Verif.Model.EncoderSpec
import Mathlib.Data.List.Nodup
import Mathlib.Data.List.Flatten
import Mathlib.Data.Multiset.AddSub
import Mathlib.Tactic.Common

/-! # Register bookkeeping of the pytket encoder: invariants of the tracker -/

namespace Verif.Encoder

set_option linter.unusedSectionVars false

variable {W E : Type} [DecidableEq W]

/-! ### Fresh registers -/

structure FreshSpec (p : Pool) (rs : List Nat) (p' : Pool) : Prop where
  nodup : rs.Nodup
  src : ∀ r ∈ rs, r ∈ p.unused ∨ p.size ≤ r
  lt : ∀ r ∈ rs, r < p'.size
  notin : ∀ r ∈ rs, r ∉ p'.unused
  sub : p'.unused ⊆ p.unused
  size : p.size ≤ p'.size

theorem fresh_spec (p : Pool) (h : ∀ r ∈ p.unused, r < p.size) :
    FreshSpec p [p.fresh.1] p.fresh.2 ∧ ∀ r ∈ p.fresh.2.unused, r < p.fresh.2.size := by
  unfold Pool.fresh
  split
  · rename_i hne
    have hm := Finset.min'_mem p.unused hne
    refine ⟨⟨by simp, ?_, ?_, ?_, ?_, Nat.le_refl _⟩, ?_⟩
    · simp [hm]
    · simpa using h _ hm
    · simp
    · exact Finset.erase_subset _ _
    · intro r hr
      exact h r (Finset.mem_of_mem_erase hr)
  · rename_i hne
    rw [Finset.not_nonempty_iff_eq_empty] at hne
    refine ⟨⟨by simp, ?_, ?_, ?_, ?_, ?_⟩, ?_⟩ <;> simp [hne]

theorem freshN_spec (n : Nat) (p : Pool) (h : ∀ r ∈ p.unused, r < p.size) :
    FreshSpec p (p.freshN n).1 (p.freshN n).2 ∧
      (∀ r ∈ (p.freshN n).2.unused, r < (p.freshN n).2.size) ∧ (p.freshN n).1.length = n := by
  induction n generalizing p with
  | zero =>
    refine ⟨⟨?_, ?_, ?_, ?_, ?_, ?_⟩, ?_, ?_⟩ <;> simp [Pool.freshN]
    exact h
  | succ n ih =>
    obtain ⟨h1, h2⟩ := fresh_spec p h
    obtain ⟨i1, i2, i3⟩ := ih p.fresh.2 h2
    simp only [Pool.freshN]
    have hnew : p.fresh.1 < p.fresh.2.size := h1.lt _ (by simp)
    have hnot : p.fresh.1 ∉ p.fresh.2.unused := h1.notin _ (by simp)
    refine ⟨⟨?_, ?_, ?_, ?_, ?_, ?_⟩, i2, ?_⟩
    · rw [List.nodup_cons]
      refine ⟨fun hm => ?_, i1.nodup⟩
      rcases i1.src _ hm with h' | h'
      · exact hnot h'
      · omega
    · intro r hr
      rcases List.mem_cons.1 hr with rfl | hr
      · exact h1.src _ (by simp)
      · rcases i1.src r hr with h' | h'
        · exact Or.inl (h1.sub h')
        · exact Or.inr (Nat.le_trans h1.size h')
    · intro r hr
      rcases List.mem_cons.1 hr with rfl | hr
      · exact Nat.lt_of_lt_of_le hnew i1.size
      · exact i1.lt r hr
    · intro r hr
      rcases List.mem_cons.1 hr with rfl | hr
      · exact fun h' => hnot (i1.sub h')
      · exact i1.notin r hr
    · exact fun r hr => h1.sub (i1.sub hr)
    · exact Nat.le_trans h1.size i1.size
    · simp [i3]

/-! ### The register invariant -/

/-- A wire whose registers must be preserved: it will be read, or has just been read. -/
def Act (P : List W) (F : Multiset W) (H : List W) (w : W) : Prop := (w ∈ P ∧ w ∈ F) ∨ w ∈ H

/-- The state of the tracker with respect to one sort.  `P`: wires produced so far, `F`: uses to
come, `H`: wires read by the operation in progress, `ρ`: the registers of every wire, `Z`:
registers in the hands of the operation in progress. -/
structure RInv (s : Srt) (t : Tracker W E) (P : List W) (F : Multiset W) (H : List W)
    (ρ : W → List Nat) (Z : List Nat) : Prop where
  reg : ∀ w tr, t.wires w = some tr → w ∈ P
  live : ∀ w ∈ P, w ∈ F →
    ∃ tr, t.wires w = some tr ∧ tr.vals.reg s = ρ w ∧ F.count w ≤ tr.unexplored
  held : ∀ w ∈ H, w ∈ P
  nodup : ∀ w, Act P F H w → (ρ w).Nodup
  bound : ∀ w, Act P F H w → ∀ r ∈ ρ w, r < (t.pool s).size
  disj : ∀ w w', Act P F H w → Act P F H w' → w ≠ w' → ∀ r ∈ ρ w, r ∉ ρ w'
  used : ∀ w ∈ P, w ∈ F → ∀ r ∈ ρ w, r ∉ (t.pool s).unused
  ubound : ∀ r ∈ (t.pool s).unused, r < (t.pool s).size
  znodup : Z.Nodup
  zbound : ∀ r ∈ Z, r < (t.pool s).size
  zdisj : ∀ w, Act P F H w → ∀ r ∈ ρ w, r ∉ Z

theorem Act.mono {P : List W} {F F' : Multiset W} {H : List W} {w : W} (hF : F' ≤ F)
    (h : Act P F' H w) : Act P F H w := by
  rcases h with ⟨h1, h2⟩ | h
  · exact Or.inl ⟨h1, Multiset.mem_of_le hF h2⟩
  · exact Or.inr h

theorem RInv.mono {s : Srt} {t : Tracker W E} {P : List W} {F F' : Multiset W} {H : List W}
    {ρ : W → List Nat} {Z : List Nat} (h : RInv s t P F H ρ Z) (hF : F' ≤ F) :
    RInv s t P F' H ρ Z := by
  refine ⟨h.reg, ?_, h.held, fun w a => h.nodup w (a.mono hF), fun w a => h.bound w (a.mono hF),
    fun w w' a b => h.disj w w' (a.mono hF) (b.mono hF),
    fun w a b => h.used w a (Multiset.mem_of_le hF b), h.ubound, h.znodup, h.zbound,
    fun w a => h.zdisj w (a.mono hF)⟩
  intro w hp hf
  obtain ⟨tr, h1, h2, h3⟩ := h.live w hp (Multiset.mem_of_le hF hf)
  exact ⟨tr, h1, h2, Nat.le_trans (Multiset.count_le_of_le w hF) h3⟩

/-- Forgetting the registers in hand. -/
theorem RInv.dropZ {s : Srt} {t : Tracker W E} {P : List W} {F : Multiset W} {H : List W}
    {ρ : W → List Nat} {Z : List Nat} (h : RInv s t P F H ρ Z) : RInv s t P F H ρ [] :=
  ⟨h.reg, h.live, h.held, h.nodup, h.bound, h.disj, h.used, h.ubound, by simp, by simp, by simp⟩

/-- Forgetting wires read before. -/
theorem RInv.dropH {s : Srt} {t : Tracker W E} {P : List W} {F : Multiset W} {H H' : List W}
    {ρ : W → List Nat} {Z : List Nat} (h : RInv s t P F H ρ Z) (hH : ∀ w ∈ H', w ∈ H) :
    RInv s t P F H' ρ Z := by
  have ha : ∀ w, Act P F H' w → Act P F H w := by
    rintro w (a | a)
    · exact Or.inl a
    · exact Or.inr (hH w a)
  exact ⟨h.reg, h.live, fun w a => h.held w (hH w a), fun w a => h.nodup w (ha w a),
    fun w a => h.bound w (ha w a), fun w w' a b => h.disj w w' (ha w a) (ha w' b), h.used, h.ubound,
    h.znodup, h.zbound, fun w a => h.zdisj w (ha w a)⟩

/-- Reading a wire. -/
theorem RInv.wireValues {s : Srt} {t t' : Tracker W E} {P : List W} {F : Multiset W} {H : List W}
    {ρ : W → List Nat} {Z : List Nat} {w : W} {v : Vals} (h : RInv s t P (w ::ₘ F) H ρ Z)
    (hv : wireValues w t = some (v, t')) :
    v.reg s = ρ w ∧ RInv s t' P F (w :: H) ρ Z ∧ (t'.pool s).size = (t.pool s).size ∧
      (∀ r ∈ (t'.pool s).unused, r ∈ (t.pool s).unused ∨ r ∈ ρ w) := by
  unfold Encoder.wireValues at hv
  split at hv
  · exact absurd hv (by simp)
  rename_i tr htr
  have hP := h.reg w tr htr
  obtain ⟨tr', htr', hval, hcnt⟩ := h.live w hP (Multiset.mem_cons_self w F)
  rw [htr] at htr'
  obtain rfl := Option.some.inj htr'
  rw [Multiset.count_cons_self] at hcnt
  have hact : ∀ x, Act P F (w :: H) x → Act P (w ::ₘ F) H x := by
    rintro x (⟨a, b⟩ | a)
    · exact Or.inl ⟨a, Multiset.mem_cons_of_mem b⟩
    · rcases List.mem_cons.1 a with rfl | a
      · exact Or.inl ⟨hP, Multiset.mem_cons_self _ _⟩
      · exact Or.inr a
  have hheld : ∀ x ∈ w :: H, x ∈ P := by
    intro x hx
    rcases List.mem_cons.1 hx with rfl | hx
    · exact hP
    · exact h.held x hx
  split at hv
  · rename_i hne
    obtain ⟨rfl, rfl⟩ := Prod.mk.inj (Option.some.inj hv)
    refine ⟨hval, ⟨?_, ?_, hheld, fun x a => h.nodup x (hact x a), fun x a => h.bound x (hact x a),
      fun x y a b => h.disj x y (hact x a) (hact y b), ?_, h.ubound, h.znodup, h.zbound,
      fun x a => h.zdisj x (hact x a)⟩, rfl, ?_⟩
    · intro x tr' hx
      by_cases hxw : x = w
      · subst hxw; exact hP
      · simp only [Function.update_of_ne hxw] at hx
        exact h.reg x tr' hx
    · intro x hx hxF
      by_cases hxw : x = w
      · subst hxw
        refine ⟨⟨tr.vals, tr.unexplored - 1⟩, by simp, hval, ?_⟩
        have : tr.unexplored - 1 = tr.unexplored - 1 := rfl
        show F.count x ≤ tr.unexplored - 1
        omega
      · obtain ⟨tr', a, b, d⟩ := h.live x hx (Multiset.mem_cons_of_mem hxF)
        refine ⟨tr', by simp only [Function.update_of_ne hxw]; exact a, b, ?_⟩
        rwa [Multiset.count_cons_of_ne hxw] at d
    · intro x hx hxF
      exact h.used x hx (Multiset.mem_cons_of_mem hxF)
    · intro r hr
      exact Or.inl hr
  · rename_i hne
    have hone : tr.unexplored = 1 := by simpa using hne
    obtain ⟨rfl, rfl⟩ := Prod.mk.inj (Option.some.inj hv)
    have hw0 : w ∉ F := by
      rw [← Multiset.count_eq_zero]
      omega
    refine ⟨hval, ⟨?_, ?_, hheld, fun x a => h.nodup x (hact x a), fun x a => h.bound x (hact x a),
      fun x y a b => h.disj x y (hact x a) (hact y b), ?_, ?_, h.znodup, h.zbound,
      fun x a => h.zdisj x (hact x a)⟩, rfl, ?_⟩
    · intro x tr' hx
      by_cases hxw : x = w
      · subst hxw; exact hP
      · simp only [Function.update_of_ne hxw] at hx
        exact h.reg x tr' hx
    · intro x hx hxF
      have hxw : x ≠ w := fun e => hw0 (e ▸ hxF)
      obtain ⟨tr', a, b, d⟩ := h.live x hx (Multiset.mem_cons_of_mem hxF)
      refine ⟨tr', by simp only [Function.update_of_ne hxw]; exact a, b, ?_⟩
      rwa [Multiset.count_cons_of_ne hxw] at d
    · intro x hx hxF r hr
      have hxw : x ≠ w := fun e => hw0 (e ▸ hxF)
      have h1 := h.used x hx (Multiset.mem_cons_of_mem hxF) r hr
      have h2 := h.disj x w (Or.inl ⟨hx, Multiset.mem_cons_of_mem hxF⟩)
        (Or.inl ⟨hP, Multiset.mem_cons_self _ _⟩) hxw r hr
      simp only [Pool.release, Finset.mem_union, List.mem_toFinset, hval]
      rintro (h' | h')
      · exact h1 h'
      · exact h2 h'
    · intro r hr
      simp only [Pool.release, Finset.mem_union, List.mem_toFinset, hval] at hr
      rcases hr with hr | hr
      · exact h.ubound r hr
      · exact h.bound w (Or.inl ⟨hP, Multiset.mem_cons_self _ _⟩) r hr
    · intro r hr
      simp only [Pool.release, Finset.mem_union, List.mem_toFinset, hval] at hr
      exact hr

/-- Registering a wire with registers in hand. -/
theorem RInv.registerWire {c : Circ W E} {s : Srt} {t t' : Tracker W E} {P : List W}
    {F : Multiset W} {H : List W} {ρ : W → List Nat} {zs Z : List Nat} {w : W} {v : Vals}
    (h : RInv s t P F H ρ (zs ++ Z)) (hw : w ∉ P) (hu : F.count w ≤ c.nbrs w) (hv : v.reg s = zs)
    (hreg : registerWire c w v t = .ok t') :
    RInv s t' (w :: P) F H (Function.update ρ w zs) Z ∧ (t'.pool s).size = (t.pool s).size ∧
      (t'.pool s).unused =
        (if c.nbrs w = 0 then (t.pool s).unused ∪ zs.toFinset else (t.pool s).unused \ zs.toFinset)
      := by
  have hwH : w ∉ H := fun hm => hw (h.held w hm)
  have hzn := List.nodup_append.1 h.znodup
  have hupd : ∀ x, x ∈ P → Function.update ρ w zs x = ρ x := fun x hx =>
    Function.update_of_ne (fun e => hw (by rw [← e]; exact hx)) _ _
  unfold Encoder.registerWire at hreg
  split at hreg
  · exact absurd hreg (by simp)
  split at hreg
  · rename_i h0
    obtain rfl := Except.ok.inj hreg
    have hwF : w ∉ F := by
      rw [← Multiset.count_eq_zero]; omega
    have hact : ∀ x, Act (w :: P) F H x → Act P F H x ∧ x ∈ P := by
      rintro x (⟨a, b⟩ | a)
      · rcases List.mem_cons.1 a with rfl | a
        · exact absurd b hwF
        · exact ⟨Or.inl ⟨a, b⟩, a⟩
      · exact ⟨Or.inr a, h.held x a⟩
    have hun : (((t.pool s).claim (v.reg s)).release (v.reg s)).unused =
        (t.pool s).unused ∪ zs.toFinset := by
      simp [Pool.claim, Pool.release, hv]
    refine ⟨⟨?_, ?_, ?_, ?_, ?_, ?_, ?_, ?_, hzn.2.1, ?_, ?_⟩, rfl, ?_⟩
    · intro x tr hx
      exact List.mem_cons_of_mem _ (h.reg x tr hx)
    · intro x hx hxF
      rcases List.mem_cons.1 hx with rfl | hx
      · exact absurd hxF hwF
      · rw [hupd x hx]; exact h.live x hx hxF
    · exact fun x hx => List.mem_cons_of_mem _ (h.held x hx)
    · intro x a
      rw [hupd x (hact x a).2]; exact h.nodup x (hact x a).1
    · intro x a
      rw [hupd x (hact x a).2]; exact h.bound x (hact x a).1
    · intro x y a b
      rw [hupd x (hact x a).2, hupd y (hact y b).2]; exact h.disj x y (hact x a).1 (hact y b).1
    · intro x hx hxF r hr
      obtain ⟨a, hxP⟩ := hact x (Or.inl ⟨hx, hxF⟩)
      rw [hupd x hxP] at hr
      show r ∉ (((t.pool s).claim (v.reg s)).release (v.reg s)).unused
      rw [hun, Finset.mem_union, List.mem_toFinset]
      rintro (h' | h')
      · exact h.used x hxP hxF r hr h'
      · exact h.zdisj x a r hr (List.mem_append_left _ h')
    · intro r hr
      have hr : r ∈ (((t.pool s).claim (v.reg s)).release (v.reg s)).unused := hr
      rw [hun, Finset.mem_union, List.mem_toFinset] at hr
      rcases hr with hr | hr
      · exact h.ubound r hr
      · exact h.zbound r (List.mem_append_left _ hr)
    · exact fun r hr => h.zbound r (List.mem_append_right _ hr)
    · intro x a r hr
      rw [hupd x (hact x a).2] at hr
      exact fun h' => h.zdisj x (hact x a).1 r hr (List.mem_append_right _ h')
    · rw [if_pos h0]; exact hun
  · rename_i h0
    obtain rfl := Except.ok.inj hreg
    have hact : ∀ x, x ≠ w → Act (w :: P) F H x → Act P F H x ∧ x ∈ P := by
      rintro x hne (⟨a, b⟩ | a)
      · rcases List.mem_cons.1 a with rfl | a
        · exact absurd rfl hne
        · exact ⟨Or.inl ⟨a, b⟩, a⟩
      · exact ⟨Or.inr a, h.held x a⟩
    have hun : ((t.pool s).claim (v.reg s)).unused = (t.pool s).unused \ zs.toFinset := by
      simp [Pool.claim, hv]
    refine ⟨⟨?_, ?_, ?_, ?_, ?_, ?_, ?_, ?_, hzn.2.1, ?_, ?_⟩, rfl, ?_⟩
    · intro x tr hx
      by_cases hxw : x = w
      · subst hxw; exact List.mem_cons_self ..
      · simp only [Function.update_of_ne hxw] at hx
        exact List.mem_cons_of_mem _ (h.reg x tr hx)
    · intro x hx hxF
      by_cases hxw : x = w
      · subst hxw
        exact ⟨⟨v, c.nbrs x⟩, by simp, by simpa using hv, hu⟩
      · rcases List.mem_cons.1 hx with rfl | hx
        · exact absurd rfl hxw
        · obtain ⟨tr, a, b, d⟩ := h.live x hx hxF
          exact ⟨tr, by simp only [Function.update_of_ne hxw]; exact a, by rw [hupd x hx]; exact b, d⟩
    · exact fun x hx => List.mem_cons_of_mem _ (h.held x hx)
    · intro x a
      by_cases hxw : x = w
      · subst hxw; simpa using hzn.1
      · rw [hupd x (hact x hxw a).2]; exact h.nodup x (hact x hxw a).1
    · intro x a
      by_cases hxw : x = w
      · subst hxw
        intro r hr
        rw [Function.update_self] at hr
        exact h.zbound r (List.mem_append_left _ hr)
      · rw [hupd x (hact x hxw a).2]; exact h.bound x (hact x hxw a).1
    · intro x y a b hne r hr
      by_cases hxw : x = w
      · subst hxw
        rw [hupd y (hact y (Ne.symm hne) b).2]
        rw [Function.update_self] at hr
        exact fun h' => h.zdisj y (hact y (Ne.symm hne) b).1 r h' (List.mem_append_left _ hr)
      · rw [hupd x (hact x hxw a).2] at hr
        by_cases hyw : y = w
        · subst hyw
          rw [Function.update_self]
          exact fun h' => h.zdisj x (hact x hxw a).1 r hr (List.mem_append_left _ h')
        · rw [hupd y (hact y hyw b).2]
          exact h.disj x y (hact x hxw a).1 (hact y hyw b).1 hne r hr
    · intro x hx hxF r hr
      show r ∉ ((t.pool s).claim (v.reg s)).unused
      rw [hun, Finset.mem_sdiff, List.mem_toFinset]
      by_cases hxw : x = w
      · subst hxw
        rw [Function.update_self] at hr
        exact fun h' => h'.2 hr
      · obtain ⟨a, hxP⟩ := hact x hxw (Or.inl ⟨hx, hxF⟩)
        rw [hupd x hxP] at hr
        exact fun h' => h.used x hxP hxF r hr h'.1
    · intro r hr
      have hr : r ∈ ((t.pool s).claim (v.reg s)).unused := hr
      rw [hun, Finset.mem_sdiff] at hr
      exact h.ubound r hr.1
    · exact fun r hr => h.zbound r (List.mem_append_right _ hr)
    · intro x a r hr
      by_cases hxw : x = w
      · subst hxw
        rw [Function.update_self] at hr
        exact fun h' => hzn.2.2 r hr r h' rfl
      · rw [hupd x (hact x hxw a).2] at hr
        exact fun h' => h.zdisj x (hact x hxw a).1 r hr (List.mem_append_right _ h')
    · rw [if_neg h0]; exact hun

/-- Taking fresh registers. -/
theorem RInv.fresh {s : Srt} {t t1 : Tracker W E} {P : List W} {F : Multiset W} {H : List W}
    {ρ : W → List Nat} {Z rs : List Nat} (h : RInv s t P F H ρ Z)
    (hw : t1.wires = t.wires) (hf : FreshSpec (t.pool s) rs (t1.pool s))
    (hb : ∀ r ∈ (t1.pool s).unused, r < (t1.pool s).size)
    (hn : rs = [] ∨ (H = [] ∧ Z = [])) : RInv s t1 P F H ρ (rs ++ Z) := by
  refine ⟨by rw [hw]; exact h.reg, by rw [hw]; exact h.live, h.held, h.nodup,
    fun w a r hr => Nat.lt_of_lt_of_le (h.bound w a r hr) hf.size, h.disj,
    fun w a b r hr h' => h.used w a b r hr (hf.sub h'), hb, ?_, ?_, ?_⟩
  · rcases hn with rfl | ⟨_, rfl⟩
    · simpa using h.znodup
    · simpa using hf.nodup
  · intro r hr
    rcases List.mem_append.1 hr with hr | hr
    · exact hf.lt r hr
    · exact Nat.lt_of_lt_of_le (h.zbound r hr) hf.size
  · intro w a r hr h'
    rcases List.mem_append.1 h' with hq | h'
    · rcases hn with rfl | ⟨rfl, rfl⟩
      · simp at hq
      · rcases a with ⟨a, b⟩ | a
        · rcases hf.src r hq with h'' | h''
          · exact h.used w a b r hr h''
          · have := h.bound w (Or.inl ⟨a, b⟩) r hr
            omega
        · simp at a
    · exact h.zdisj w a r hr h'

/-! ### The loop over the output wires -/

theorem Circ.total_cons (c : Circ W E) (w : W) (ws : List W) (s : Srt) :
    c.total (w :: ws) s = (c.cnt w).reg s + c.total ws s := by simp [Circ.total]

/-- Everything the loop over the output wires guarantees. -/
structure OutsSpec (c : Circ W E) (s : Srt) (t : Tracker W E) (P : List W) (F : Multiset W)
    (H : List W) (ρ : W → List Nat) (Z A : List Nat) (outs : List W) (new : List Nat)
    (t' : Tracker W E) (ρ' : W → List Nat) : Prop where
  keep : ∀ w, w ∉ outs → ρ' w = ρ w
  inv : ∀ P', (∀ w, w ∈ P' ↔ w ∈ outs ∨ w ∈ P) → RInv s t' P' F H ρ' (Z.drop (c.total outs s))
  flat : outs.flatMap ρ' = Z.take (c.total outs s) ++ new
  width : ∀ w ∈ outs, (ρ' w).length = (c.cnt w).reg s
  size : (t.pool s).size ≤ (t'.pool s).size
  nodup : new.Nodup
  avoid : ∀ r ∈ new, r ∉ A
  src : ∀ r ∈ new, r ∈ (t.pool s).unused ∨ (t.pool s).size ≤ r
  lt : ∀ r ∈ new, r < (t'.pool s).size
  none : new = [] ∨ H = []
  len : new.length = c.total outs s - Z.length
  clean : (∀ w ∈ outs, (c.cnt w).reg s ≠ 0 → c.nbrs w ≠ 0) →
    ∀ r ∈ (t'.pool s).unused, r ∈ (t.pool s).unused ∧ r ∉ Z.take (c.total outs s) ∧ r ∉ new

set_option maxHeartbeats 400000 in
theorem registerOuts_spec (c : Circ W E) (s : Srt) (F : Multiset W) (H : List W)
    (hu : ∀ w, F.count w ≤ c.nbrs w) :
    ∀ (outs : List W) (reuse : Srt → List Nat) (ps : List E) (t : Tracker W E) (P : List W)
      (ρ : W → List Nat) (Z A : List Nat) (new : Srt → List Nat) (t' : Tracker W E),
      RInv s t P F H ρ Z → (∀ w ∈ outs, w ∉ P) → outs.Nodup →
      (reuse s = Z ∨ c.total outs s = 0) →
      NoStraddle Z.length (outs.map fun w => (c.cnt w).reg s) → DeadLast c s outs →
      (H = [] ∨ c.total outs s ≤ Z.length) →
      (c.total outs s ≠ 0 → ∀ r ∈ A, r ∈ (t.pool s).unused → r ∈ Z) →
      (∀ r ∈ A, r < (t.pool s).size) →
      registerOuts c outs reuse ps t = .ok (new, t') →
      ∃ ρ', OutsSpec c s t P F H ρ Z A outs (new s) t' ρ' := by
  intro outs
  induction outs with
  | nil =>
    intro reuse ps t P ρ Z A new t' hR _ _ _ _ _ _ _ _ hr
    simp only [registerOuts, Except.ok.injEq, Prod.mk.injEq] at hr
    obtain ⟨rfl, rfl⟩ := hr
    refine ⟨ρ, fun _ _ => rfl, ?_, by simp [Circ.total], by simp, Nat.le_refl _, by simp, by simp,
      by simp, by simp, Or.inl rfl, by simp [Circ.total], ?_⟩
    · intro P' hP'
      have hP' : ∀ w, w ∈ P' ↔ w ∈ P := by simpa using hP'
      have ha : ∀ w, Act P' F H w → Act P F H w := by
        rintro w (⟨a, b⟩ | a)
        · exact Or.inl ⟨(hP' w).1 a, b⟩
        · exact Or.inr a
      have := hR
      simp only [Circ.total, List.map_nil, List.sum_nil, List.drop_zero]
      exact ⟨fun w tr h => (hP' w).2 (hR.reg w tr h), fun w h => hR.live w ((hP' w).1 h),
        fun w h => (hP' w).2 (hR.held w h), fun w a => hR.nodup w (ha w a),
        fun w a => hR.bound w (ha w a), fun w w' a b => hR.disj w w' (ha w a) (ha w' b),
        fun w h => hR.used w ((hP' w).1 h), hR.ubound, hR.znodup, hR.zbound,
        fun w a => hR.zdisj w (ha w a)⟩
    · intro _ r hr
      exact ⟨hr, by simp [Circ.total], by simp⟩
  | cons w ws ih =>
    intro reuse ps t P ρ Z A new t' hR hPn hnd hre hst hdl hH hA hAb hr
    obtain ⟨hwws, hnd'⟩ := List.nodup_cons.1 hnd
    rw [Circ.total_cons] at hre hH hA
    obtain ⟨hst1, hst2⟩ : (Z.length = 0 ∨ (c.cnt w).reg s ≤ Z.length) ∧
      NoStraddle (Z.length - (c.cnt w).reg s) (ws.map fun w => (c.cnt w).reg s) := hst
    obtain ⟨hd1, hd2⟩ := hdl
    simp only [registerOuts] at hr
    split at hr
    · exact absurd hr (by simp)
    rename_i t2 ht2
    split at hr
    · exact absurd hr (by simp)
    rename_i new' t3 ht3
    simp only [Except.ok.injEq, Prod.mk.injEq] at hr
    obtain ⟨rfl, rfl⟩ := hr
    -- the registers taken over
    have htk : (reuse s).take ((c.cnt w).reg s) = Z.take ((c.cnt w).reg s) := by
      rcases hre with h | h
      · rw [h]
      · have : (c.cnt w).reg s = 0 := by omega
        simp [this]
    simp only [htk] at ht2 ⊢
    obtain ⟨hf, hfb, hfl⟩ := freshN_spec
      ((c.cnt w).reg s - (Z.take ((c.cnt w).reg s)).length) (t.pool s) hR.ubound
    generalize hgot : (t.pool s).freshN
      ((c.cnt w).reg s - (Z.take ((c.cnt w).reg s)).length) = got at hf hfb hfl ⊢
    have hlt : (Z.take ((c.cnt w).reg s)).length = min ((c.cnt w).reg s) Z.length :=
      List.length_take
    have hgz : got.1 = [] ∨ (H = [] ∧ Z = []) := by
      by_cases hg : got.1 = []
      · exact Or.inl hg
      · right
        have : 0 < got.1.length := List.length_pos_iff.2 hg
        have hz : Z.length = 0 := by omega
        exact ⟨by rcases hH with h | h; exact h; omega, List.length_eq_zero_iff.1 hz⟩
    generalize ht1 : ({ pool := _, exprs := _, wires := _ } : Tracker W E) = t1 at ht2
    generalize hvv : ({ reg := _, params := _ } : Vals) = v at ht2
    have hpool : t1.pool s = got.2 := by rw [← ht1]; simp only [htk, hgot]
    have hwires : t1.wires = t.wires := by rw [← ht1]
    have hvreg : v.reg s = Z.take ((c.cnt w).reg s) ++ got.1 := by
      rw [← hvv]; simp only [htk, hgot]
    have hR1 : RInv s t1 P F H ρ
        ((Z.take ((c.cnt w).reg s) ++ got.1) ++ Z.drop ((c.cnt w).reg s)) := by
      have := hR.fresh (t1 := t1) (rs := got.1) hwires (by rw [hpool]; exact hf)
        (by rw [hpool]; exact hfb) hgz
      rcases hgz with h | ⟨h1, h2⟩
      · rw [h] at this ⊢
        simpa using this
      · subst h2
        simpa using this
    obtain ⟨hR2, hs2, hun2⟩ := hR1.registerWire (hPn w (by simp)) (hu w) hvreg ht2
    rw [hpool] at hs2 hun2
    -- the rest of the loop
    have hzs : ∀ r, r ∈ Z.take ((c.cnt w).reg s) ++ got.1 → c.total ws s ≠ 0 →
        r ∉ (t2.pool s).unused := by
      intro r hr hne
      rw [hun2]
      split
      · rename_i h0
        rcases hd1 h0 with h | h
        · have h1 : Z.take ((c.cnt w).reg s) = [] := by rw [h]; simp
          have h2 : got.1 = [] := List.length_eq_zero_iff.1 (by omega)
          rw [h1, h2] at hr
          simp at hr
        · exact absurd h hne
      · simp only [Finset.mem_sdiff, List.mem_toFinset]
        exact fun h => h.2 hr
    have hsub2 : c.total ws s ≠ 0 → ∀ r ∈ (t2.pool s).unused, r ∈ (t.pool s).unused := by
      intro hne r hr
      have hr' := hr
      rw [hun2] at hr
      split at hr
      · rcases Finset.mem_union.1 hr with h | h
        · exact hf.sub h
        · rw [List.mem_toFinset] at h
          exact absurd hr' (hzs r h hne)
      · exact hf.sub (Finset.mem_sdiff.1 hr).1
    obtain ⟨ρ', hO⟩ := ih (fun s => (reuse s).drop ((c.cnt w).reg s)) (ps.drop (c.cnt w).params) t2
      (w :: P) (Function.update ρ w (Z.take ((c.cnt w).reg s) ++ got.1))
      (Z.drop ((c.cnt w).reg s)) (got.1 ++ A) new' t3 hR2
      (by
        intro x hx
        rw [List.mem_cons, not_or]
        exact ⟨fun e => hwws (e ▸ hx), hPn x (List.mem_cons_of_mem _ hx)⟩)
      hnd'
      (by
        rcases hre with h | h
        · left; simp [h]
        · right; omega)
      (by simpa using hst2) hd2
      (by
        rcases hH with h | h
        · exact Or.inl h
        · right; simp only [List.length_drop]; omega)
      (by
        intro hne r hr hru
        rcases List.mem_append.1 hr with hr | hr
        · exact absurd hru (hzs r (List.mem_append_right _ hr) hne)
        · have h1 := hA (by omega) r hr (hsub2 hne r hru)
          rw [← List.take_append_drop ((c.cnt w).reg s) Z] at h1
          rcases List.mem_append.1 h1 with h1 | h1
          · exact absurd hru (hzs r (List.mem_append_left _ h1) hne)
          · exact h1)
      (by
        intro r hr
        rw [hs2]
        rcases List.mem_append.1 hr with hr | hr
        · exact hf.lt r hr
        · exact Nat.lt_of_lt_of_le (hAb r hr) hf.size)
      ht3
    have hρw : ρ' w = Z.take ((c.cnt w).reg s) ++ got.1 := by
      rw [hO.keep w hwws, Function.update_self]
    have hdrop0 : got.1 ≠ [] → Z = [] := fun h => (hgz.resolve_left h).2
    refine ⟨ρ', ?_, ?_, ?_, ?_, ?_, ?_, ?_, ?_, ?_, ?_, ?_, ?_⟩
    · intro x hx
      rw [List.mem_cons, not_or] at hx
      rw [hO.keep x hx.2, Function.update_of_ne hx.1]
    · intro P' hP'
      have := hO.inv P' (by
        intro x
        rw [hP' x, List.mem_cons, List.mem_cons, or_assoc, or_left_comm])
      rw [List.drop_drop] at this
      rw [Circ.total_cons]
      exact this
    · rw [List.flatMap_cons, hρw, hO.flat, Circ.total_cons]
      by_cases hg : got.1 = []
      · simp only [hg, List.append_nil, List.nil_append]
        rw [List.take_add, List.append_assoc]
      · rw [hdrop0 hg]
        simp
    · intro x hx
      rcases List.mem_cons.1 hx with rfl | hx
      · rw [hρw, List.length_append, hfl]
        omega
      · exact hO.width x hx
    · have := hO.size
      have := hf.size
      omega
    · rw [List.nodup_append]
      refine ⟨hf.nodup, hO.nodup, ?_⟩
      rintro a ha b hb rfl
      exact hO.avoid a hb (List.mem_append_left _ ha)
    · intro r hr
      rcases List.mem_append.1 hr with hr | hr
      · intro hrA
        have hz := hdrop0 (List.ne_nil_of_mem hr)
        have hne : (c.cnt w).reg s + c.total ws s ≠ 0 := by
          have : 0 < got.1.length := List.length_pos_of_mem hr
          omega
        rcases hf.src r hr with h | h
        · have := hA hne r hrA h
          rw [hz] at this
          simp at this
        · have := hAb r hrA
          omega
      · exact fun h => hO.avoid r hr (List.mem_append_right _ h)
    · intro r hr
      rcases List.mem_append.1 hr with hr | hr
      · exact hf.src r hr
      · rcases hO.src r hr with h | h
        · left
          have hne : c.total ws s ≠ 0 := by
            have h1 := hO.len
            have : 0 < (new' s).length := List.length_pos_of_mem hr
            omega
          exact hsub2 hne r h
        · right
          have := hf.size
          omega
    · intro r hr
      rcases List.mem_append.1 hr with hr | hr
      · have := hf.lt r hr
        have := hO.size
        omega
      · exact hO.lt r hr
    · rcases hO.none with h | h
      · rcases hgz with h' | h'
        · left; rw [h, h']; rfl
        · exact Or.inr h'.1
      · exact Or.inr h
    · rw [List.length_append, hfl, hO.len, Circ.total_cons, List.length_drop]
      omega
    · intro hall r hr
      obtain ⟨h1, h2, h3⟩ := hO.clean (fun x hx => hall x (List.mem_cons_of_mem _ hx)) r hr
      have h1' : r ∈ (t.pool s).unused ∧ r ∉ Z.take ((c.cnt w).reg s) ++ got.1 := by
        rw [hun2] at h1
        split at h1
        · rename_i h0
          have hc : (c.cnt w).reg s = 0 := by
            by_contra hc
            exact hall w (by simp) hc h0
          have e1 : Z.take ((c.cnt w).reg s) = [] := by rw [hc]; simp
          have e2 : got.1 = [] := List.length_eq_zero_iff.1 (by omega)
          rw [e1, e2] at h1 ⊢
          simp only [List.append_nil, List.toFinset_nil, Finset.union_empty] at h1
          exact ⟨hf.sub h1, by simp⟩
        · rw [Finset.mem_sdiff, List.mem_toFinset] at h1
          exact ⟨hf.sub h1.1, h1.2⟩
      rw [List.mem_append, not_or] at h1'
      refine ⟨h1'.1, ?_, ?_⟩
      · rw [Circ.total_cons, List.take_add, List.mem_append, not_or]
        exact ⟨h1'.2.1, h2⟩
      · rw [List.mem_append, not_or]
        exact ⟨h1'.2.2, h3⟩

end Verif.Encoder
