import Verif.Lemmas.LazyBoolLin

/-!
# Futures are neither lost nor used twice
-/

namespace Verif.LazyBool

variable {W L ν : Type} [DecidableEq ν]

def avail (H : Heap) (h : Nat) : Nat := if h < H.length then 1 else 0

/-- Between two states, futures move between being consumed, being at hand and not existing. -/
def Bal (H : Heap) (a : Nat → Nat) (H' : Heap) (b : Nat → Nat) : Prop :=
  ∀ h, usedOf H' h + b h + avail H h = usedOf H h + a h + avail H' h

theorem Bal.refl {H : Heap} {a b : Nat → Nat} (h : ∀ i, b i = a i) : Bal H a H b := by
  intro i; rw [h i]

theorem Bal.trans {H1 H2 H3 : Heap} {a b b' c : Nat → Nat} (h : Bal H1 a H2 b) (hb : ∀ i, b i = b' i)
    (h' : Bal H2 b' H3 c) : Bal H1 a H3 c := by
  intro i
  have h1 := h i; have h2 := h' i; have h3 := hb i
  omega

/-- Adds what does not take part. -/
theorem Bal.frame {H1 H2 : Heap} {a b : Nat → Nat} (h : Bal H1 a H2 b) (c : Nat → Nat) :
    Bal H1 (fun i => a i + c i) H2 (fun i => b i + c i) := by
  intro i
  have h1 := h i
  dsimp only
  omega

theorem consume_bal {H H1 : Heap} {h : Nat} {b : Bool} (hc : consume H h = some (b, H1)) :
    Bal H (fun i => if h = i then 1 else 0) H1 (fun _ => 0) := by
  unfold consume at hc
  cases hs : H[h]? with
  | none => rw [hs] at hc; simp at hc
  | some s =>
    rw [hs] at hc
    simp only [Option.some.injEq, Prod.mk.injEq] at hc
    obtain ⟨_, rfl⟩ := hc
    have hlt : h < H.length := (List.getElem?_eq_some_iff.mp hs).1
    intro i
    simp only [avail, List.length_set, usedOf, List.getElem?_set]
    by_cases hi : h = i
    · subst hi
      rw [if_pos rfl, if_pos hlt, hs]
      simp only [Option.map_some, Option.getD_some, if_true]
    · simp [hi]

theorem alloc_bal (H : Heap) (b : Bool) :
    Bal H (fun _ => 0) (H ++ [⟨b, 0⟩]) (fun i => if H.length = i then 1 else 0) := by
  intro i
  simp only [avail, List.length_append, List.length_singleton, usedOf]
  rcases Nat.lt_trichotomy i H.length with h | h | h
  · rw [List.getElem?_append_left h, if_neg (by omega), if_pos h, if_pos (by omega)]
  · subst h
    simp
  · rw [List.getElem?_eq_none (by simp; omega), List.getElem?_eq_none (by omega), if_neg (by omega),
      if_neg (by omega), if_neg (by omega)]

mutual
theorem occ_clean : ∀ {x : Val}, x.clean = true → ∀ h, x.occ h = 0
  | .o _, _, _ => by simp [Val.occ]
  | .fut _, hc, _ => by simp [Val.clean] at hc
  | .lin _, _, _ => by simp [Val.occ]
  | .nat _, _, _ => by simp [Val.occ]
  | .hole, _, _ => by simp [Val.occ]
  | .sum t xs, hc, h => by
    simp only [Val.clean] at hc
    simp only [Val.occ]
    exact occL_clean hc h
theorem occL_clean : ∀ {xs : List Val}, cleanL xs = true → ∀ h, occL h xs = 0
  | [], _, _ => by simp [occL]
  | x :: xs, hc, h => by
    simp only [cleanL, Bool.and_eq_true] at hc
    simp only [occL, occ_clean hc.1 h, occL_clean hc.2 h]
end

mutual
theorem occ_noFut : ∀ {x : Val}, x.noFut = true → ∀ h, x.occ h = 0
  | .o _, _, _ => by simp [Val.occ]
  | .fut _, hc, _ => by simp [Val.noFut] at hc
  | .lin _, _, _ => by simp [Val.occ]
  | .nat _, _, _ => by simp [Val.occ]
  | .hole, _, _ => by simp [Val.occ]
  | .sum t xs, hc, h => by
    simp only [Val.noFut] at hc
    simp only [Val.occ]
    exact occL_noFut hc h
theorem occL_noFut : ∀ {xs : List Val}, noFutL xs = true → ∀ h, occL h xs = 0
  | [], _, _ => by simp [occL]
  | x :: xs, hc, h => by
    simp only [noFutL, Bool.and_eq_true] at hc
    simp only [occL, occ_noFut hc.1 h, occL_noFut hc.2 h]
end

theorem occL_append (h : Nat) : ∀ xs ys, occL h (xs ++ ys) = occL h xs + occL h ys
  | [], ys => by simp [occL]
  | x :: xs, ys => by rw [List.cons_append, occL, occL, occL_append h xs ys]; omega

theorem occL_set (h : Nat) : ∀ {xs : List Val} {i : Nat} {x y : Val}, xs[i]? = some x →
    occL h (xs.set i y) + x.occ h = occL h xs + y.occ h
  | [], i, x, y, hx => by simp at hx
  | z :: zs, 0, x, y, hx => by
    simp only [List.getElem?_cons_zero, Option.some.injEq] at hx
    subst hx
    rw [List.set_cons_zero, occL, occL]; omega
  | z :: zs, i + 1, x, y, hx => by
    simp only [List.getElem?_cons_succ] at hx
    have := occL_set h (y := y) hx
    rw [List.set_cons_succ, occL, occL]; omega

theorem occ_hole {x : Val} (hx : x.isHole = true) (h : Nat) : x.occ h = 0 := by
  cases x <;> simp [Val.isHole] at hx
  rfl

mutual
theorem free_bal : ∀ {x : Val} {H H1 : Heap}, freeVal x H = some H1 →
    Bal H (fun h => x.occ h) H1 (fun _ => 0)
  | .o _, H, H1, h => by
    simp only [freeVal, Option.some.injEq] at h; subst h; exact Bal.refl fun i => by simp [Val.occ]
  | .fut i, H, H1, h => by
    simp only [freeVal, Option.map_eq_some_iff] at h
    obtain ⟨⟨b, H2⟩, h1, rfl⟩ := h
    simpa only [Val.occ] using consume_bal h1
  | .lin _, H, H1, h => by
    simp only [freeVal, Option.some.injEq] at h; subst h; exact Bal.refl fun i => by simp [Val.occ]
  | .nat _, H, H1, h => by
    simp only [freeVal, Option.some.injEq] at h; subst h; exact Bal.refl fun i => by simp [Val.occ]
  | .hole, H, H1, h => by
    simp only [freeVal, Option.some.injEq] at h; subst h; exact Bal.refl fun i => by simp [Val.occ]
  | .sum t xs, H, H1, h => by
    simp only [freeVal] at h
    simpa only [Val.occ] using frees_bal h
theorem frees_bal : ∀ {xs : List Val} {H H1 : Heap}, freeVals xs H = some H1 →
    Bal H (fun h => occL h xs) H1 (fun _ => 0)
  | [], H, H1, h => by
    simp only [freeVals, Option.some.injEq] at h; subst h; exact Bal.refl fun i => by simp [occL]
  | x :: xs, H, H1, h => by
    rw [freeVals] at h
    cases hf : freeVal x H with
    | none => rw [hf] at h; simp at h
    | some H2 =>
      rw [hf] at h
      have h1 := (free_bal hf).frame (fun i => occL i xs)
      have h2 := frees_bal h
      simp only [occL]
      exact h1.trans (fun i => by simp) h2
end

mutual
theorem copy_bal : ∀ {x a b : Val} {H H1 : Heap}, copyVal x H = some (a, b, H1) →
    Bal H (fun h => x.occ h) H1 (fun h => a.occ h + b.occ h)
  | .o _, a, b, H, H1, h => by
    simp only [copyVal, Option.some.injEq, Prod.mk.injEq] at h
    obtain ⟨rfl, rfl, rfl⟩ := h
    exact Bal.refl fun i => by simp [Val.occ]
  | .fut i, a, b, H, H1, h => by
    rw [copyVal] at h
    cases hc : consume H i with
    | none => rw [hc] at h; simp at h
    | some r =>
      obtain ⟨v, H2⟩ := r
      rw [hc] at h
      simp only [alloc, Option.some.injEq, Prod.mk.injEq] at h
      obtain ⟨rfl, rfl, rfl⟩ := h
      have h1 := consume_bal hc
      have h2 := alloc_bal H2 v
      have h3 := (alloc_bal (H2 ++ [⟨v, 0⟩]) v).frame (fun i => if H2.length = i then 1 else 0)
      simp only [Val.occ]
      refine (h1.trans (fun _ => rfl) h2).trans (fun _ => by simp) (Bal.trans h3 ?_ (Bal.refl fun _ => rfl))
      intro j
      omega
  | .lin _, a, b, H, H1, h => by
    simp only [copyVal, Option.some.injEq, Prod.mk.injEq] at h
    obtain ⟨rfl, rfl, rfl⟩ := h
    exact Bal.refl fun i => by simp [Val.occ]
  | .nat _, a, b, H, H1, h => by
    simp only [copyVal, Option.some.injEq, Prod.mk.injEq] at h
    obtain ⟨rfl, rfl, rfl⟩ := h
    exact Bal.refl fun i => by simp [Val.occ]
  | .hole, a, b, H, H1, h => by
    simp only [copyVal, Option.some.injEq, Prod.mk.injEq] at h
    obtain ⟨rfl, rfl, rfl⟩ := h
    exact Bal.refl fun i => by simp [Val.occ]
  | .sum t xs, a, b, H, H1, h => by
    rw [copyVal] at h
    cases hc : copyVals xs H with
    | none => rw [hc] at h; simp at h
    | some r =>
      obtain ⟨as, bs, H2⟩ := r
      rw [hc] at h
      simp only [Option.some.injEq, Prod.mk.injEq] at h
      obtain ⟨rfl, rfl, rfl⟩ := h
      simpa only [Val.occ] using copies_bal hc
theorem copies_bal : ∀ {xs as bs : List Val} {H H1 : Heap}, copyVals xs H = some (as, bs, H1) →
    Bal H (fun h => occL h xs) H1 (fun h => occL h as + occL h bs)
  | [], as, bs, H, H1, h => by
    simp only [copyVals, Option.some.injEq, Prod.mk.injEq] at h
    obtain ⟨rfl, rfl, rfl⟩ := h
    exact Bal.refl fun i => by simp [occL]
  | x :: xs, as, bs, H, H1, h => by
    rw [copyVals] at h
    cases hc : copyVal x H with
    | none => rw [hc] at h; simp at h
    | some r =>
      obtain ⟨a, b, H2⟩ := r
      rw [hc] at h
      dsimp only at h
      cases hd : copyVals xs H2 with
      | none => rw [hd] at h; simp at h
      | some r =>
        obtain ⟨as', bs', H3⟩ := r
        rw [hd] at h
        simp only [Option.some.injEq, Prod.mk.injEq] at h
        obtain ⟨rfl, rfl, rfl⟩ := h
        have h1 := (copy_bal hc).frame (fun i => occL i xs)
        have h2 := (copies_bal hd).frame (fun i => a.occ i + b.occ i)
        intro i
        have g1 := h1 i
        have g2 := h2 i
        simp only [occL] at *
        omega
end

theorem copyN_bal : ∀ {k : Nat} {x : Val} {ys : List Val} {H H1 : Heap}, copyN k x H = some (ys, H1) →
    Bal H (fun h => x.occ h) H1 (fun h => occL h ys)
  | 0, x, ys, H, H1, h => by
    rw [copyN] at h
    obtain ⟨H2, h1, h2⟩ := Option.map_eq_some_iff.mp h
    simp only [Prod.mk.injEq] at h2
    obtain ⟨rfl, rfl⟩ := h2
    simpa only [occL] using free_bal h1
  | 1, x, ys, H, H1, h => by
    simp only [copyN, Option.some.injEq, Prod.mk.injEq] at h
    obtain ⟨rfl, rfl⟩ := h
    exact Bal.refl fun i => by simp [occL]
  | k + 2, x, ys, H, H1, h => by
    rw [copyN] at h
    cases hc : copyVal x H with
    | none => rw [hc] at h; simp at h
    | some r =>
      obtain ⟨a, b, H2⟩ := r
      rw [hc] at h
      dsimp only at h
      cases hd : copyN (k + 1) b H2 with
      | none => rw [hd] at h; simp at h
      | some r =>
        obtain ⟨zs, H3⟩ := r
        rw [hd] at h
        simp only [Option.some.injEq, Prod.mk.injEq] at h
        obtain ⟨rfl, rfl⟩ := h
        have h1 := copy_bal hc
        have h2 := (copyN_bal hd).frame (fun i => a.occ i)
        intro i
        have g1 := h1 i
        have g2 := h2 i
        simp only [occL] at *
        omega

theorem occ_bool (h : Nat) (b : Bool) : (bool b).occ h = 0 := occ_clean (clean_bool b) h

theorem occ_toBool {x : Val} {b : Bool} (hb : x.toBool = some b) (h : Nat) : x.occ h = 0 := by
  rw [toBool_inv hb]; exact occ_bool h b

def Out.All {α : Type} (p : α → Prop) : Out α → Prop
  | .ok a => p a
  | _ => True

theorem Out.All.bind {α β : Type} {p : α → Prop} {q : β → Prop} {a : Out α} {f : α → Out β}
    (h : a.All p) (hf : ∀ x, p x → (f x).All q) : (a.bind f).All q := by
  cases a <;> simp_all [Out.All, Out.bind]

theorem Out.All.stuck {α : Type} {p : α → Prop} : (Out.stuck : Out α).All p := trivial

theorem Out.All.ofOption {α : Type} {p : α → Prop} {a : Option α} (h : ∀ x, a = some x → p x) :
    (Out.ofOption a).All p := by
  cases a with
  | none => trivial
  | some x => exact h x rfl

/-- The balance of a statement that takes the futures `a`. -/
def Step (H : Heap) (a : Nat → Nat) (r : St W × List Val) : Prop :=
  Bal H a r.1.heap (fun h => occL h r.2)

theorem opStep_bal {M : Machine W L} {o : Op L} (ho : o.linear = true) {st : St W} {vs : List Val} :
    (opStep M o st vs).All (Step st.heap (fun h => occL h vs)) := by
  cases o with
  | read =>
    simp only [opStep]
    split
    · exact Bal.refl fun i => by simp [occL, Val.occ, occ_bool]
    · trivial
  | makeOpaque =>
    simp only [opStep]
    split
    · next v =>
      refine Out.All.bind (Out.All.ofOption (p := fun b => v.toBool = some b) fun b h => h) ?_
      intro b hb
      exact Bal.refl fun i => by simp [occL, Val.occ, occ_toBool hb]
    · trivial
  | bin f =>
    simp only [opStep]
    split
    · exact Bal.refl fun i => by simp [occL, Val.occ]
    · trivial
  | not =>
    simp only [opStep]
    split
    · exact Bal.refl fun i => by simp [occL, Val.occ]
    · trivial
  | const v =>
    simp only [opStep]
    split
    · exact Bal.refl fun i => by
        simp [occL, occ_noFut (x := v) (by simpa [Op.linear] using ho)]
    · trivial
  | measure =>
    simp only [opStep]
    split
    · exact Bal.refl fun i => by simp [occL, Val.occ]
    · trivial
  | measureReset =>
    simp only [opStep]
    split
    · exact Bal.refl fun i => by simp [occL, Val.occ]
    · trivial
  | prim l =>
    simp only [opStep]
    split
    · next hc =>
      cases hp : M.prim l st.w vs with
      | none => trivial
      | some r =>
        dsimp only
        split
        · next hr => exact Bal.refl fun i => by simp [occL_clean hc, occL_clean hr]
        · trivial
    · trivial
  | tag t => exact Bal.refl fun i => by simp [occL, Val.occ]
  | clone lz =>
    cases lz with
    | true => simp [Op.linear] at ho
    | false =>
      simp only [opStep]
      split
      · next v =>
        split
        · next hc =>
          simp only [Bool.false_or] at hc
          exact Bal.refl fun i => by simp [occL, occ_clean hc]
        · trivial
      · trivial
  | discard lz =>
    cases lz with
    | true => simp [Op.linear] at ho
    | false =>
      simp only [opStep]
      split
      · next v =>
        split
        · next hc =>
          simp only [Bool.false_or] at hc
          exact Bal.refl fun i => by simp [occL, occ_clean hc]
        · trivial
      · trivial
  | get lz size =>
    cases lz with
    | true => simp [Op.linear] at ho
    | false =>
      simp only [opStep]
      split
      · next xs i =>
        split
        · next hc =>
          simp only [Bool.false_or] at hc
          unfold getElem
          split
          · exact Bal.refl fun j => by simp [occL, Val.occ]
          · next x hx =>
            split
            · trivial
            · exact Bal.refl fun j => by
                simp [occL, Val.occ, occ_clean (clean_of_mem hc.2 (List.mem_of_getElem? hx))]
        · trivial
      · trivial
  | borrow =>
    simp only [opStep]
    split
    · next xs i =>
      unfold borrowElem
      split
      · trivial
      · next x hx =>
        split
        · trivial
        · refine Bal.refl fun j => ?_
          have := occL_set j (y := .hole) hx
          simp only [occL, Val.occ] at *
          omega
    · trivial
  | giveBack =>
    simp only [opStep]
    split
    · next xs i x =>
      unfold returnElem
      split
      · trivial
      · next y hy =>
        split
        · next hh =>
          refine Bal.refl fun j => ?_
          have := occL_set j (y := x) hy
          have := occ_hole hh j
          simp only [occL, Val.occ] at *
          omega
        · trivial
    · trivial
  | drop =>
    simp only [opStep]
    split
    · next v =>
      refine Out.All.bind (Out.All.ofOption (p := fun H => freeVal v st.heap = some H) fun b h => h) ?_
      intro H hH
      have := free_bal hH
      show Step _ _ _
      unfold Step
      simpa only [occL, Nat.add_zero] using this
    · trivial
  | lbin f =>
    simp only [opStep]
    split
    · next x y =>
      refine Out.All.bind (Out.All.ofOption (p := fun b => x.toBool = some b) fun b h => h) ?_
      intro a ha
      refine Out.All.bind (Out.All.ofOption (p := fun b => y.toBool = some b) fun b h => h) ?_
      intro b hb
      exact Bal.refl fun i => by simp [occL, occ_toBool ha, occ_toBool hb, occ_bool]
    · trivial
  | lnot =>
    simp only [opStep]
    split
    · next x =>
      refine Out.All.bind (Out.All.ofOption (p := fun b => x.toBool = some b) fun b h => h) ?_
      intro a ha
      exact Bal.refl fun i => by simp [occL, occ_toBool ha, occ_bool]
    · trivial
  | ilt n =>
    simp only [opStep]
    split
    · exact Bal.refl fun i => by simp [occL, Val.occ, occ_bool]
    · trivial
  | lazyMeasure =>
    simp only [opStep]
    split
    · next q =>
      have := alloc_bal st.heap (M.meas st.w q).1
      show Bal st.heap (fun _ => 0) (st.heap ++ [⟨(M.meas st.w q).1, 0⟩]) (fun i => (if st.heap.length = i then 1 else 0) + 0)
      simpa only [Nat.add_zero] using this
    · trivial
  | lazyMeasureReset =>
    simp only [opStep]
    split
    · next q =>
      have := alloc_bal st.heap (M.measReset st.w q).1
      show Bal st.heap (fun _ => 0) (st.heap ++ [⟨(M.measReset st.w q).1, 0⟩]) (fun i => 0 + ((if st.heap.length = i then 1 else 0) + 0))
      simpa only [Nat.add_zero, Nat.zero_add] using this
    · trivial
  | futRead =>
    simp only [opStep]
    split
    · next h =>
      refine Out.All.bind (Out.All.ofOption (p := fun r => consume st.heap h = some r) fun b h => h) ?_
      intro r hr
      have := consume_bal (b := r.1) (H1 := r.2) hr
      show Step _ _ _
      unfold Step
      simpa only [occL, Val.occ, Nat.add_zero, occ_bool] using this
    · trivial
  | copy k =>
    simp only [opStep]
    split
    · next v =>
      refine Out.All.bind (Out.All.ofOption (p := fun r => copyN k v st.heap = some r) fun b h => h) ?_
      intro r hr
      have := copyN_bal (ys := r.1) (H1 := r.2) hr
      show Step _ _ _
      unfold Step
      simpa only [occL, Val.occ, Nat.add_zero] using this
    · trivial

/-! ### Regions -/

/-- The futures in the values that the names `u` hold. -/
def phi (e : Env ν) : List ν → Nat → Nat
  | [], _ => 0
  | n :: ns, h => (match e n with | some v => v.occ h | none => 0) + phi e ns h

omit [DecidableEq ν] in
theorem phi_append (e : Env ν) (h : Nat) : ∀ xs ys, phi e (xs ++ ys) h = phi e xs h + phi e ys h
  | [], ys => by simp [phi]
  | x :: xs, ys => by rw [List.cons_append, phi, phi, phi_append e h xs ys]; omega

omit [DecidableEq ν] in
theorem getAll_phi {e : Env ν} : ∀ {ns : List ν} {vs : List Val}, getAll e ns = some vs →
    ∀ h, occL h vs = phi e ns h
  | [], vs, hg, h => by
    simp only [getAll, Option.some.injEq] at hg
    subst hg
    simp [occL, phi]
  | n :: ns, vs, hg, h => by
    rw [getAll] at hg
    cases hx : e n with
    | none => rw [hx] at hg; simp at hg
    | some x =>
      rw [hx] at hg
      dsimp only at hg
      obtain ⟨ws, hw, rfl⟩ := Option.map_eq_some_iff.mp hg
      rw [occL, phi, hx, getAll_phi hw h]

theorem phi_set {e : Env ν} {n : ν} {v : Val} (hn : e n = none) (h : Nat) : ∀ u : List ν,
    phi (fun m => if m = n then some v else e m) u h = phi e u h + u.count n * v.occ h
  | [] => by simp [phi]
  | m :: u => by
    rw [phi, phi, phi_set hn h u, List.count_cons]
    by_cases hm : m = n
    · subst hm
      simp [hn, Nat.add_mul]
      omega
    · simp [hm]
      omega

def Dom (e : Env ν) (D : List ν) : Prop := ∀ n, n ∉ D → e n = none

theorem bindAll_phi : ∀ {outs : List (ν × Bool)} {vs : List Val} {e e1 : Env ν} {D u : List ν},
    LinOuts D outs u → Dom e D → bindAll e outs vs = some e1 →
    (∀ h, phi e1 u h = phi e u h + occL h vs) ∧ Dom e1 (outs.map Prod.fst ++ D)
  | [], [], e, e1, D, u, _, hD, h => by
    simp only [bindAll, Option.some.injEq] at h
    subst h
    exact ⟨fun h => by simp [occL], by simpa using hD⟩
  | [], _ :: _, _, _, _, _, _, _, h => by simp [bindAll] at h
  | (_, _) :: _, [], _, _, _, _, _, _, h => by simp [bindAll] at h
  | (n, f) :: outs, v :: vs, e, e1, D, u, hL, hD, h => by
    obtain ⟨⟨h1, h2⟩, h3⟩ := hL
    rw [bindAll] at h
    simp only [List.map_cons, List.nodup_cons] at h1
    have hnD : n ∉ D := h2 n (by simp)
    split at h
    · next hc =>
      obtain ⟨g1, g2⟩ := bindAll_phi (D := n :: D) (u := u)
        (⟨⟨h1.2, fun m hm => by
          rw [List.mem_cons, not_or]
          exact ⟨fun hh => h1.1 (hh ▸ hm), h2 m (by simp [hm])⟩⟩,
          fun m hm => h3 m (by simp [hm])⟩)
        (fun m hm => by
          rw [List.mem_cons, not_or] at hm
          simp [hm.1, hD m hm.2]) h
      constructor
      · intro i
        rw [g1 i, phi_set (hD n hnD) i u, occL]
        cases f with
        | true => rw [h3 n (by simp)]; omega
        | false =>
          simp only [Bool.false_or] at hc
          rw [occ_clean hc]; omega
      · intro m hm
        refine g2 m ?_
        simp only [List.map_cons, List.cons_append, List.mem_cons, List.mem_append, not_or] at hm ⊢
        exact ⟨hm.2.1, hm.1, hm.2.2⟩
    · simp at h

def CalleeBal (c : Callee W) : Prop :=
  ∀ key (st : St W) vs, (c key st vs).All (Step st.heap (fun h => occL h vs))

/-- What follows a definition. -/
theorem next_bal {H : Heap} {D u : List ν} {e : Env ν} {outs : List (ν × Bool)} (hL : LinOuts D outs u)
    (hD : Dom e D) {r : St W × List Val} {a : Nat → Nat} (hr : Step H a r)
    {f : Env ν → St W → Out (St W × List Val)}
    (hk : ∀ e1, Dom e1 (outs.map Prod.fst ++ D) → (f e1 r.1).All (Step r.1.heap (phi e1 u))) :
    ((Out.ofOption (bindAll e outs r.2)).bind fun e1 => f e1 r.1).All
      (Step H (fun h => a h + phi e u h)) := by
  cases hb : bindAll e outs r.2 with
  | none => trivial
  | some e1 =>
    obtain ⟨h1, h2⟩ := bindAll_phi hL hD hb
    show (f e1 r.1).All _
    have h3 := hk e1 h2
    cases hf : f e1 r.1 with
    | ok s =>
      rw [hf] at h3
      intro i
      have g1 := hr i
      have g2 : usedOf s.1.heap i + occL i s.2 + avail r.1.heap i =
        usedOf r.1.heap i + phi e1 u i + avail s.1.heap i := h3 i
      have g3 := h1 i
      dsimp only at *
      omega
    | panic => trivial
    | fuel => trivial
    | stuck => trivial

mutual
theorem exec_bal {M : Machine W L} {c : Callee W} (hc : CalleeBal c) :
    ∀ (b : Body ν L) {D : List ν}, b.Lin D → ∀ {e : Env ν} {st : St W}, Dom e D →
      (exec M c b e st).All (Step st.heap (phi e b.uses))
  | .ret outs, D, _, e, st, _ => by
    rw [exec]
    refine Out.All.bind (Out.All.ofOption (p := fun vs => getAll e outs = some vs) fun b h => h) ?_
    intro vs hv
    exact Bal.refl fun i => by simp only [Body.uses]; exact getAll_phi hv i
  | .op o ins outs k, D, hb, e, st, hD => by
    simp only [Body.Lin] at hb
    obtain ⟨h1, h2, h3⟩ := hb
    rw [exec]
    refine Out.All.bind (Out.All.ofOption (p := fun vs => getAll e ins = some vs) fun b h => h) ?_
    intro vs hv
    refine Out.All.bind (opStep_bal h1) ?_
    intro r hr
    have := next_bal h2 hD hr fun e1 he1 => exec_bal (M := M) hc k h3 (st := r.1) he1
    simpa only [Body.uses, getAll_phi hv, ← phi_append] using this
  | .cond ins cs outs k, D, hb, e, st, hD => by
    simp only [Body.Lin] at hb
    obtain ⟨h1, h2, h3⟩ := hb
    rw [exec]
    refine Out.All.bind (Out.All.ofOption (p := fun vs => getAll e ins = some vs) fun b h => h) ?_
    intro vs hv
    refine Out.All.bind (p := Step st.heap (fun h => occL h vs)) ?_ ?_
    · cases vs with
      | nil => exact Out.All.stuck
      | cons v rest =>
        cases v with
        | sum t xs =>
          have := execCase_bal (M := M) hc cs h1 (t := t) (st := st) (vs := xs ++ rest)
          simpa only [occL_append, occL, Val.occ] using this
        | _ => exact Out.All.stuck
    · intro r hr
      have := next_bal h2 hD hr fun e1 he1 => exec_bal (M := M) hc k h3 (st := r.1) he1
      simpa only [Body.uses, getAll_phi hv, ← phi_append] using this
  | .dfg ins bins b outs k, D, hb, e, st, hD => by
    simp only [Body.Lin] at hb
    obtain ⟨⟨h0, h1⟩, h2, h3⟩ := hb
    rw [exec]
    refine Out.All.bind (Out.All.ofOption (p := fun vs => getAll e ins = some vs) fun b h => h) ?_
    intro vs hv
    refine Out.All.bind (p := Step st.heap (fun h => occL h vs)) ?_ ?_
    · have := next_bal (r := (st, vs)) (a := fun h => occL h vs) (e := noNames) h0 (fun _ _ => rfl)
        (Bal.refl fun _ => rfl) (f := exec M c b)
        fun e1 he1 => exec_bal (M := M) hc b (by simpa using h1) (st := st) he1
      have hp : ∀ (u : List ν) h, phi noNames u h = 0 := by
        intro u h
        induction u with
        | nil => rfl
        | cons n u ih => rw [phi, ih]; rfl
      simpa only [hp, Nat.add_zero] using this
    · intro r hr
      have := next_bal h2 hD hr fun e1 he1 => exec_bal (M := M) hc k h3 (st := r.1) he1
      simpa only [Body.uses, getAll_phi hv, ← phi_append] using this
  | .call key ins outs k, D, hb, e, st, hD => by
    simp only [Body.Lin] at hb
    obtain ⟨h2, h3⟩ := hb
    rw [exec]
    refine Out.All.bind (Out.All.ofOption (p := fun vs => getAll e ins = some vs) fun b h => h) ?_
    intro vs hv
    refine Out.All.bind (hc key st vs) ?_
    intro r hr
    have := next_bal h2 hD hr fun e1 he1 => exec_bal (M := M) hc k h3 (st := r.1) he1
    simpa only [Body.uses, getAll_phi hv, ← phi_append] using this
theorem execCase_bal {M : Machine W L} {c : Callee W} (hc : CalleeBal c) :
    ∀ (cs : Cases ν L), cs.Lin → ∀ {t : Nat} {st : St W} {vs : List Val},
      (execCase M c cs t st vs).All (Step st.heap (fun h => occL h vs))
  | .nil, _, _, _, _ => by
    rw [execCase]
    exact Out.All.stuck
  | .cons bins b cs, hb, 0, st, vs => by
    simp only [Cases.Lin] at hb
    obtain ⟨⟨h0, h1⟩, h2⟩ := hb
    rw [execCase]
    have := next_bal (r := (st, vs)) (a := fun h => occL h vs) (e := noNames) h0 (fun _ _ => rfl)
      (Bal.refl fun _ => rfl) (f := exec M c b)
      fun e1 he1 => exec_bal (M := M) hc b (by simpa using h1) (st := st) he1
    have hp : ∀ (u : List ν) h, phi noNames u h = 0 := by
      intro u h
      induction u with
      | nil => rfl
      | cons n u ih => rw [phi, ih]; rfl
    simpa only [hp, Nat.add_zero] using this
  | .cons bins b cs, hb, t + 1, st, vs => by
    simp only [Cases.Lin] at hb
    rw [execCase]
    exact execCase_bal hc cs hb.2
end

theorem execDef_bal {M : Machine W L} {c : Callee W} (hc : CalleeBal c) {d : Def ν L} (hd : d.Lin)
    {st : St W} {vs : List Val} : (execDef M c d st vs).All (Step st.heap (fun h => occL h vs)) := by
  unfold execDef
  have := next_bal (r := (st, vs)) (a := fun h => occL h vs) (e := noNames) hd.1 (fun _ _ => rfl)
    (Bal.refl fun _ => rfl) (f := exec M c d.body)
    fun e1 he1 => exec_bal (M := M) hc d.body (by simpa using hd.2) (st := st) he1
  have hp : ∀ (u : List ν) h, phi noNames u h = 0 := by
    intro u h
    induction u with
    | nil => rfl
    | cons n u ih => rw [phi, ih]; rfl
  simpa only [hp, Nat.add_zero] using this

theorem after_bal {c : Callee W} (hc : CalleeBal c) (succs : List (Option Nat)) (key : Key)
    {H : Heap} {a : Nat → Nat} {r : St W × List Val} (hr : Step H a r) :
    (after c succs key r).All (Step H a) := by
  have hcall : ∀ key vs, (∀ h, occL h r.2 = occL h vs) → (c key r.1 vs).All (Step H a) := by
    intro key vs hv
    have h1 := hc key r.1 vs
    cases hf : c key r.1 vs with
    | ok s =>
      rw [hf] at h1
      exact Bal.trans hr hv h1
    | _ => trivial
  obtain ⟨st, vs⟩ := r
  dsimp only at hcall
  cases key with
  | fn f => exact hr
  | loop f =>
    cases vs with
    | nil => trivial
    | cons v rest =>
      cases v with
      | sum t xs =>
        have ho : ∀ h, occL h (.sum t xs :: rest) = occL h (xs ++ rest) := by
          intro h; simp only [occL, Val.occ, occL_append]
        match t with
        | 0 => exact hcall _ _ ho
        | 1 => exact Bal.trans hr ho (Bal.refl fun _ => rfl)
        | t + 2 => trivial
      | _ => trivial
  | block f =>
    cases vs with
    | nil => trivial
    | cons v rest =>
      cases v with
      | sum t xs =>
        have ho : ∀ h, occL h (.sum t xs :: rest) = occL h (xs ++ rest) := by
          intro h; simp only [occL, Val.occ, occL_append]
        simp only [after]
        cases succs[t]? with
        | none => trivial
        | some g =>
          cases g with
          | none => exact Bal.trans hr ho (Bal.refl fun _ => rfl)
          | some g => exact hcall _ _ ho
      | _ => trivial

theorem run_bal {M : Machine W L} {P : Nat → Option (Def ν L)}
    (hP : ∀ f d, P f = some d → d.Lin) (n : Nat) : CalleeBal (run M P n) := by
  induction n with
  | zero => intro key st vs; trivial
  | succ n ih =>
    intro key st vs
    rw [run]
    cases hd : P key.index with
    | none => trivial
    | some d => exact Out.All.bind (execDef_bal ih (hP _ d hd)) fun r hr => after_bal ih d.succs key hr

end Verif.LazyBool
