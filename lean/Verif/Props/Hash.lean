import Verif.Model.Hash
import Mathlib.Data.List.Basic
import Mathlib.Data.List.Perm.Basic
import Mathlib.Data.List.Nodup
import Mathlib.Tactic.Common

/-!
# Properties of the circuit hash
-/

namespace Tket.Hash

/-- Predecessors of a node. -/
def Hugr.preds (g : Hugr) (n : Nat) : List Nat := g.links n |>.flatten.map (·.1)

/-- The contract of `petgraph::visit::Topo`: nodes of the region, each at most once, after their
predecessors in the region; and it stops only when every remaining node has an unvisited predecessor
(which happens only if there is a cycle). -/
structure Walk (g : Hugr) (c : Nat) : Prop where
  nodup : (g.walk c).Nodup
  sub : ∀ n ∈ g.walk c, n ∈ g.kids c
  topo : ∀ n ∈ g.walk c, ∀ p ∈ g.preds n, p ∈ g.kids c →
    p ∈ g.walk c ∧ (g.walk c).idxOf p < (g.walk c).idxOf n
  full : ∀ n ∈ g.kids c, (∀ p ∈ g.preds n, p ∈ g.kids c → p ∈ g.walk c) → n ∈ g.walk c

/-- The same circuit with other node numbers, another order of the children, another order of the links at
a port, and another traversal order. -/
structure Iso (A B : Hugr) (φ : Nat → Nat) : Prop where
  inj : ∀ m n, φ m = φ n → m = n
  op : ∀ n, B.op (φ n) = A.op n
  io : ∀ n, B.io (φ n) = (A.io n).map (fun x => (φ x.1, φ x.2))
  kids : ∀ c m, m ∈ B.kids (φ c) ↔ ∃ n ∈ A.kids c, m = φ n
  links : ∀ n, List.Forall₂ (fun a b => (a.map (fun l : Nat × Nat => (φ l.1, l.2))).Perm b)
    (A.links n) (B.links (φ n))

theorem foldl_xor_perm {l l' : List U} (h : l.Perm l') (z : U) :
    l.foldl (fun total x => x ^^^ total) z = l'.foldl (fun total x => x ^^^ total) z := by
  induction h generalizing z with
  | nil => rfl
  | cons x _ ih => exact ih _
  | swap x y l =>
    simp only [List.foldl_cons]
    congr 1
    rw [← BitVec.xor_assoc, ← BitVec.xor_assoc, BitVec.xor_comm x y]
  | trans _ _ ih1 ih2 => rw [ih1, ih2]

theorem portHash_congr (h : Hasher) {s s' : Nat → Option U} (i : Nat) {ls : List (Nat × Nat)}
    (hs : ∀ l ∈ ls, s l.1 = s' l.1) : portHash h s i ls = portHash h s' i ls := by
  unfold portHash
  congr 1
  exact List.map_congr_left (fun l hl => by rw [hs l hl])

theorem nodeValue_congr (h : Hasher) (g : Hugr) {s s' : Nat → Option U} (c : Option U) (n : Nat)
    (hs : ∀ p ∈ g.preds n, s p = s' p) : nodeValue h g s c n = nodeValue h g s' c n := by
  unfold nodeValue
  congr 1
  apply List.ext_getElem (by simp)
  intro i h1 h2
  simp only [List.getElem_mapIdx]
  simp only [List.length_mapIdx] at h1
  apply portHash_congr
  intro l hl
  apply hs
  unfold Hugr.preds
  exact List.mem_map.2 ⟨l, List.mem_flatten.2 ⟨_, List.getElem_mem h1, hl⟩, rfl⟩

/-- The hash of the children as used for a node. -/
def ChildOk (g : Hugr) (rec : Nat → Result U) (n : Nat) (c : Option U) : Prop :=
  if (g.kids n).isEmpty then c = none else ∃ v, rec n = some (.ok v) ∧ c = some v

theorem hashNode_ok {h : Hasher} {g : Hugr} {rec : Nat → Result U} {st : Nat → Option U} {n : Nat}
    {v : U} : hashNode h g rec st n = some (.ok v) ↔
      ∃ c, ChildOk g rec n c ∧ v = nodeValue h g st c n := by
  unfold hashNode ChildOk
  by_cases hk : (g.kids n).isEmpty = true
  · simp only [hk, if_true, Option.some.injEq, Except.ok.injEq, exists_eq_left]
    exact eq_comm
  · simp only [hk]
    cases hr : rec n with
    | none => simp
    | some r =>
      cases r with
      | error e => simp
      | ok c =>
        constructor
        · intro hh
          simp at hh
          exact ⟨some c, by simp, hh.symm⟩
        · rintro ⟨c', hc, rfl⟩
          simp at hc
          simp [hc]

/-- What a successful loop computes. -/
theorem hashAll_ok {h : Hasher} {g : Hugr} {rec : Nat → Result U} :
    ∀ (L : List Nat) (st st' : Nat → Option U), L.Nodup → hashAll h g rec L st = some (.ok st') →
    (∀ n ∉ L, st' n = st n) ∧
    (∀ l1 n l2, L = l1 ++ n :: l2 → ∃ c v, ChildOk g rec n c ∧ st' n = some v ∧
      v = nodeValue h g (fun m => if m ∈ l1 then st' m else st m) c n) := by
  intro L
  induction L with
  | nil =>
    intro st st' _ hh
    simp only [hashAll, Option.some.injEq, Except.ok.injEq] at hh
    subst hh
    exact ⟨fun _ _ => rfl, fun l1 n l2 e => by simp at e⟩
  | cons a L ih =>
    intro st st' hn hh
    rw [List.nodup_cons] at hn
    unfold hashAll at hh
    cases hN : hashNode h g rec st a with
    | none => rw [hN] at hh; simp at hh
    | some r =>
      cases r with
      | error e => rw [hN] at hh; simp at hh
      | ok v =>
        rw [hN] at hh
        simp only at hh
        by_cases hs : (st a).isSome = true
        · rw [if_pos hs] at hh; simp at hh
        · rw [if_neg hs] at hh
          obtain ⟨h1, h2⟩ := ih _ _ hn.2 hh
          have ha : st' a = some v := by rw [h1 a hn.1]; simp
          constructor
          · intro n hnn
            rw [List.mem_cons, not_or] at hnn
            rw [h1 n hnn.2, if_neg hnn.1]
          · intro l1 n l2 e
            cases l1 with
            | nil =>
              simp only [List.nil_append, List.cons.injEq] at e
              obtain ⟨rfl, rfl⟩ := e
              obtain ⟨c, hc, hv⟩ := hashNode_ok.1 hN
              exact ⟨c, v, hc, ha, by simpa using hv⟩
            | cons b l1 =>
              simp only [List.cons_append, List.cons.injEq] at e
              obtain ⟨rfl, e⟩ := e
              obtain ⟨c, v', hc, hv1, hv2⟩ := h2 l1 n l2 e
              refine ⟨c, v', hc, hv1, ?_⟩
              rw [hv2]
              apply nodeValue_congr
              intro p _
              by_cases hp : p ∈ l1
              · simp [hp]
              · by_cases hpa : p = a
                · subst hpa; simp [hp, ha]
                · simp [hp, hpa]

theorem hashAll_exists {h : Hasher} {g : Hugr} {rec : Nat → Result U} :
    ∀ (L : List Nat) (st : Nat → Option U), L.Nodup → (∀ n ∈ L, st n = none) →
    (∀ n ∈ L, ∃ c, ChildOk g rec n c) → ∃ st', hashAll h g rec L st = some (.ok st') := by
  intro L
  induction L with
  | nil => intro st _ _ _; exact ⟨st, rfl⟩
  | cons a L ih =>
    intro st hn hs hc
    rw [List.nodup_cons] at hn
    obtain ⟨c, hc1⟩ := hc a (by simp)
    have hN : hashNode h g rec st a = some (.ok (nodeValue h g st c a)) := hashNode_ok.2 ⟨c, hc1, rfl⟩
    unfold hashAll
    rw [hN]
    simp only [hs a (by simp)]
    apply ih _ hn.2
    · intro n hnL
      have : n ≠ a := by rintro rfl; exact hn.1 hnL
      simp [this, hs n (by simp [hnL])]
    · intro n hnL; exact hc n (by simp [hnL])

/-- With a topological order, every node of the region is hashed from the final hashes of its
predecessors. -/
theorem hashAll_walk {h : Hasher} {g : Hugr} {rec : Nat → Result U} {c : Nat} (w : Walk g c)
    {st : Nat → Option U} (hh : hashAll h g rec (g.walk c) (fun _ => none) = some (.ok st)) :
    (∀ n ∉ g.walk c, st n = none) ∧
    (∀ n ∈ g.walk c, ∃ ch, ChildOk g rec n ch ∧ st n = some (nodeValue h g st ch n)) := by
  obtain ⟨h1, h2⟩ := hashAll_ok _ _ _ w.nodup hh
  refine ⟨h1, ?_⟩
  intro n hn
  obtain ⟨l1, l2, e⟩ := List.append_of_mem hn
  obtain ⟨ch, v, hc, hv, hval⟩ := h2 l1 n l2 e
  refine ⟨ch, hc, ?_⟩
  rw [hv, hval]
  congr 1
  apply nodeValue_congr
  intro p hp
  by_cases hpl : p ∈ l1
  · simp [hpl]
  · simp only [hpl, if_false]
    by_cases hpw : p ∈ g.walk c
    · exfalso
      have := (w.topo n hn p hp (w.sub p hpw)).2
      have hnl : n ∉ l1 := by
        have hnd := w.nodup
        rw [e] at hnd
        intro hc
        exact (List.nodup_append.1 hnd).2.2 n hc n (by simp) rfl
      rw [e, List.idxOf_append_of_notMem hpl, List.idxOf_append_of_notMem hnl] at this
      simp at this
      omega
    · exact (h1 p hpw).symm

theorem Iso.preds {A B : Hugr} {φ : Nat → Nat} (i : Iso A B φ) (n q : Nat) :
    q ∈ B.preds (φ n) ↔ ∃ p ∈ A.preds n, q = φ p := by
  unfold Hugr.preds
  have : ∀ {a : List (List (Nat × Nat))} {b : List (List (Nat × Nat))},
      List.Forall₂ (fun a b => (a.map (fun l : Nat × Nat => (φ l.1, l.2))).Perm b) a b →
      ∀ q, q ∈ b.flatten.map (·.1) ↔ ∃ p ∈ a.flatten.map (·.1), q = φ p := by
    intro a b hf
    induction hf with
    | nil => simp
    | @cons x y xs ys h _ ih =>
      intro q
      simp only [List.flatten_cons, List.map_append, List.mem_append]
      rw [ih q]
      have hx : q ∈ y.map (·.1) ↔ ∃ p ∈ x.map (·.1), q = φ p := by
        simp only [List.mem_map]
        constructor
        · rintro ⟨l, hl, rfl⟩
          obtain ⟨l', hl', rfl⟩ := List.mem_map.1 (h.mem_iff.2 hl)
          exact ⟨l'.1, ⟨l', hl', rfl⟩, rfl⟩
        · rintro ⟨p, ⟨l, hl, rfl⟩, rfl⟩
          exact ⟨(φ l.1, l.2), h.mem_iff.1 (List.mem_map.2 ⟨l, hl, rfl⟩), rfl⟩
      rw [hx]
      constructor
      · rintro (⟨p, hp, rfl⟩ | ⟨p, hp, rfl⟩)
        · exact ⟨p, Or.inl hp, rfl⟩
        · exact ⟨p, Or.inr hp, rfl⟩
      · rintro ⟨p, hp | hp, rfl⟩
        · exact Or.inl ⟨p, hp, rfl⟩
        · exact Or.inr ⟨p, hp, rfl⟩
  exact this (i.links n) q

theorem Iso.kids_iff {A B : Hugr} {φ : Nat → Nat} (i : Iso A B φ) (c n : Nat) :
    φ n ∈ B.kids (φ c) ↔ n ∈ A.kids c := by
  rw [i.kids]
  constructor
  · rintro ⟨m, hm, e⟩; rw [i.inj n m e]; exact hm
  · intro h; exact ⟨n, h, rfl⟩

theorem Iso.kids_empty {A B : Hugr} {φ : Nat → Nat} (i : Iso A B φ) (c : Nat) :
    (B.kids (φ c)).isEmpty = (A.kids c).isEmpty := by
  rw [Bool.eq_iff_iff, List.isEmpty_iff, List.isEmpty_iff]
  constructor
  · intro h
    rw [List.eq_nil_iff_forall_not_mem]
    intro n hn
    have := (i.kids_iff c n).2 hn
    rw [h] at this; simp at this
  · intro h
    rw [List.eq_nil_iff_forall_not_mem]
    intro m hm
    obtain ⟨n, hn, _⟩ := (i.kids c m).1 hm
    rw [h] at hn; simp at hn

theorem Iso.nodeValue {A B : Hugr} {φ : Nat → Nat} (i : Iso A B φ) (h : Hasher)
    {s s' : Nat → Option U} (c : Option U) (n : Nat) (hs : ∀ p ∈ A.preds n, s p = s' (φ p)) :
    nodeValue h A s c n = nodeValue h B s' c (φ n) := by
  unfold Hash.nodeValue
  rw [i.op]
  congr 1
  have hl := i.links n
  have hlen := hl.length_eq
  apply List.ext_getElem (by simpa using hlen)
  intro k h1 h2
  simp only [List.getElem_mapIdx]
  simp only [List.length_mapIdx] at h1 h2
  have hp := List.forall₂_iff_get.1 hl |>.2 k h1 h2
  simp only [List.get_eq_getElem] at hp
  unfold portHash
  have := hp.map (fun l => h.link (s' l.1) l.2 k)
  rw [foldl_xor_perm this.symm, List.map_map]
  congr 1
  apply List.map_congr_left
  intro l hl'
  simp only [Function.comp]
  rw [hs]
  unfold Hugr.preds
  exact List.mem_map.2 ⟨l, List.mem_flatten.2 ⟨_, List.getElem_mem h1, hl'⟩, rfl⟩

theorem walk_image {A B : Hugr} {φ : Nat → Nat} (i : Iso A B φ) {c : Nat} (wa : Walk A c)
    (wb : Walk B (φ c)) : ∀ n, n ∈ A.walk c → φ n ∈ B.walk (φ c) := by
  have : ∀ (k : Nat) (n : Nat), n ∈ A.walk c → (A.walk c).idxOf n < k → φ n ∈ B.walk (φ c) := by
    intro k
    induction k with
    | zero => intro n _ h; omega
    | succ k ih =>
      intro n hn hk
      apply wb.full _ ((i.kids_iff c n).2 (wa.sub n hn))
      intro q hq hqk
      obtain ⟨p, hp, rfl⟩ := (i.preds n q).1 hq
      obtain ⟨h1, h2⟩ := wa.topo n hn p hp ((i.kids_iff c p).1 hqk)
      exact ih p h1 (by omega)
  intro n hn
  exact this ((A.walk c).idxOf n + 1) n hn (by omega)

theorem walk_preimage {A B : Hugr} {φ : Nat → Nat} (i : Iso A B φ) {c : Nat} (wa : Walk A c)
    (wb : Walk B (φ c)) : ∀ m, m ∈ B.walk (φ c) → ∃ n ∈ A.walk c, m = φ n := by
  have : ∀ (k : Nat) (n : Nat), φ n ∈ B.walk (φ c) → (B.walk (φ c)).idxOf (φ n) < k →
      n ∈ A.walk c := by
    intro k
    induction k with
    | zero => intro n _ h; omega
    | succ k ih =>
      intro n hn hk
      apply wa.full _ ((i.kids_iff c n).1 (wb.sub _ hn))
      intro p hp hpk
      obtain ⟨h1, h2⟩ := wb.topo _ hn (φ p) ((i.preds n _).2 ⟨p, hp, rfl⟩) ((i.kids_iff c p).2 hpk)
      exact ih p h1 (by omega)
  intro m hm
  obtain ⟨n, _, rfl⟩ := (i.kids c m).1 (wb.sub m hm)
  exact ⟨n, this _ n hm (Nat.lt_succ_self _), rfl⟩

/-- **C24.** The hash of a circuit depends neither on the numbering of its nodes, nor on the order in which
its children or the links of a port are stored, nor on the topological order in which the nodes are
visited — at every level of the hierarchy. For any hash function. -/
theorem C24_hash_order_independent (h : Hasher) (A B : Hugr) (φ : Nat → Nat) (i : Iso A B φ)
    (wa : ∀ c, A.io c ≠ none → Walk A c) (wb : ∀ c, B.io c ≠ none → Walk B c) (fuel c : Nat) (v : U)
    (hA : circuitHash h A fuel c = some (.ok v)) : circuitHash h B fuel (φ c) = some (.ok v) := by
  induction fuel generalizing c v with
  | zero => simp [circuitHash] at hA
  | succ fuel ih =>
    unfold circuitHash at hA ⊢
    cases hio : A.io c with
    | none => rw [hio] at hA; simp at hA
    | some io =>
      rw [hio] at hA
      have hioB : B.io (φ c) = some (φ io.1, φ io.2) := by rw [i.io, hio]; rfl
      rw [hioB]
      have wa' := wa c (by rw [hio]; simp)
      have wb' := wb (φ c) (by rw [hioB]; simp)
      simp only at hA ⊢
      cases hall : hashAll h A (circuitHash h A fuel) (A.walk c) (fun _ => none) with
      | none => rw [hall] at hA; simp at hA
      | some r =>
        cases r with
        | error e => rw [hall] at hA; simp at hA
        | ok st =>
          rw [hall] at hA
          simp only at hA
          obtain ⟨a1, a2⟩ := hashAll_walk wa' hall
          have child : ∀ n ch, ChildOk A (circuitHash h A fuel) n ch →
              ChildOk B (circuitHash h B fuel) (φ n) ch := by
            intro n ch hc
            unfold ChildOk at hc ⊢
            rw [i.kids_empty]
            by_cases hk : (A.kids n).isEmpty = true
            · rw [if_pos hk] at hc ⊢; exact hc
            · rw [if_neg hk] at hc ⊢
              obtain ⟨u, hu, rfl⟩ := hc
              exact ⟨u, ih n u hu, rfl⟩
          obtain ⟨stB, hB⟩ := hashAll_exists (h := h) (g := B) (rec := circuitHash h B fuel)
            (B.walk (φ c)) (fun _ => none) wb'.nodup (fun _ _ => rfl) (by
              intro m hm
              obtain ⟨n, hn, rfl⟩ := walk_preimage i wa' wb' m hm
              obtain ⟨ch, hch, _⟩ := a2 n hn
              exact ⟨ch, child n ch hch⟩)
          rw [hB]
          obtain ⟨b1, b2⟩ := hashAll_walk wb' hB
          have agree : ∀ (k n : Nat), n ∈ A.walk c → (A.walk c).idxOf n < k → st n = stB (φ n) := by
            intro k
            induction k with
            | zero => intro n _ hk; omega
            | succ k ihk =>
              intro n hn hk
              obtain ⟨ch, hch, hst⟩ := a2 n hn
              obtain ⟨ch', hch', hst'⟩ := b2 (φ n) (walk_image i wa' wb' n hn)
              have hcc : ch = ch' := by
                have := child n ch hch
                unfold ChildOk at this hch'
                split at this
                · rename_i he
                  rw [if_pos he] at hch'
                  rw [this, hch']
                · rename_i he
                  rw [if_neg he] at hch'
                  obtain ⟨u, hu, rfl⟩ := this
                  obtain ⟨u', hu', rfl⟩ := hch'
                  rw [hu] at hu'
                  simp at hu'
                  rw [hu']
              rw [hst, hst', ← hcc]
              congr 1
              apply i.nodeValue
              intro p hp
              by_cases hpk : p ∈ A.kids c
              · obtain ⟨h1, h2⟩ := wa'.topo n hn p hp hpk
                exact ihk p h1 (by omega)
              · rw [a1 p (fun hc => hpk (wa'.sub p hc)),
                  b1 (φ p) (fun hc => hpk ((i.kids_iff c p).1 (wb'.sub _ hc)))]
          simp only
          have hout : io.2 ∈ A.walk c := by
            by_contra hc
            rw [a1 _ hc] at hA
            simp at hA
          rw [← agree _ io.2 hout (Nat.lt_succ_self _)]
          exact hA

/-- The recursion follows the hierarchy: with a bound on its depth, `none` does not occur. -/
theorem C24_hash_no_panic (h : Hasher) (g : Hugr) (rank : Nat → Nat)
    (hr : ∀ c, ∀ n ∈ g.kids c, rank n < rank c) (w : ∀ c, g.io c ≠ none → Walk g c) (fuel c : Nat)
    (hf : rank c < fuel) : circuitHash h g fuel c ≠ none := by
  induction fuel generalizing c with
  | zero => omega
  | succ fuel ih =>
    unfold circuitHash
    cases hio : g.io c with
    | none => simp
    | some io =>
      simp only
      have wc := w c (by rw [hio]; simp)
      have key : ∀ (L : List Nat) (st : Nat → Option U), L.Nodup → (∀ n ∈ L, st n = none) →
          (∀ n ∈ L, n ∈ g.kids c) → hashAll h g (circuitHash h g fuel) L st ≠ none := by
        intro L
        induction L with
        | nil => intro st _ _ _; simp [hashAll]
        | cons a L ihL =>
          intro st hn hs hk
          rw [List.nodup_cons] at hn
          unfold hashAll
          have hNn : hashNode h g (circuitHash h g fuel) st a ≠ none := by
            unfold hashNode
            split
            · simp
            · have := ih a (by have := hr c a (hk a (by simp)); omega)
              cases hc : circuitHash h g fuel a with
              | none => exact absurd hc this
              | some r => cases r <;> simp
          cases hN : hashNode h g (circuitHash h g fuel) st a with
          | none => exact absurd hN hNn
          | some r =>
            cases r with
            | error e => simp
            | ok v =>
              simp only [hs a (by simp)]
              refine ihL _ hn.2 ?_ (fun n hn' => hk n (by simp [hn']))
              intro n hn'
              have : n ≠ a := by rintro rfl; exact hn.1 hn'
              simp [this, hs n (by simp [hn'])]
      have := key (g.walk c) (fun _ => none) wc.nodup (fun _ _ => rfl) wc.sub
      cases ha : hashAll h g (circuitHash h g fuel) (g.walk c) (fun _ => none) with
      | none => exact absurd ha this
      | some r =>
        cases r with
        | error e => simp
        | ok st =>
          simp only
          cases st io.2 <;> simp

/-! ## Example: H and T on two qubits, then CX, in two orders -/

/-- Input 1, output 2, H 3, T 4, CX 5, in the container 0. -/
def exA : Hugr where
  op n := [10, 11, 12, 13, 14, 15].getD n 0
  kids n := if n = 0 then [1, 2, 3, 4, 5] else []
  io n := if n = 0 then some (1, 2) else none
  links n := if n = 3 then [[(1, 0)]] else if n = 4 then [[(1, 1)]]
    else if n = 5 then [[(3, 0)], [(4, 0)]] else if n = 2 then [[(5, 0)], [(5, 1)]] else []
  walk n := if n = 0 then [1, 3, 4, 5, 2] else []

/-- The same with nodes 3 and 4 exchanged, visited in another order. -/
def exB : Hugr where
  op n := [10, 11, 12, 14, 13, 15].getD n 0
  kids n := if n = 0 then [1, 2, 3, 4, 5] else []
  io n := if n = 0 then some (1, 2) else none
  links n := if n = 4 then [[(1, 0)]] else if n = 3 then [[(1, 1)]]
    else if n = 5 then [[(4, 0)], [(3, 0)]] else if n = 2 then [[(5, 0)], [(5, 1)]] else []
  walk n := if n = 0 then [1, 3, 4, 5, 2] else []

def swap34 (n : Nat) : Nat := if n = 3 then 4 else if n = 4 then 3 else n

example : Walk exA 0 := ⟨by decide, by decide, by decide, by decide⟩
example : Walk exB 0 := ⟨by decide, by decide, by decide, by decide⟩

theorem exIso : Iso exA exB swap34 where
  inj m n h := by
    have inv : ∀ n, swap34 (swap34 n) = n := by
      intro n
      by_cases h3 : n = 3
      · subst h3; rfl
      · by_cases h4 : n = 4
        · subst h4; rfl
        · have : swap34 n = n := by unfold swap34; rw [if_neg h3, if_neg h4]
          rw [this, this]
    rw [← inv m, h, inv]
  op n := match n with
    | 0 | 1 | 2 | 3 | 4 | 5 => rfl
    | n + 6 => by simp [exA, exB, swap34]
  io n := match n with
    | 0 | 1 | 2 | 3 | 4 | 5 => rfl
    | n + 6 => by simp [exA, exB, swap34]
  kids c m := match c with
    | 0 => by
      constructor
      · intro h
        have : m ∈ [1, 2, 3, 4, 5] := h
        simp only [List.mem_cons, List.not_mem_nil, or_false] at this
        rcases this with rfl | rfl | rfl | rfl | rfl
        · exact ⟨1, by decide, rfl⟩
        · exact ⟨2, by decide, rfl⟩
        · exact ⟨4, by decide, rfl⟩
        · exact ⟨3, by decide, rfl⟩
        · exact ⟨5, by decide, rfl⟩
      · rintro ⟨n, hn, rfl⟩
        revert n
        decide
    | 1 | 2 | 3 | 4 | 5 => by constructor <;> simp [exA, exB, swap34]
    | n + 6 => by constructor <;> simp [exA, exB, swap34]
  links n := match n with
    | 0 | 1 => .nil
    | 2 | 5 => .cons (.refl _) (.cons (.refl _) .nil)
    | 3 | 4 => .cons (.refl _) .nil
    | n + 6 => by
      have : exA.links (n + 6) = [] ∧ exB.links (swap34 (n + 6)) = [] := by
        simp [exA, exB, swap34]
      rw [this.1, this.2]; exact .nil

example (h : Hasher) : ∃ v, circuitHash h exA 2 0 = some (.ok v) := ⟨_, rfl⟩

/-! ## C56: equality of circuits -/

/-- **C56, partial.** Circuits that are the same up to numbering compare equal, whenever they have a hash.
Missing: the converse (false, see below) and reflexivity for circuits without a hash. -/
theorem C56_isomorphic_circuits_equal_partial (h : Hasher) (A B : Hugr) (φ : Nat → Nat)
    (i : Iso A B φ) (wa : ∀ c, A.io c ≠ none → Walk A c) (wb : ∀ c, B.io c ≠ none → Walk B c)
    (fuel c : Nat) (v : U) (hA : circuitHash h A fuel c = some (.ok v)) :
    circuitEq h fuel A c B (φ c) = some true := by
  have hB := C24_hash_order_independent h A B φ i wa wb fuel c v hA
  unfold circuitEq
  rw [hA, hB]
  simp

/-- A circuit that allocates two qubits (3, 4), applies H to both (5, 6) and measures both (7, 8); `out`
gives the measurements connected to the two outputs. -/
def twoCoins (out : Nat × Nat) : Hugr where
  op n := [10, 11, 12, 20, 20, 21, 21, 22, 22].getD n 0
  kids n := if n = 0 then [1, 2, 3, 4, 5, 6, 7, 8] else []
  io n := if n = 0 then some (1, 2) else none
  links n := if n = 5 then [[(3, 0)]] else if n = 6 then [[(4, 0)]]
    else if n = 7 then [[(5, 0)]] else if n = 8 then [[(6, 0)]]
    else if n = 2 then [[(out.1, 0)], [(out.2, 0)]] else []
  walk n := if n = 0 then [1, 3, 4, 5, 6, 7, 8, 2] else []

/-- The output bits, given the outcome of every measurement. -/
def outcomes (g : Hugr) (o : Nat → Bool) : List Bool := (g.links 2).flatten.map (fun l => o l.1)

/-- **C56 is false**, whatever the hash function: a circuit with two independent random output bits
compares equal to one which outputs the same random bit twice. -/
theorem C56_different_circuits_equal (h : Hasher) :
    Walk (twoCoins (7, 8)) 0 ∧ Walk (twoCoins (7, 7)) 0 ∧
    circuitEq h 2 (twoCoins (7, 8)) 0 (twoCoins (7, 7)) 0 = some true ∧
    (∃ o, outcomes (twoCoins (7, 8)) o = [true, false]) ∧
    (∀ o, outcomes (twoCoins (7, 7)) o ≠ [true, false]) := by
  refine ⟨⟨by decide, by decide, by decide, by decide⟩, ⟨by decide, by decide, by decide, by decide⟩,
    ?_, ⟨fun n => n == 7, rfl⟩, ?_⟩
  · have e : circuitHash h (twoCoins (7, 8)) 2 0 = circuitHash h (twoCoins (7, 7)) 2 0 := rfl
    have e2 : ∃ v, circuitHash h (twoCoins (7, 7)) 2 0 = some (.ok v) := ⟨_, rfl⟩
    obtain ⟨v, hv⟩ := e2
    unfold circuitEq
    rw [e, hv]
    simp
  · intro o
    simp only [outcomes, twoCoins]
    cases h7 : o 7 <;> simp [h7]

/-- A circuit on one qubit with an extra operation 3 (any operation without outputs that reach the output
of the circuit), or without it. -/
def withDead (dead : Bool) (k : Nat) : Hugr where
  op n := if n = 3 then k else [10, 11, 12].getD n 0
  kids n := if n = 0 then (if dead then [1, 2, 3] else [1, 2]) else []
  io n := if n = 0 then some (1, 2) else none
  links n := if n = 2 then [[(1, 0)]] else if n = 3 then [[(1, 1)]] else []
  walk n := if n = 0 then (if dead then [1, 3, 2] else [1, 2]) else []

/-- **C56 is false**: an operation whose results do not reach the output — for example one that records a
result or discards a qubit — does not count, for any hash function. -/
theorem C56_unused_operation_invisible (h : Hasher) (k : Nat) :
    Walk (withDead true k) 0 ∧ Walk (withDead false k) 0 ∧
    circuitEq h 2 (withDead true k) 0 (withDead false k) 0 = some true := by
  refine ⟨⟨by simp only [withDead]; decide, by simp only [withDead]; decide,
    by simp only [withDead, Hugr.preds]; decide, by simp only [withDead, Hugr.preds]; decide⟩,
    ⟨by simp only [withDead]; decide, by simp only [withDead]; decide,
    by simp only [withDead, Hugr.preds]; decide, by simp only [withDead, Hugr.preds]; decide⟩, ?_⟩
  have e : circuitHash h (withDead true k) 2 0 = circuitHash h (withDead false k) 2 0 := rfl
  have e2 : ∃ v, circuitHash h (withDead false k) 2 0 = some (.ok v) := ⟨_, rfl⟩
  obtain ⟨v, hv⟩ := e2
  unfold circuitEq
  rw [e, hv]
  simp

/-- A circuit containing a conditional (node 3, with one case 4). -/
def withConditional : Hugr where
  op n := n
  kids n := if n = 0 then [1, 2, 3] else if n = 3 then [4] else []
  io n := if n = 0 then some (1, 2) else none
  links n := if n = 3 then [[(1, 0)]] else if n = 2 then [[(3, 0)]] else []
  walk n := if n = 0 then [1, 3, 2] else []

/-- **C56 is false**: a circuit with a conditional has no hash and is not even equal to itself. -/
theorem C56_not_reflexive (h : Hasher) :
    circuitHash h withConditional 3 0 = some (.error .notADfg) ∧
    circuitEq h 3 withConditional 0 withConditional 0 = some false := by
  have e : circuitHash h withConditional 3 0 = some (.error .notADfg) := rfl
  refine ⟨e, ?_⟩
  unfold circuitEq
  rw [e]

end Tket.Hash
