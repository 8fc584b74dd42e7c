import Verif.Model.ContainersSpec

/-
Building the unpacking functions: types of wires, and exactly which types are accepted.
-/
namespace Verif.Containers

/-! ### The type analysis -/

/-- The wires made from a type in element position. -/
def wires (t : Ty) : List Ty :=
  if t = .opt .qubit then [.qubit] else (unpackType .qubit t).getD [t]

theorem isOptOf_iff (t : Ty) : isOptOf t .qubit = decide (t = .opt .qubit) := by
  cases t <;> simp [isOptOf]

mutual
theorem holds_iff : ∀ t, (unpackType .qubit t).isSome = holds t
  | .qubit => by simp [unpackType, holds]
  | .atom _ => by simp [unpackType, holds]
  | .opt _ => by simp [unpackType, holds]
  | .tuple row => by
    rw [unpackType, if_neg (by simp), holds, ← holdsAny_iff row]
    cases (tupleRow .qubit row).1 <;> rfl
  | .arr k n t => by
    rw [unpackType, if_neg (by simp), holds, ← holds_iff t, isOptOf_iff]
    by_cases h : t = .opt .qubit
    · simp [h]
    · simp [h]
theorem holdsAny_iff : ∀ row, (tupleRow .qubit row).1 = holdsAny row
  | [] => rfl
  | t :: ts => by
    rw [tupleRow, holdsAny, ← holds_iff t, ← holdsAny_iff ts]
    cases unpackType .qubit t <;> simp
end

theorem tupleRow_eq : ∀ row, (tupleRow .qubit row).2
    = (row.map fun t => (unpackType .qubit t).getD [t]).flatten
  | [] => rfl
  | t :: ts => by
    rw [tupleRow, List.map_cons, List.flatten_cons, ← tupleRow_eq ts]
    cases unpackType .qubit t <;> rfl

/-- The row of a tuple that is unpacked. -/
theorem unpackType_tuple (row : List Ty) : unpackType .qubit (.tuple row)
    = if holdsAny row then some (row.map fun t => (unpackType .qubit t).getD [t]).flatten
      else none := by
  rw [unpackType, if_neg (by simp), holdsAny_iff, tupleRow_eq]

theorem flatten_replicate_singleton {α : Type} (a : α) : ∀ n,
    (List.replicate n [a]).flatten = List.replicate n a
  | 0 => rfl
  | n + 1 => by
    rw [List.replicate_succ, List.flatten_cons, flatten_replicate_singleton a n]; rfl

/-- The row of an array that is unpacked. -/
theorem unpackType_arr (k : Kind) (n : Nat) (t : Ty) : unpackType .qubit (.arr k n t)
    = if decide (t = .opt .qubit) || holds t then some (List.replicate n (wires t)).flatten
      else none := by
  rw [unpackType, if_neg (by simp), isOptOf_iff, wires]
  by_cases h : t = .opt .qubit
  · simp [h]
  · rw [← holds_iff t]
    cases hu : unpackType .qubit t with
    | none => simp [h]
    | some r => simp [h]

mutual
theorem leaves_eq : ∀ t, numWires .qubit t = leaves t
  | .qubit => by simp [numWires, unpackType, leaves]
  | .atom _ => by simp [numWires, unpackType, leaves]
  | .opt _ => by simp [numWires, unpackType, leaves]
  | .tuple row => by
    rw [numWires, unpackType_tuple, leaves, ← leavesAll_eq row]
    cases holdsAny row <;> simp
  | .arr k n t => by
    rw [numWires, unpackType_arr, leaves, ← leaves_eq t]
    cases hc : (decide (t = .opt .qubit) || holds t) with
    | false => simp
    | true =>
      simp only [if_true, List.length_flatten, List.map_replicate, List.sum_replicate_nat]
      congr 1
      rw [wires, numWires]
      by_cases h : t = .opt .qubit
      · simp [h, unpackType]
      · rw [if_neg h]
        cases unpackType .qubit t <;> rfl
theorem leavesAll_eq : ∀ row,
    (row.map fun t => (unpackType .qubit t).getD [t]).flatten.length = leavesAll row
  | [] => rfl
  | t :: ts => by
    rw [List.map_cons, List.flatten_cons, List.length_append, leavesAll_eq ts, leavesAll,
      ← leaves_eq t, numWires]
    cases unpackType .qubit t <;> rfl
end

theorem length_wires (t : Ty) : (wires t).length = numWires .qubit t := by
  rw [wires, numWires]
  by_cases h : t = .opt .qubit
  · simp [h, unpackType]
  · rw [if_neg h]
    cases unpackType .qubit t <;> rfl

theorem wires_of_ne {t : Ty} (h : t ≠ .opt .qubit) :
    wires t = (unpackType .qubit t).getD [t] := by rw [wires, if_neg h]

theorem goodAll_wires : ∀ {row : List Ty}, GoodAll row →
    (row.map fun t => (unpackType .qubit t).getD [t]) = row.map wires
  | [], _ => rfl
  | t :: ts, h => by
    rw [GoodAll] at h
    rw [List.map_cons, List.map_cons, goodAll_wires h.2, wires_of_ne h.1.1]

/-! ### Chunks -/

theorem chunksGo_flatten {α : Type} {k : Nat} (hk : k ≠ 0) : ∀ (ls : List (List α)),
    (∀ l ∈ ls, l.length = k) → ∀ fuel, ls.flatten.length ≤ fuel → chunksGo k fuel ls.flatten = ls
  | [], _, fuel, _ => by cases fuel <;> simp [chunksGo]
  | l :: ls, h, 0, hf => by
    have hl := h l (by simp)
    simp at hf
    rw [hf.1] at hl
    exact absurd hl.symm hk
  | l :: ls, h, fuel + 1, hf => by
    have hl := h l (by simp)
    rw [chunksGo, List.flatten_cons]
    have hne : (l ++ ls.flatten).isEmpty = false := by
      cases l with
      | nil => exact absurd hl.symm hk
      | cons => rfl
    rw [hne, if_neg (by simp), List.take_left' hl, List.drop_left' hl,
      chunksGo_flatten hk ls (fun x hx => h x (by simp [hx])) fuel]
    rw [List.flatten_cons, List.length_append] at hf
    omega

theorem chunks_flatten {α : Type} {k : Nat} (hk : k ≠ 0) (ls : List (List α))
    (h : ∀ l ∈ ls, l.length = k) : chunks k ls.flatten = ls :=
  chunksGo_flatten hk ls h _ (Nat.le_refl _)

/-! ### Monad bookkeeping -/

theorem check_ok {α : Type} [DecidableEq α] {a b c : α} :
    check a b = .ok c ↔ a = b ∧ c = b := by
  rw [check]
  by_cases h : a = b <;> simp [h, eq_comm]

theorem bind_ok {ε α β : Type} {x : Except ε α} {f : α → Except ε β} {b : β} :
    x.bind f = .ok b ↔ ∃ a, x = .ok a ∧ f a = .ok b := by
  cases x <;> simp [Except.bind]

theorem mapM_cons_ok {ε α β : Type} {f : α → Except ε β} {a : α} {l : List α} {bs : List β} :
    (a :: l).mapM f = .ok bs ↔ ∃ b, f a = .ok b ∧ ∃ cs, l.mapM f = .ok cs ∧ bs = b :: cs := by
  rw [List.mapM_cons]
  cases hf : f a with
  | error => simp [bind, Except.bind]
  | ok b =>
    cases hl : l.mapM f with
    | error => simp [bind, Except.bind]
    | ok cs => simp [bind, Except.bind, pure, Except.pure, eq_comm]

theorem mapM_replicate_ok {ε α β : Type} {f : α → Except ε β} {a : α} {b : β}
    (h : f a = .ok b) : ∀ n, (List.replicate n a).mapM f = .ok (List.replicate n b)
  | 0 => rfl
  | n + 1 => by
    rw [List.replicate_succ, mapM_cons_ok]
    exact ⟨b, h, _, mapM_replicate_ok h n, rfl⟩

/-! ### Unpacking at build time -/

/-- Whatever the builder returns has the types of `wires`. -/
theorem bUnpack_shape : ∀ {t : Ty} {ws : List Ty}, bUnpack .qubit t = .ok ws → ws = wires t
  | .qubit, ws, h => by rw [bUnpack] at h; cases h; simp [wires, unpackType]
  | .atom _, ws, h => by rw [bUnpack] at h; cases h; simp [wires, unpackType]
  | .opt t, ws, h => by
    rw [bUnpack, if_neg (by simp)] at h
    by_cases ht : t = .qubit
    · rw [if_pos ht, if_pos rfl] at h; cases h; simp [wires, ht]
    · rw [if_neg ht] at h; cases h; simp [wires, ht, unpackType]
  | .tuple row, ws, h => by
    rw [bUnpack, if_neg (by simp)] at h
    rw [wires_of_ne (by simp)]
    cases hu : unpackType .qubit (.tuple row) with
    | none => rw [hu] at h; cases h; rfl
    | some r =>
      rw [hu] at h
      obtain ⟨_, _, h2⟩ := bind_ok.1 h
      exact (check_ok.1 h2).2
  | .arr k n t, ws, h => by
    rw [bUnpack, if_neg (by simp)] at h
    rw [wires_of_ne (by simp)]
    cases hu : unpackType .qubit (.arr k n t) with
    | none => rw [hu] at h; cases h; rfl
    | some r =>
      rw [hu] at h
      dsimp only at h
      split at h
      · exact (check_ok.1 h).2
      · obtain ⟨_, _, h2⟩ := bind_ok.1 h
        exact (check_ok.1 h2).2

theorem bUnpackRow_shape : ∀ {row : List Ty} {ws : List Ty}, bUnpackRow .qubit row = .ok ws →
    ws = (row.map wires).flatten
  | [], ws, h => by rw [bUnpackRow] at h; cases h; rfl
  | t :: ts, ws, h => by
    rw [bUnpackRow] at h
    obtain ⟨w, h1, h2⟩ := bind_ok.1 h
    obtain ⟨rest, h3, h4⟩ := bind_ok.1 h2
    cases h4
    rw [bUnpack_shape h1, bUnpackRow_shape h3]
    rfl

mutual
/-- Unpacking succeeds on good types. -/
theorem bUnpack_good : ∀ {t : Ty}, Good t → bUnpack .qubit t = .ok (wires t)
  | .qubit, _ => by simp [bUnpack, wires, unpackType]
  | .atom _, _ => by simp [bUnpack, wires, unpackType]
  | .opt t, _ => by
    rw [bUnpack, if_neg (by simp)]
    by_cases ht : t = .qubit
    · simp [wires, ht]
    · simp [wires, ht, unpackType]
  | .tuple row, h => by
    rw [Good] at h
    rw [bUnpack, if_neg (by simp), wires_of_ne (by simp), unpackType_tuple]
    cases hh : holdsAny row with
    | false => rfl
    | true =>
      simp only [if_true]
      rw [bUnpackRow_good (h hh), goodAll_wires (h hh)]
      exact check_ok.2 ⟨rfl, rfl⟩
  | .arr k n t, h => by
    rw [Good] at h
    rw [bUnpack, if_neg (by simp), wires_of_ne (by simp), unpackType_arr]
    cases hh : (decide (t = .opt .qubit) || holds t) with
    | false => rfl
    | true =>
      simp only [if_true]
      by_cases hn : n = 0
      · rw [if_pos hn, hn]; exact check_ok.2 ⟨rfl, rfl⟩
      · rw [if_neg hn, bUnpack_good ((h hh).2.resolve_left hn)]
        exact check_ok.2 ⟨rfl, rfl⟩

theorem bUnpackRow_good : ∀ {row : List Ty}, GoodAll row →
    bUnpackRow .qubit row = .ok (row.map wires).flatten
  | [], _ => rfl
  | t :: ts, h => by
    rw [GoodAll] at h
    rw [bUnpackRow, bUnpack_good h.1.2, bUnpackRow_good h.2]
    rfl
end

/-- Repacking a row of wires piece by piece. -/
theorem bRepackRow_cons (t : Ty) (ts ws : List Ty) :
    bRepackRow .qubit (t :: ts) (wires t ++ ws)
      = (bRepack .qubit t (wires t)).bind fun w =>
          (bRepackRow .qubit ts ws).bind fun rest => .ok (w :: rest) := by
  rw [bRepackRow, List.take_left' (length_wires t), List.drop_left' (length_wires t)]

theorem length_replicate_wires (t : Ty) (n : Nat) :
    ∀ l ∈ List.replicate n (wires t), l.length = numWires .qubit t := by
  intro l hl
  rw [List.eq_of_mem_replicate hl, length_wires]

mutual
/-- Repacking the wires of a good type succeeds. -/
theorem bRepack_good : ∀ {t : Ty}, Good t → bRepack .qubit t (wires t) = .ok t
  | .qubit, _ => by simp [bRepack, wires, unpackType, first]
  | .atom _, _ => by simp [bRepack, wires, unpackType, first]
  | .opt t, _ => by
    rw [bRepack, if_neg (by simp)]
    by_cases ht : t = .qubit
    · simp [wires, ht, first, Except.bind, check]
    · simp [wires, ht, unpackType, first]
  | .tuple row, h => by
    rw [Good] at h
    rw [bRepack, if_neg (by simp), wires_of_ne (by simp), unpackType_tuple]
    cases hh : holdsAny row with
    | false => rfl
    | true =>
      simp only [if_true]
      rw [goodAll_wires (h hh), bRepackRow_good (h hh)]
      simp [Except.bind, check]
  | .arr k n t, h => by
    rw [Good] at h
    rw [bRepack, if_neg (by simp), wires_of_ne (by simp), unpackType_arr]
    cases hh : (decide (t = .opt .qubit) || holds t) with
    | false => rfl
    | true =>
      simp only [if_true]
      have h0 : numWires .qubit t ≠ 0 := by rw [leaves_eq]; exact (h hh).1
      rw [if_neg h0, chunks_flatten h0 _ (length_replicate_wires t n)]
      have hm : (List.replicate n (wires t)).mapM (bRepack .qubit t)
          = .ok (List.replicate n t) := by
        rcases (h hh).2 with hn | hg
        · rw [hn]; rfl
        · exact mapM_replicate_ok (bRepack_good hg) n
      rw [hm]
      simp [Except.bind, check]

theorem bRepackRow_good : ∀ {row : List Ty}, GoodAll row →
    bRepackRow .qubit row (row.map wires).flatten = .ok row
  | [], _ => rfl
  | t :: ts, h => by
    rw [GoodAll] at h
    rw [List.map_cons, List.flatten_cons, bRepackRow_cons, bRepack_good h.1.2,
      bRepackRow_good h.2]
    rfl
end

/-! ### Only good types are accepted -/

/-- In a tuple that is unpacked no component is an option of a qubit. -/
theorem no_option : ∀ {row : List Ty},
    (row.map wires).flatten = (row.map fun t => (unpackType .qubit t).getD [t]).flatten →
    ∀ t ∈ row, t ≠ .opt .qubit
  | [], _, t, ht => by cases ht
  | t :: ts, h, x, hx => by
    rw [List.map_cons, List.map_cons, List.flatten_cons, List.flatten_cons] at h
    have hl : (wires t).length = ((unpackType .qubit t).getD [t]).length := by
      rw [length_wires, numWires]
      cases unpackType .qubit t <;> rfl
    obtain ⟨h1, h2⟩ := List.append_inj h hl
    rcases List.mem_cons.1 hx with hx | hx
    · rw [hx]
      intro he
      rw [he] at h1
      simp [wires, unpackType] at h1
    · exact no_option h2 x hx

mutual
/-- A type whose wires can be made and put together again is good. -/
theorem good_of_ok : ∀ {t u : Ty}, bUnpack .qubit t = .ok (wires t) →
    bRepack .qubit t (wires t) = .ok u → Good t
  | .qubit, _, _, _ => trivial
  | .atom _, _, _, _ => trivial
  | .opt t, _, _, _ => by rw [Good]; trivial
  | .tuple row, u, h1, h2 => by
    rw [Good]
    intro hh
    rw [bUnpack, if_neg (by simp), unpackType_tuple, hh] at h1
    rw [bRepack, if_neg (by simp), unpackType_tuple, hh] at h2
    simp only [if_true] at h1 h2
    obtain ⟨body, h3, h4⟩ := bind_ok.1 h1
    have hs := bUnpackRow_shape h3
    have he := (check_ok.1 h4).1
    rw [hs] at he
    rw [hs] at h3
    rw [← he] at h2
    obtain ⟨b2, h5, _⟩ := bind_ok.1 h2
    exact goodAll_of_ok (no_option he) h3 h5
  | .arr k n t, u, h1, h2 => by
    rw [Good]
    intro hh
    rw [bUnpack, if_neg (by simp), unpackType_arr, hh] at h1
    rw [bRepack, if_neg (by simp), unpackType_arr, hh] at h2
    simp only [if_true] at h1 h2
    rw [← leaves_eq]
    by_cases h0 : numWires .qubit t = 0
    · rw [if_pos h0] at h2; cases h2
    · refine ⟨h0, ?_⟩
      by_cases hn : n = 0
      · exact .inl hn
      · right
        rw [if_neg hn] at h1
        rw [if_neg h0, chunks_flatten h0 _ (length_replicate_wires t n)] at h2
        obtain ⟨inner, h3, _⟩ := bind_ok.1 h1
        have hs := bUnpack_shape h3
        rw [hs] at h3
        obtain ⟨b2, h5, _⟩ := bind_ok.1 h2
        obtain ⟨m, rfl⟩ := Nat.exists_eq_succ_of_ne_zero hn
        rw [List.replicate_succ, mapM_cons_ok] at h5
        obtain ⟨b, h6, _⟩ := h5
        exact good_of_ok h3 h6

theorem goodAll_of_ok : ∀ {row us : List Ty}, (∀ t ∈ row, t ≠ .opt .qubit) →
    bUnpackRow .qubit row = .ok (row.map wires).flatten →
    bRepackRow .qubit row (row.map wires).flatten = .ok us → GoodAll row
  | [], _, _, _, _ => trivial
  | t :: ts, us, hne, h1, h2 => by
    rw [GoodAll]
    rw [bUnpackRow] at h1
    obtain ⟨w, h3, h4⟩ := bind_ok.1 h1
    obtain ⟨rest, h5, _⟩ := bind_ok.1 h4
    rw [bUnpack_shape h3] at h3
    rw [bUnpackRow_shape h5] at h5
    rw [List.map_cons, List.flatten_cons, bRepackRow_cons] at h2
    obtain ⟨w2, h6, h7⟩ := bind_ok.1 h2
    obtain ⟨r2, h8, _⟩ := bind_ok.1 h7
    exact ⟨⟨hne t (by simp), good_of_ok h3 h6⟩,
      goodAll_of_ok (fun x hx => hne x (by simp [hx])) h5 h8⟩
end

/-- The packing function can be built exactly for good rows. -/
theorem bPacking_iff {row : List Ty} (hne : ∀ t ∈ row, t ≠ .opt .qubit) :
    bPacking row = .ok () ↔ GoodAll row := by
  rw [bPacking]
  constructor
  · intro h
    obtain ⟨ws, h1, h2⟩ := bind_ok.1 h
    obtain ⟨outs, h3, _⟩ := bind_ok.1 h2
    have hs := bUnpackRow_shape h1
    rw [hs] at h1 h3
    exact goodAll_of_ok hne h1 h3
  · intro h
    rw [bUnpackRow_good h]
    simp [Except.bind, bRepackRow_good h, check]

end Verif.Containers
