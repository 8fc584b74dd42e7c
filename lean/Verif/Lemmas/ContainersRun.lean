import Verif.Lemmas.Containers

/-
Running the unpacking functions on values, and the whole barrier lowering.
-/
namespace Verif.Containers

/-- The wires after the barrier. -/
def touched (f : Nat → Nat) (ts : List Ty) (ws : List Val) : List Val :=
  List.zipWith (fun t w => if t = .qubit then barrierOut f w else w) ts ws

theorem touched_append (f : Nat → Nat) {ts ts' : List Ty} {ws ws' : List Val}
    (h : ts.length = ws.length) :
    touched f (ts ++ ts') (ws ++ ws') = touched f ts ws ++ touched f ts' ws' :=
  List.zipWith_append h

theorem length_touched (f : Nat → Nat) {ts : List Ty} {ws : List Val}
    (h : ts.length = ws.length) : (touched f ts ws).length = ts.length := by
  rw [touched, List.length_zipWith, h, Nat.min_self]

theorem qubitWires_append {ts ts' : List Ty} {ws ws' : List Val} (h : ts.length = ws.length) :
    qubitWires (ts ++ ts') (ws ++ ws') = qubitWires ts ws ++ qubitWires ts' ws' := by
  rw [qubitWires, List.zip_append h, List.filter_append, List.map_append]; rfl

theorem replaceQubits_eq (f : Nat → Nat) : ∀ (ts : List Ty) (ws : List Val),
    replaceQubits ts ws ((qubitWires ts ws).map (barrierOut f)) = some (touched f ts ws)
  | [], _ => by simp [replaceQubits, touched]
  | _ :: _, [] => by simp [replaceQubits, touched]
  | t :: ts, w :: ws => by
    have ih := replaceQubits_eq f ts ws
    by_cases h : t = .qubit
    · have : qubitWires (t :: ts) (w :: ws) = w :: qubitWires ts ws := by simp [qubitWires, h]
      rw [this, List.map_cons]
      simp [replaceQubits, ih, touched, h]
    · have : qubitWires (t :: ts) (w :: ws) = qubitWires ts ws := by simp [qubitWires, h]
      rw [this]
      simp [replaceQubits, ih, touched, h]

/-! ### Types without visible qubits -/

theorem ownQubit_of_ne {t : Ty} {w : Val} (h : t ≠ .qubit) (hw : HasTy t w) :
    ownQubit w = [] ∧ ∀ f, onQubit f w = w := by
  cases t with
  | qubit => exact absurd rfl h
  | atom n => obtain ⟨k, rfl⟩ := hw; exact ⟨rfl, fun _ => rfl⟩
  | tuple row =>
    rw [HasTy] at hw
    obtain ⟨vs, rfl, _⟩ := hw; exact ⟨rfl, fun _ => rfl⟩
  | opt t =>
    rw [HasTy] at hw
    rcases hw with rfl | ⟨w, rfl, _⟩ <;> exact ⟨rfl, fun _ => rfl⟩
  | arr k n t =>
    rw [HasTy] at hw
    obtain ⟨vs, rfl, _⟩ := hw; exact ⟨rfl, fun _ => rfl⟩

theorem exposedAll_nil {elem : Bool} : ∀ {vs : List Val}, (∀ w ∈ vs, exposed elem w = []) →
    exposedAll elem vs = []
  | [], _ => rfl
  | v :: vs, h => by
    rw [exposedAll, h v (by simp), exposedAll_nil fun w hw => h w (by simp [hw])]; rfl

theorem markAll_same {f : Nat → Nat} {elem : Bool} : ∀ {vs : List Val},
    (∀ w ∈ vs, mark f elem w = w) → markAll f elem vs = vs
  | [], _ => rfl
  | v :: vs, h => by
    rw [markAll, h v (by simp), markAll_same fun w hw => h w (by simp [hw])]

mutual
theorem hidden : ∀ {t : Ty} {v : Val} (elem : Bool), holds t = false →
    (elem = true → t ≠ .opt .qubit) → HasTy t v → exposed elem v = [] ∧ ∀ f, mark f elem v = v
  | .qubit, _, _, h, _, _ => by simp [holds] at h
  | .atom _, _, _, _, _, hv => by
    obtain ⟨k, rfl⟩ := hv
    exact ⟨by rw [exposed], fun f => by rw [mark]⟩
  | .tuple row, v, elem, h, _, hv => by
    rw [HasTy] at hv
    obtain ⟨vs, rfl, hvs⟩ := hv
    rw [holds] at h
    have ih := hiddenAll h hvs
    exact ⟨by rw [exposed, ih.1], fun f => by rw [mark, ih.2 f]⟩
  | .opt t, v, elem, _, he, hv => by
    rw [HasTy] at hv
    rcases hv with rfl | ⟨w, rfl, hw⟩
    · exact ⟨by rw [exposed], fun f => by rw [mark]⟩
    · rw [exposed]
      cases elem with
      | false => exact ⟨rfl, fun f => by rw [mark]; rfl⟩
      | true =>
        have hne : t ≠ .qubit := fun ht => he rfl (by rw [ht])
        have := ownQubit_of_ne hne hw
        exact ⟨this.1, fun f => by rw [mark]; simp [this.2 f]⟩
  | .arr k n t, v, elem, h, _, hv => by
    rw [HasTy] at hv
    obtain ⟨vs, rfl, _, hvs⟩ := hv
    rw [holds, Bool.or_eq_false_iff] at h
    have hne : t ≠ .opt .qubit := by simpa using h.1
    have ih : ∀ w ∈ vs, _ := fun w hw => hidden true h.2 (fun _ => hne) (hvs w hw)
    exact ⟨by rw [exposed, exposedAll_nil fun w hw => (ih w hw).1],
      fun f => by rw [mark, markAll_same fun w hw => (ih w hw).2 f]⟩

theorem hiddenAll : ∀ {row : List Ty} {vs : List Val}, holdsAny row = false →
    HasTyRow row vs → exposedAll false vs = [] ∧ ∀ f, markAll f false vs = vs
  | [], vs, _, hv => by
    rw [HasTyRow] at hv; rw [hv]; exact ⟨rfl, fun _ => rfl⟩
  | t :: ts, vs, h, hv => by
    rw [HasTyRow] at hv
    obtain ⟨v, vs', rfl, h1, h2⟩ := hv
    rw [holdsAny, Bool.or_eq_false_iff] at h
    have i1 := hidden false h.1 (fun h => by cases h) h1
    have i2 := hiddenAll h.2 h2
    exact ⟨by rw [exposedAll, i1.1, i2.1]; rfl, fun f => by rw [markAll, i1.2 f, i2.2 f]⟩
end

/-! ### Unpacking and repacking values -/

/-- The values `ws` on the wires of a type `t` belong to the value `v`. -/
structure Split (t : Ty) (elem : Bool) (v : Val) (ws : List Val) : Prop where
  len : (wires t).length = ws.length
  qubits : qubitWires (wires t) ws = (exposed elem v).map .qb
  back : ∀ f, rRepack .qubit t (touched f (wires t) ws) = .ok (mark f elem v)

/-- The same for rows. -/
structure SplitRow (row : List Ty) (vs ws : List Val) : Prop where
  len : ((row.map wires).flatten).length = ws.length
  qubits : qubitWires (row.map wires).flatten ws = (exposedAll false vs).map .qb
  back : ∀ f, rRepackRow .qubit row (touched f (row.map wires).flatten ws)
    = .ok (markAll f false vs)

theorem rRepackRow_cons (t : Ty) (ts : List Ty) {x : List Val} (ws : List Val)
    (h : x.length = (wires t).length) :
    rRepackRow .qubit (t :: ts) (x ++ ws)
      = (rRepack .qubit t x).bind fun w =>
          (rRepackRow .qubit ts ws).bind fun rest => .ok (w :: rest) := by
  rw [rRepackRow, List.take_left' (h.trans (length_wires t)),
    List.drop_left' (h.trans (length_wires t))]

/-- A type that is not unpacked. -/
theorem split_hidden {t : Ty} {v : Val} {elem : Bool} (h : holds t = false)
    (hne : t ≠ .opt .qubit) (hv : HasTy t v)
    (hr : ∀ ws, rRepack .qubit t ws = rFirst ws) : Split t elem v [v] := by
  have hw : wires t = [t] := by
    rw [wires_of_ne hne]
    have := holds_iff t
    rw [h] at this
    cases hu : unpackType .qubit t with
    | none => rfl
    | some r => rw [hu] at this; cases this
  have hq : t ≠ .qubit := by rintro rfl; simp [holds] at h
  have hh := hidden elem h (fun _ => hne) hv
  refine ⟨by rw [hw]; rfl, by rw [hw, hh.1]; simp [qubitWires, hq], fun f => ?_⟩
  rw [hw, hr, hh.2 f]
  simp [touched, hq, rFirst]

/-- Splitting all elements of an array. -/
theorem split_array {t : Ty} (h0 : numWires .qubit t ≠ 0) : ∀ {vs : List Val},
    (∀ w ∈ vs, ∃ ws, rUnpack .qubit t w = .ok ws ∧ Split t true w ws) →
    ∃ ws, concatM (rUnpack .qubit t) vs = .ok ws ∧
      ((List.replicate vs.length (wires t)).flatten).length = ws.length ∧
      qubitWires (List.replicate vs.length (wires t)).flatten ws
        = (exposedAll true vs).map .qb ∧
      ∀ f, (∃ ls : List (List Val), touched f (List.replicate vs.length (wires t)).flatten ws
          = ls.flatten ∧ (∀ l ∈ ls, l.length = numWires .qubit t) ∧
          ls.mapM (rRepack .qubit t) = .ok (markAll f true vs))
  | [], _ => ⟨[], rfl, rfl, rfl, fun f => ⟨[], rfl, by simp, rfl⟩⟩
  | v :: vs, h => by
    obtain ⟨x, hx, sx⟩ := h v (by simp)
    obtain ⟨y, hy, hl, hq, hb⟩ := split_array (vs := vs) h0 fun w hw => h w (by simp [hw])
    refine ⟨x ++ y, ?_, ?_, ?_, fun f => ?_⟩
    · rw [concatM, hx, hy]; rfl
    · rw [List.length_cons, List.replicate_succ, List.flatten_cons, List.length_append,
        List.length_append, hl, sx.len]
    · rw [List.length_cons, List.replicate_succ, List.flatten_cons, qubitWires_append sx.len,
        hq, sx.qubits, exposedAll, List.map_append]
    · obtain ⟨ls, h1, h2, h3⟩ := hb f
      refine ⟨touched f (wires t) x :: ls, ?_, ?_, ?_⟩
      · rw [List.length_cons, List.replicate_succ, List.flatten_cons, touched_append f sx.len,
          h1, List.flatten_cons]
      · intro l hl'
        rcases List.mem_cons.1 hl' with hl' | hl'
        · rw [hl', length_touched f sx.len, length_wires]
        · exact h2 l hl'
      · rw [mapM_cons_ok]
        exact ⟨_, sx.back f, _, h3, by rw [markAll]⟩

mutual
/-- Unpacking a well-typed value of a good type. -/
theorem split : ∀ {t : Ty} {v : Val} (elem : Bool), Good t →
    (elem = false → t ≠ .opt .qubit) → HasTy t v → Full t v →
    ∃ ws, rUnpack .qubit t v = .ok ws ∧ Split t elem v ws
  | .qubit, v, elem, _, _, hv, _ => by
    obtain ⟨q, rfl⟩ := hv
    have hw : wires .qubit = [.qubit] := by simp [wires, unpackType]
    exact ⟨[.qb q], by rw [rUnpack],
      by rw [hw]; rfl,
      by rw [hw, exposed]; simp [qubitWires],
      fun f => by rw [hw, mark]; simp [touched, barrierOut, rRepack, rFirst]⟩
  | .atom n, v, elem, _, _, hv, _ =>
    ⟨[v], by rw [rUnpack], split_hidden rfl (by simp) hv (by intro; rw [rRepack])⟩
  | .tuple row, v, elem, hg, _, hv, hf => by
    rw [rUnpack, if_neg (by simp)]
    cases hh : holdsAny row with
    | false =>
      rw [unpackType_tuple, hh]
      refine ⟨[v], rfl, split_hidden (by rw [holds]; exact hh) (by simp) hv fun ws => ?_⟩
      rw [rRepack, if_neg (by simp), unpackType_tuple, hh]; rfl
    | true =>
      rw [Good] at hg
      rw [HasTy] at hv
      obtain ⟨vs, rfl, hvs⟩ := hv
      rw [Full] at hf
      obtain ⟨ws, h1, sr⟩ := splitRow (hg hh) hvs (hf vs hh rfl)
      have hw : wires (.tuple row) = (row.map wires).flatten := by
        rw [wires_of_ne (by simp), unpackType_tuple, hh, goodAll_wires (hg hh)]; rfl
      rw [unpackType_tuple, hh]
      refine ⟨ws, h1, by rw [hw]; exact sr.len, by rw [hw, exposed]; exact sr.qubits,
        fun f => ?_⟩
      rw [rRepack, if_neg (by simp), unpackType_tuple, hh, hw, mark]
      simp only [if_true]
      rw [sr.back f]; rfl
  | .opt t, v, elem, _, hne, hv, hf => by
    rw [rUnpack, if_neg (by simp)]
    by_cases ht : t = .qubit
    · have he : elem = true := by
        cases elem with
        | true => rfl
        | false => exact absurd (by rw [ht]) (hne rfl)
      rw [Full] at hf
      rw [HasTy] at hv
      rcases hv with hv | ⟨w, rfl, hw⟩
      · exact absurd hv (hf ht)
      · rw [ht] at hw
        obtain ⟨q, rfl⟩ := hw
        have hw : wires (.opt t) = [.qubit] := by simp [wires, ht]
        refine ⟨[.qb q], by rw [if_pos ht]; rfl, by rw [hw]; rfl, ?_, fun f => ?_⟩
        · rw [hw, exposed, he]; simp [qubitWires, ownQubit]
        · rw [hw, mark, he, rRepack, if_neg (by simp), if_pos ht]
          simp [touched, barrierOut, rFirst, Except.bind, onQubit]
    · rw [if_neg ht]
      refine ⟨[v], rfl, split_hidden rfl (by simpa using ht) hv fun ws => ?_⟩
      rw [rRepack, if_neg (by simp), if_neg ht]
  | .arr k n t, v, elem, hg, _, hv, hf => by
    rw [rUnpack, if_neg (by simp)]
    cases hh : (decide (t = .opt .qubit) || holds t) with
    | false =>
      rw [unpackType_arr, hh]
      refine ⟨[v], rfl, split_hidden (by rw [holds]; exact hh) (by simp) hv fun ws => ?_⟩
      rw [rRepack, if_neg (by simp), unpackType_arr, hh]; rfl
    | true =>
      rw [Good] at hg
      obtain ⟨hl, hg⟩ := hg hh
      rw [HasTy] at hv
      obtain ⟨vs, rfl, hn, hvs⟩ := hv
      rw [Full] at hf
      have hf := hf vs hh rfl
      have h0 : numWires .qubit t ≠ 0 := by rw [leaves_eq]; exact hl
      have hall : ∀ w ∈ vs, ∃ ws, rUnpack .qubit t w = .ok ws ∧ Split t true w ws := by
        intro w hw
        rcases hg with hg | hg
        · rw [hg] at hn
          rw [List.eq_nil_of_length_eq_zero hn] at hw
          cases hw
        · exact split true hg (fun h => by cases h) (hvs w hw) (hf w hw)
      obtain ⟨ws, h1, h2, h3, h4⟩ := split_array h0 hall
      rw [hn] at h2 h3 h4
      have hw : wires (.arr k n t) = (List.replicate n (wires t)).flatten := by
        rw [wires_of_ne (by simp), unpackType_arr, hh]; rfl
      rw [unpackType_arr, hh]
      refine ⟨ws, h1, by rw [hw]; exact h2, by rw [hw, exposed]; exact h3, fun f => ?_⟩
      obtain ⟨ls, h5, h6, h7⟩ := h4 f
      rw [rRepack, if_neg (by simp), unpackType_arr, hh, hw, mark]
      simp only [if_true]
      rw [h5, chunks_flatten h0 _ h6, h7]; rfl

/-- Unpacking a row. -/
theorem splitRow : ∀ {row : List Ty} {vs : List Val}, GoodAll row → HasTyRow row vs →
    FullRow row vs → ∃ ws, rUnpackRow .qubit row vs = .ok ws ∧ SplitRow row vs ws
  | [], vs, _, hv, _ => by
    rw [HasTyRow] at hv
    rw [hv]
    exact ⟨[], by rw [rUnpackRow], rfl, rfl, fun f => by rw [rRepackRow]; rfl⟩
  | t :: ts, vs, hg, hv, hf => by
    rw [HasTyRow] at hv
    obtain ⟨v, vs', rfl, h1, h2⟩ := hv
    rw [GoodAll] at hg
    rw [FullRow] at hf
    have hf := hf v vs' rfl
    obtain ⟨x, hx, sx⟩ := split false hg.1.2 (fun _ => hg.1.1) h1 hf.1
    obtain ⟨y, hy, sy⟩ := splitRow hg.2 h2 hf.2
    refine ⟨x ++ y, by rw [rUnpackRow, hx, hy]; rfl, ?_, ?_, fun f => ?_⟩
    · rw [List.map_cons, List.flatten_cons, List.length_append, List.length_append, sx.len, sy.len]
    · rw [List.map_cons, List.flatten_cons, qubitWires_append sx.len, sx.qubits, sy.qubits,
        exposedAll, List.map_append]
    · rw [List.map_cons, List.flatten_cons, touched_append f sx.len,
        rRepackRow_cons _ _ _ (length_touched f sx.len), sx.back f, sy.back f, markAll]; rfl
end

theorem hasTyRow_cons {t : Ty} {ts : List Ty} {v : Val} {vs : List Val} :
    HasTyRow (t :: ts) (v :: vs) ↔ HasTy t v ∧ HasTyRow ts vs := by
  rw [HasTyRow]
  constructor
  · rintro ⟨v', vs', he, h⟩; cases he; exact h
  · intro h; exact ⟨v, vs, rfl, h⟩

theorem hasTyRow_nil : HasTyRow [] [] := by rw [HasTyRow]

theorem hasTy_tuple {row : List Ty} {vs : List Val} :
    HasTy (.tuple row) (.tuple vs) ↔ HasTyRow row vs := by
  rw [HasTy]
  constructor
  · rintro ⟨_, he, h⟩; cases he; exact h
  · intro h; exact ⟨vs, rfl, h⟩

theorem hasTy_arr {k : Kind} {n : Nat} {t : Ty} {vs : List Val} :
    HasTy (.arr k n t) (.arr vs) ↔ vs.length = n ∧ ∀ w ∈ vs, HasTy t w := by
  rw [HasTy]
  constructor
  · rintro ⟨_, he, h⟩; cases he; exact h
  · intro h; exact ⟨vs, rfl, h⟩

theorem hasTyRow_append : ∀ {ts us : List Ty} {vs ws : List Val}, HasTyRow ts vs →
    HasTyRow us ws → HasTyRow (ts ++ us) (vs ++ ws)
  | [], us, vs, ws, h, h' => by rw [HasTyRow] at h; rw [h]; exact h'
  | t :: ts, us, vs, ws, h, h' => by
    rw [HasTyRow] at h
    obtain ⟨v, vs', rfl, h1, h2⟩ := h
    rw [List.cons_append, List.cons_append, HasTyRow]
    exact ⟨v, _, rfl, h1, hasTyRow_append h2 h'⟩

theorem hasTyRow_one {t : Ty} {v : Val} (h : HasTy t v) : HasTyRow [t] [v] := by
  rw [HasTyRow]
  exact ⟨v, [], rfl, h, by rw [HasTyRow]⟩

theorem typed_array {t : Ty} : ∀ {vs ws : List Val},
    (∀ w ∈ vs, ∀ x, rUnpack .qubit t w = .ok x → HasTyRow (wires t) x) →
    concatM (rUnpack .qubit t) vs = .ok ws →
    HasTyRow (List.replicate vs.length (wires t)).flatten ws
  | [], ws, _, h => by rw [concatM] at h; cases h; rw [List.length_nil]; simp [HasTyRow]
  | v :: vs, ws, hw, h => by
    rw [concatM] at h
    obtain ⟨x, h1, h2⟩ := bind_ok.1 h
    obtain ⟨y, h3, h4⟩ := bind_ok.1 h2
    cases h4
    rw [List.length_cons, List.replicate_succ, List.flatten_cons]
    exact hasTyRow_append (hw v (by simp) x h1)
      (typed_array (fun w hw' => hw w (by simp [hw'])) h3)

mutual
/-- The values on the wires have the types of the wires. -/
theorem typed : ∀ {t : Ty} {v : Val} {ws : List Val}, Good t → HasTy t v → Full t v →
    rUnpack .qubit t v = .ok ws → HasTyRow (wires t) ws
  | .qubit, v, ws, _, hv, _, h => by
    rw [rUnpack] at h
    cases h
    have hw : wires .qubit = [.qubit] := by simp [wires, unpackType]
    rw [hw]
    exact hasTyRow_one hv
  | .atom n, v, ws, _, hv, _, h => by
    rw [rUnpack] at h
    cases h
    have hw : wires (.atom n) = [.atom n] := by simp [wires, unpackType]
    rw [hw]
    exact hasTyRow_one hv
  | .opt t, v, ws, _, hv, hf, h => by
    rw [rUnpack, if_neg (by simp)] at h
    by_cases ht : t = .qubit
    · rw [if_pos ht] at h
      rw [HasTy] at hv
      rcases hv with rfl | ⟨w, rfl, hw⟩
      · cases h
      · cases h
        rw [wires, if_pos (by rw [ht])]
        rw [ht] at hw
        exact hasTyRow_one hw
    · rw [if_neg ht] at h
      cases h
      have hw : wires (.opt t) = [.opt t] := by simp [wires, unpackType, ht]
      rw [hw]
      exact hasTyRow_one hv
  | .tuple row, v, ws, hg, hv, hf, h => by
    rw [rUnpack, if_neg (by simp), unpackType_tuple] at h
    rw [wires_of_ne (by simp), unpackType_tuple]
    cases hh : holdsAny row with
    | false =>
      rw [hh] at h
      cases h
      exact hasTyRow_one hv
    | true =>
      rw [hh] at h
      rw [Good] at hg
      rw [HasTy] at hv
      obtain ⟨vs, rfl, hvs⟩ := hv
      rw [Full] at hf
      simp only [if_true, Option.getD_some]
      rw [goodAll_wires (hg hh)]
      exact typed_row (hg hh) hvs (hf vs hh rfl) h
  | .arr k n t, v, ws, hg, hv, hf, h => by
    rw [rUnpack, if_neg (by simp), unpackType_arr] at h
    rw [wires_of_ne (by simp), unpackType_arr]
    cases hh : (decide (t = .opt .qubit) || holds t) with
    | false =>
      rw [hh] at h
      cases h
      exact hasTyRow_one hv
    | true =>
      rw [hh] at h
      rw [Good] at hg
      rw [HasTy] at hv
      obtain ⟨vs, rfl, hn, hvs⟩ := hv
      rw [Full] at hf
      simp only [if_true, Option.getD_some]
      rw [← hn]
      refine typed_array (fun w hw x hx => ?_) h
      rcases (hg hh).2 with h0 | hg
      · rw [h0] at hn
        rw [List.eq_nil_of_length_eq_zero hn] at hw
        cases hw
      · exact typed hg (hvs w hw) (hf vs hh rfl w hw) hx

/-- The same for rows. -/
theorem typed_row : ∀ {row : List Ty} {vs ws : List Val}, GoodAll row → HasTyRow row vs →
    FullRow row vs → rUnpackRow .qubit row vs = .ok ws → HasTyRow (row.map wires).flatten ws
  | [], vs, ws, _, _, _, h => by
    rw [rUnpackRow] at h
    cases h
    simp [HasTyRow]
  | t :: ts, vs, ws, hg, hv, hf, h => by
    rw [HasTyRow] at hv
    obtain ⟨v, vs', rfl, h1, h2⟩ := hv
    rw [GoodAll] at hg
    rw [FullRow] at hf
    have hf := hf v vs' rfl
    rw [rUnpackRow] at h
    obtain ⟨x, h3, h4⟩ := bind_ok.1 h
    obtain ⟨y, h5, h6⟩ := bind_ok.1 h4
    cases h6
    rw [List.map_cons, List.flatten_cons]
    exact hasTyRow_append (typed hg.1.2 h1 hf.1 h3) (typed_row hg.2 h2 hf.2 h5)
end

theorem touched_id : ∀ {ts : List Ty} {ws : List Val}, ts.length = ws.length →
    touched id ts ws = ws
  | [], [], _ => rfl
  | t :: ts, w :: ws, h => by
    have hb : barrierOut id w = w := by cases w <;> rfl
    have ih := touched_id (ts := ts) (ws := ws) (by simpa using h)
    rw [touched] at ih
    rw [touched, List.zipWith_cons_cons, hb, ih, ite_self]

mutual
theorem mark_id : ∀ (elem : Bool) (v : Val), mark id elem v = v
  | _, .qb q => by rw [mark]; rfl
  | _, .tuple vs => by rw [mark, markAll_id false vs]
  | _, .arr vs => by rw [mark, markAll_id true vs]
  | elem, .some v => by
    have : onQubit id v = v := by cases v <;> rfl
    rw [mark, this, ite_self]
  | _, .none => by rw [mark]
  | _, .«opaque» _ _ => by rw [mark]
theorem markAll_id : ∀ (elem : Bool) (vs : List Val), markAll id elem vs = vs
  | _, [] => by rw [markAll]
  | elem, v :: vs => by rw [markAll, mark_id elem v, markAll_id elem vs]
end

/-! ### Empty options -/

theorem concatM_error {f : Val → Except RErr (List Val)} : ∀ {vs : List Val},
    (∀ w ∈ vs, f w = .error .isNone ∨ ∃ ws, f w = .ok ws) →
    (∃ w ∈ vs, f w = .error .isNone) → concatM f vs = .error .isNone
  | [], _, ⟨w, hw, _⟩ => by cases hw
  | v :: vs, h, ⟨w, hw, he⟩ => by
    rw [concatM]
    rcases h v (by simp) with h1 | ⟨x, h1⟩
    · rw [h1]; rfl
    · rw [h1]
      rcases List.mem_cons.1 hw with hw | hw
      · rw [← hw, he] at h1; cases h1
      · rw [show (concatM f vs) = _ from
          concatM_error (fun w hw => h w (by simp [hw])) ⟨w, hw, he⟩]; rfl

mutual
theorem none_error : ∀ {t : Ty} {v : Val} (elem : Bool), Good t →
    (elem = false → t ≠ .opt .qubit) → HasTy t v → ¬ Full t v →
    rUnpack .qubit t v = .error .isNone
  | .qubit, _, _, _, _, _, hf => absurd trivial hf
  | .atom _, _, _, _, _, _, hf => absurd trivial hf
  | .tuple row, v, _, hg, _, hv, hf => by
    rw [Full] at hf
    rw [HasTy] at hv
    obtain ⟨vs, rfl, hvs⟩ := hv
    cases hh : holdsAny row with
    | false => exact absurd (fun vs h => by rw [hh] at h; cases h) hf
    | true =>
      rw [Good] at hg
      rw [rUnpack, if_neg (by simp), unpackType_tuple, hh]
      refine noneRow_error (hg hh) hvs fun h => hf ?_
      intro vs' _ he
      cases he
      exact h
  | .opt t, v, elem, _, hne, hv, hf => by
    rw [Full] at hf
    by_cases ht : t = .qubit
    · rw [rUnpack, if_neg (by simp), if_pos ht]
      by_cases hv' : v = .none
      · rw [hv']; rfl
      · exact absurd (fun _ => hv') hf
    · exact absurd (fun h => absurd h ht) hf
  | .arr k n t, v, _, hg, _, hv, hf => by
    rw [Full] at hf
    rw [HasTy] at hv
    obtain ⟨vs, rfl, hn, hvs⟩ := hv
    cases hh : (decide (t = .opt .qubit) || holds t) with
    | false => exact absurd (fun vs h => by rw [hh] at h; cases h) hf
    | true =>
      rw [Good] at hg
      obtain ⟨_, hg⟩ := hg hh
      rw [rUnpack, if_neg (by simp), unpackType_arr, hh]
      have hex : ∃ w ∈ vs, ¬ Full t w := by
        apply Classical.byContradiction
        intro hcon
        apply hf
        intro vs' _ he w hw
        cases he
        exact Classical.byContradiction fun h => hcon ⟨w, hw, h⟩
      rcases hg with hg | hg
      · rw [hg] at hn
        rw [List.eq_nil_of_length_eq_zero hn] at hex
        obtain ⟨w, hw, _⟩ := hex
        cases hw
      · refine concatM_error (fun w hw => ?_) ?_
        · by_cases hfw : Full t w
          · obtain ⟨ws, h, _⟩ := split true hg (fun h => by cases h) (hvs w hw) hfw
            exact .inr ⟨ws, h⟩
          · exact .inl (none_error true hg (fun h => by cases h) (hvs w hw) hfw)
        · obtain ⟨w, hw, hfw⟩ := hex
          exact ⟨w, hw, none_error true hg (fun h => by cases h) (hvs w hw) hfw⟩

theorem noneRow_error : ∀ {row : List Ty} {vs : List Val}, GoodAll row → HasTyRow row vs →
    ¬ FullRow row vs → rUnpackRow .qubit row vs = .error .isNone
  | [], _, _, _, hf => absurd trivial hf
  | t :: ts, vs, hg, hv, hf => by
    rw [HasTyRow] at hv
    obtain ⟨v, vs', rfl, h1, h2⟩ := hv
    rw [GoodAll] at hg
    rw [FullRow] at hf
    rw [rUnpackRow]
    by_cases hfv : Full t v
    · obtain ⟨x, hx, _⟩ := split false hg.1.2 (fun _ => hg.1.1) h1 hfv
      have hfr : ¬ FullRow ts vs' := fun h => hf (by
        intro v' vs'' he
        cases he
        exact ⟨hfv, h⟩)
      rw [hx, noneRow_error hg.2 h2 hfr]; rfl
    · rw [none_error false hg.1.2 (fun _ => hg.1.1) h1 hfv]; rfl
end

/-! ### The operands of a barrier -/

/-- The values of the operands with visible qubits. -/
def operands : List Ty → List Val → List Val
  | t :: ts, v :: vs => if holds t then v :: operands ts vs else operands ts vs
  | _, _ => []

theorem filterPorts_types : ∀ (types : List Ty) (i : Nat),
    (filterPorts i types).map (·.2) = types.filter holds
  | [], _ => rfl
  | t :: ts, i => by
    rw [filterPorts, contains, holds_iff]
    cases h : holds t with
    | false => simp [h, filterPorts_types ts]
    | true => simp [h, filterPorts_types ts]

theorem filterPorts_eq_nil : ∀ {types : List Ty} {i : Nat},
    (filterPorts i types).isEmpty = !holdsAny types
  | [], _ => rfl
  | t :: ts, i => by
    rw [filterPorts, contains, holds_iff, holdsAny]
    cases h : holds t with
    | false => simp [filterPorts_eq_nil (types := ts)]
    | true => simp

theorem ports_spec (f : Nat → Nat) : ∀ {types : List Ty} {vs : List Val} (pre : List Val),
    HasTyRow types vs →
    ((filterPorts pre.length types).map (·.1)).filterMap ((pre ++ vs)[·]?) = operands types vs ∧
    setPorts ((filterPorts pre.length types).map (·.1)) (markAll f false (operands types vs))
      (pre ++ vs) = pre ++ markAll f false vs
  | [], vs, pre, h => by
    rw [HasTyRow] at h
    rw [h]
    simp [filterPorts, operands, setPorts, markAll]
  | t :: ts, vs, pre, h => by
    rw [HasTyRow] at h
    obtain ⟨v, vs', rfl, h1, h2⟩ := h
    rw [filterPorts, contains, holds_iff, operands]
    have hget : (pre ++ v :: vs')[pre.length]? = some v := by simp
    have ih := ports_spec f (pre ++ [v]) h2
    have ihm := ports_spec f (pre ++ [mark f false v]) h2
    rw [List.length_append, List.length_singleton, List.append_assoc, List.singleton_append] at ih
    rw [List.length_append, List.length_singleton, List.append_assoc, List.singleton_append] at ihm
    cases hh : holds t with
    | false =>
      simp only [Bool.false_eq_true, if_false]
      refine ⟨ih.1, ?_⟩
      rw [ih.2, markAll, (hidden false hh (fun h => by cases h) h1).2 f, List.append_assoc,
        List.singleton_append]
    | true =>
      simp only [if_true, List.map_cons]
      refine ⟨?_, ?_⟩
      · rw [List.filterMap_cons_some hget, ih.1]
      · rw [markAll, setPorts, List.set_append_right _ _ (Nat.le_refl _), Nat.sub_self,
          List.set_cons_zero, ihm.2, markAll, List.append_assoc, List.singleton_append]

theorem operands_typed : ∀ {types : List Ty} {vs : List Val}, HasTyRow types vs →
    HasTyRow (types.filter holds) (operands types vs)
  | [], vs, _ => by simp [operands, HasTyRow]
  | t :: ts, vs, h => by
    rw [HasTyRow] at h
    obtain ⟨v, vs', rfl, h1, h2⟩ := h
    rw [operands]
    cases hh : holds t with
    | false => simpa [hh] using operands_typed h2
    | true =>
      simp only [List.filter_cons, hh, if_true]
      rw [HasTyRow]
      exact ⟨v, _, rfl, h1, operands_typed h2⟩

theorem operands_exposed : ∀ {types : List Ty} {vs : List Val}, HasTyRow types vs →
    exposedAll false (operands types vs) = exposedAll false vs
  | [], vs, h => by rw [HasTyRow] at h; rw [h]; rfl
  | t :: ts, vs, h => by
    rw [HasTyRow] at h
    obtain ⟨v, vs', rfl, h1, h2⟩ := h
    rw [operands, exposedAll]
    cases hh : holds t with
    | false =>
      rw [(hidden false hh (fun h => by cases h) h1).1]
      simpa using operands_exposed h2
    | true => simp only [if_true]; rw [exposedAll, operands_exposed h2]

theorem operands_full : ∀ {types : List Ty} {vs : List Val}, HasTyRow types vs →
    (FullRow (types.filter holds) (operands types vs) ↔ FullOps types vs)
  | [], vs, h => by
    simp [FullRow, FullOps]
  | t :: ts, vs, h => by
    rw [HasTyRow] at h
    obtain ⟨v, vs', rfl, h1, h2⟩ := h
    rw [operands]
    have ih := operands_full h2
    have hc : FullOps (t :: ts) (v :: vs') ↔ (holds t = true → Full t v) ∧ FullOps ts vs' := by
      simp [FullOps]
    rw [hc, ← ih]
    cases hh : holds t with
    | false => simp [hh]
    | true =>
      simp only [List.filter_cons, hh, if_true, true_implies]
      rw [FullRow]
      constructor
      · intro h; exact h _ _ rfl
      · intro h v' vs'' he; cases he; exact h

theorem goodAll_filter : ∀ {types : List Ty},
    GoodAll (types.filter holds) ↔ ∀ t ∈ types, Good t
  | [] => by simp [GoodAll]
  | t :: ts => by
    have ih := goodAll_filter (types := ts)
    cases hh : holds t with
    | false =>
      have hg : Good t := by
        cases t with
        | qubit => trivial
        | atom _ => trivial
        | opt _ => rw [Good]; trivial
        | tuple row => rw [Good]; intro h; rw [holds] at hh; rw [hh] at h; cases h
        | arr k n t => rw [Good]; intro h; rw [holds] at hh; rw [hh] at h; cases h
      simp [hh, ih, hg]
    | true =>
      have hne : t ≠ .opt .qubit := by rintro rfl; simp [holds] at hh
      simp [hh, GoodAll, ih, hne]

theorem filter_ne (types : List Ty) : ∀ t ∈ types.filter holds, t ≠ .opt .qubit := by
  intro t ht he
  have := (List.mem_filter.1 ht).2
  rw [he] at this
  simp [holds] at this

theorem qubits_row : ∀ {vs : List Val}, (∀ w ∈ vs, HasTy .qubit w) →
    (exposedAll true vs).map Val.qb = vs ∧
    ∀ f, markAll f true vs = vs.map (barrierOut f)
  | [], _ => ⟨rfl, fun _ => rfl⟩
  | v :: vs, h => by
    obtain ⟨q, hq⟩ := h v (by simp)
    have ih := qubits_row fun w (hw : w ∈ vs) => h w (by simp [hw])
    rw [hq]
    refine ⟨?_, fun f => ?_⟩
    · rw [exposedAll, exposed, List.map_append, ih.1]; rfl
    · rw [markAll, mark, ih.2 f]; rfl

/-- The short cut is taken only for a single array of qubits. -/
theorem shortcut_some {fs : List (Nat × Ty)} {i : Nat} (h : shortcut fs = some i) :
    ∃ n, fs = [(i, .arr .array n .qubit)] := by
  rcases fs with _ | ⟨⟨j, t⟩, _ | _⟩
  · simp [shortcut] at h
  · rw [shortcut] at h
    cases hq : qubitArray t with
    | none => simp [hq] at h
    | some n =>
      simp only [hq, Option.isSome_some, if_true, Option.some.injEq] at h
      rw [h]
      unfold qubitArray at hq
      split at hq
      · exact ⟨_, rfl⟩
      · cases hq
  · simp [shortcut] at h

end Verif.Containers
