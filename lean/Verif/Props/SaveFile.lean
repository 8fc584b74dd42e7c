import Verif.Model.SaveFile
import Mathlib.Tactic.SplitIfs

/-
Properties of saved files: see C102 in properties.jsonl.
-/
namespace Verif.SaveFile

/-! ### Lemmas on writing -/

/-- Bytes that reach the device before the file is closed, for a buffer that holds `n` bytes and
chunks of given lengths. -/
def early (cap : Nat) : Nat → List Nat → Nat
  | _, [] => 0
  | n, l :: ls =>
    if l < cap - n then early cap (n + l) ls
    else if l > cap - n then if l ≥ cap then n + l + early cap 0 ls else n + early cap l ls
    else if l ≥ cap then l + early cap n ls else early cap (n + l) ls

theorem early_bounds (cap : Nat) : ∀ (ls : List Nat) (n : Nat), n ≤ cap →
    early cap n ls ≤ n + ls.sum ∧ n + ls.sum ≤ early cap n ls + cap ∧
      (n + ls.sum < cap → early cap n ls = 0)
  | [], n, h => by simp [early]; omega
  | l :: ls, n, h => by
    rw [early, List.sum_cons]
    split_ifs with h1 h2 h3 h4
    · have := early_bounds cap ls (n + l) (by omega)
      omega
    · have := early_bounds cap ls 0 (by omega)
      omega
    · have := early_bounds cap ls l (by omega)
      omega
    · have := early_bounds cap ls n h
      omega
    · have := early_bounds cap ls (n + l) (by omega)
      omega

theorem write_full (d : Dev) (bs : Bytes) :
    (d.write bs).2.content = d.content ++ bs.take d.room := rfl

theorem take_all {α : Type} {l : List α} {n : Nat} (h : l.length ≤ n) : l.take n = l :=
  List.take_of_length_le h

/-- Closing writes what fits. -/
theorem close_content (b : Buf) : b.close.content = b.dev.content ++ b.buf.take b.dev.room := rfl

/-- A prefix that fills the device. -/
theorem take_full (c d e : Bytes) (r : Nat) (h : r < d.length) :
    c ++ d.take r = (c ++ (d ++ e)).take (c.length + r) := by
  rw [List.take_append, List.take_of_length_le (l := c) (by omega)]
  congr 1
  rw [show c.length + r - c.length = r by omega, List.take_append_of_le_length (by omega)]

theorem writes_spec (cap : Nat) : ∀ (cs : List Bytes) (b : Buf), b.buf.length ≤ cap →
    ((b.writes cap cs).1 = true ↔ early cap b.buf.length (cs.map List.length) ≤ b.dev.room) ∧
      (b.writes cap cs).2.close.content =
        (b.dev.content ++ (b.buf ++ cs.flatten)).take (b.dev.content.length + b.dev.room)
  | [], b, _ => by
    refine ⟨by simp [Buf.writes, early], ?_⟩
    simp only [Buf.writes, close_content, List.flatten_nil, List.append_nil]
    rw [List.take_append, List.take_of_length_le (l := b.dev.content) (by omega)]
    congr 2
    omega
  | c :: cs, b, hb => by
    obtain ⟨buf, ⟨content, room⟩⟩ := b
    simp only at hb
    simp only [Buf.writes, List.map_cons, early]
    by_cases h1 : c.length < cap - buf.length
    · have hw : Buf.write cap ⟨buf, ⟨content, room⟩⟩ c = (true, ⟨buf ++ c, ⟨content, room⟩⟩) := by
        simp [Buf.write, h1]
      have := writes_spec cap cs ⟨buf ++ c, ⟨content, room⟩⟩ (by simp; omega)
      simp only [List.length_append] at this
      simp only [hw, if_true, if_pos h1]
      refine ⟨this.1, ?_⟩
      rw [this.2]
      simp
    · rw [if_neg h1]
      by_cases h2 : c.length > cap - buf.length
      · rw [if_pos h2]
        by_cases h3 : buf.length ≤ room
        · have hf : Buf.flush ⟨buf, ⟨content, room⟩⟩ =
              (true, ⟨[], ⟨content ++ buf, room - buf.length⟩⟩) := by
            simp [Buf.flush, Dev.write, h3, take_all h3]
          by_cases h4 : c.length ≥ cap
          · rw [if_pos h4]
            by_cases h5 : c.length ≤ room - buf.length
            · have hw : Buf.write cap ⟨buf, ⟨content, room⟩⟩ c =
                  (true, ⟨[], ⟨content ++ buf ++ c, room - buf.length - c.length⟩⟩) := by
                simp [Buf.write, h1, h2, hf, h4, Dev.write, h5, take_all h5]
              have := writes_spec cap cs
                ⟨[], ⟨content ++ buf ++ c, room - buf.length - c.length⟩⟩ (by simp)
              simp only [hw, if_true]
              refine ⟨this.1.trans ?_, ?_⟩
              · simp only [List.length_nil]
                omega
              · rw [this.2]
                simp only [List.nil_append, List.append_assoc, List.length_append,
                  List.flatten_cons]
                congr 1
                omega
            · have hw : Buf.write cap ⟨buf, ⟨content, room⟩⟩ c =
                  (false, ⟨[], ⟨content ++ buf ++ c.take (room - buf.length),
                    room - buf.length - c.length⟩⟩) := by
                simp [Buf.write, h1, h2, hf, h4, Dev.write, h5]
              simp only [hw, Bool.false_eq_true, if_false, false_iff, Nat.not_le]
              refine ⟨by omega, ?_⟩
              rw [close_content]
              simp only [List.take_nil, List.append_nil, List.flatten_cons]
              rw [← List.append_assoc content buf (c ++ cs.flatten)]
              rw [take_full (content ++ buf) c cs.flatten (room - buf.length) (by omega)]
              congr 1
              simp only [List.length_append]
              omega
          · rw [if_neg h4]
            have hw : Buf.write cap ⟨buf, ⟨content, room⟩⟩ c =
                (true, ⟨c, ⟨content ++ buf, room - buf.length⟩⟩) := by
              simp [Buf.write, h1, h2, hf, h4]
            have := writes_spec cap cs ⟨c, ⟨content ++ buf, room - buf.length⟩⟩ (by simp; omega)
            simp only [hw, if_true]
            refine ⟨this.1.trans ?_, ?_⟩
            · simp only
              omega
            · rw [this.2]
              simp only [List.append_assoc, List.length_append, List.flatten_cons]
              congr 1
              omega
        · have hf : Buf.flush ⟨buf, ⟨content, room⟩⟩ =
              (false, ⟨buf.drop room, ⟨content ++ buf.take room, room - buf.length⟩⟩) := by
            simp [Buf.flush, Dev.write, h3]
          have hw : Buf.write cap ⟨buf, ⟨content, room⟩⟩ c =
              (false, ⟨buf.drop room, ⟨content ++ buf.take room, room - buf.length⟩⟩) := by
            simp [Buf.write, h1, h2, hf]
          simp only [hw, Bool.false_eq_true, if_false, false_iff, Nat.not_le]
          refine ⟨by split_ifs <;> omega, ?_⟩
          rw [close_content]
          simp only [show room - buf.length = 0 by omega, List.take_zero, List.append_nil,
            List.flatten_cons]
          exact take_full content buf (c ++ cs.flatten) room (by omega)
      · rw [if_neg h2]
        by_cases h4 : c.length ≥ cap
        · have hbuf : buf = [] := by
            apply List.eq_nil_of_length_eq_zero
            omega
          subst hbuf
          rw [if_pos h4]
          by_cases h5 : c.length ≤ room
          · have hw : Buf.write cap ⟨[], ⟨content, room⟩⟩ c =
                (true, ⟨[], ⟨content ++ c, room - c.length⟩⟩) := by
              simp only [Buf.write, h1, h2, if_false, if_true, Dev.write, if_pos h4, take_all h5,
                decide_eq_true h5]
            have := writes_spec cap cs ⟨[], ⟨content ++ c, room - c.length⟩⟩ (by simp)
            simp only [hw, if_true]
            refine ⟨this.1.trans ?_, ?_⟩
            · simp only [List.length_nil]
              omega
            · rw [this.2]
              simp only [List.nil_append, List.append_assoc, List.length_append, List.flatten_cons]
              congr 1
              omega
          · have hw : Buf.write cap ⟨[], ⟨content, room⟩⟩ c =
                (false, ⟨[], ⟨content ++ c.take room, room - c.length⟩⟩) := by
              simp only [Buf.write, h1, h2, if_false, if_true, Dev.write, if_pos h4,
                decide_eq_false h5]
            simp only [hw, Bool.false_eq_true, if_false, false_iff, Nat.not_le]
            refine ⟨by omega, ?_⟩
            rw [close_content]
            simp only [List.take_nil, List.append_nil, List.flatten_cons, List.nil_append]
            exact take_full content c cs.flatten room (by omega)
        · rw [if_neg h4]
          have hw : Buf.write cap ⟨buf, ⟨content, room⟩⟩ c =
              (true, ⟨buf ++ c, ⟨content, room⟩⟩) := by
            simp [Buf.write, h1, h2, h4]
          have := writes_spec cap cs ⟨buf ++ c, ⟨content, room⟩⟩ (by simp; omega)
          simp only [List.length_append] at this
          simp only [hw, if_true]
          refine ⟨this.1, ?_⟩
          rw [this.2]
          simp

theorem direct_spec : ∀ (cs : List Bytes) (d : Dev),
    ((direct.go d cs).1 = true ↔ cs.flatten.length ≤ d.room) ∧
      (direct.go d cs).2.content = (d.content ++ cs.flatten).take (d.content.length + d.room)
  | [], d => by
    refine ⟨by simp [direct.go], ?_⟩
    simp [direct.go, List.take_of_length_le]
  | c :: cs, ⟨content, room⟩ => by
    simp only [direct.go, Dev.write, List.flatten_cons, List.length_append]
    by_cases h : c.length ≤ room
    · have := direct_spec cs ⟨content ++ c, room - c.length⟩
      simp only [decide_eq_true h, if_true, take_all h]
      refine ⟨this.1.trans ?_, ?_⟩
      · simp only
        omega
      · rw [this.2]
        simp only [List.append_assoc, List.length_append]
        congr 1
        omega
    · simp only [decide_eq_false h, Bool.false_eq_true, if_false, false_iff, Nat.not_le]
      exact ⟨by omega, take_full content c cs.flatten room (by omega)⟩

theorem buffered_spec (cap : Nat) (cs : List Bytes) (room : Nat) :
    ((buffered cap cs room).1 = true ↔ early cap 0 (cs.map List.length) ≤ room) ∧
      (buffered cap cs room).2 = cs.flatten.take room := by
  have := writes_spec cap cs ⟨[], ⟨[], room⟩⟩ (by simp)
  simpa [buffered] using this

/-! ### Lemmas on names -/

theorem splitDot_none : ∀ {n : Name}, splitDot n = none ↔ '.' ∉ n
  | [] => by simp [splitDot]
  | c :: cs => by
    have ih := splitDot_none (n := cs)
    rw [splitDot]
    cases h : splitDot cs with
    | some p =>
      simp only [h, reduceCtorEq, false_iff, Decidable.not_not] at ih
      simp [ih]
    | none =>
      have hc : '.' ∉ cs := ih.mp h
      by_cases hd : c = '.'
      · simp [hd]
      · simp [hd, hc, Ne.symm hd]

theorem splitDot_append (s e : Name) (he : '.' ∉ e) : splitDot (s ++ '.' :: e) = some (s, e) := by
  induction s with
  | nil => simp [splitDot, splitDot_none.mpr he]
  | cons c s ih => simp [splitDot, ih]

theorem stem_ne_nil {n : Name} (h : n ≠ []) : stem n ≠ [] := by
  unfold stem
  rcases hs : splitDot n with _ | ⟨b, a⟩
  · exact h
  · cases b with
    | nil => exact h
    | cons c b => simp

theorem ext_append {s e : Name} (hs : s ≠ []) (he : '.' ∉ e) : ext (s ++ '.' :: e) = some e := by
  rw [ext, splitDot_append s e he]
  cases s with
  | nil => exact absurd rfl hs
  | cons => rfl

/-! ### Property theorems -/

/-- A file written through a buffer has the bytes that fit on the device, from the first one on: all
of them if there is room. -/
theorem C102_content (cap : Nat) (chunks : List Bytes) (room : Nat) :
    (buffered cap chunks room).2 = chunks.flatten.take room :=
  (buffered_spec cap chunks room).2

/-- With room for all bytes, saving succeeds and the file is complete. -/
theorem C102_complete (cap : Nat) (chunks : List Bytes) (room : Nat)
    (h : chunks.flatten.length ≤ room) :
    buffered cap chunks room = (true, chunks.flatten) := by
  have hb := buffered_spec cap chunks room
  have he := early_bounds cap (chunks.map List.length) 0 (by omega)
  rw [← List.length_flatten] at he
  refine Prod.ext (hb.1.mpr (by omega)) ?_
  rw [hb.2, take_all h]

/-- Exactly when success is reported: a number of bytes at the end, at most as many as the buffer
holds, are written only when the file is closed, and errors are ignored there.  Files shorter than
the buffer are always reported as saved. -/
theorem C102_reported_iff (cap : Nat) (chunks : List Bytes) :
    ∃ k, k ≤ chunks.flatten.length ∧ chunks.flatten.length ≤ k + cap ∧
      (chunks.flatten.length < cap → k = 0) ∧
      ∀ room, (buffered cap chunks room).1 = true ↔ k ≤ room := by
  have he := early_bounds cap (chunks.map List.length) 0 (by omega)
  rw [← List.length_flatten, Nat.zero_add] at he
  exact ⟨_, he.1, he.2.1, he.2.2, fun room => (buffered_spec cap chunks room).1⟩

/-- Success is reported for incomplete files: any non-empty data shorter than the buffer, on any
device that is too full for it. -/
theorem C102_truncated_reported_saved (cap : Nat) (chunks : List Bytes) (room : Nat)
    (hc : chunks.flatten.length < cap) (hr : room < chunks.flatten.length) :
    (buffered cap chunks room).1 = true ∧ (buffered cap chunks room).2 ≠ chunks.flatten ∧
      (buffered cap chunks room).2.length = room := by
  obtain ⟨k, _, _, hk, h⟩ := C102_reported_iff cap chunks
  have hl : (buffered cap chunks room).2.length = room := by
    rw [C102_content, List.length_take]
    omega
  refine ⟨(h room).mpr (by have := hk hc; omega), fun he => ?_, hl⟩
  rw [he] at hl
  omega

/-- Matchers are written without a buffer: success is reported exactly if the file is complete. -/
theorem C102_matcher (chunks : List Bytes) (room : Nat) :
    ((direct chunks room).1 = true ↔ (direct chunks room).2 = chunks.flatten) ∧
      (direct chunks room).2 = chunks.flatten.take room := by
  have := direct_spec chunks ⟨[], room⟩
  simp only [List.nil_append, List.length_nil, Nat.zero_add] at this
  refine ⟨this.1.trans ?_, this.2⟩
  change _ ↔ (direct.go ⟨[], room⟩ chunks).2.content = _
  rw [this.2]
  refine ⟨take_all, fun h => ?_⟩
  have := congrArg List.length h
  rw [List.length_take] at this
  omega

/-- Rewriters are saved under the name with the extension `rwr`, in the same directory, and nothing
else changes. -/
theorem C102_rewriter_path (cap : Nat) (fs fs' : FS) (p q : Path) (chunks : List Bytes) (n : Name)
    (hn : p.name = some n) (hne : n ≠ [])
    (h : saveRewriter cap fs p chunks = (some q, fs')) :
    q.dir = p.dir ∧ q.ext = some rwr ∧
      fs'.at_ q = some (.file (chunks.flatten.take fs.room)) ∧
      ∀ r, r ≠ q → fs'.at_ r = fs.at_ r := by
  simp only [saveRewriter, FS.save] at h
  by_cases hc : fs.creatable (p.setExt rwr) = true
  · rw [if_pos hc] at h
    simp only [Prod.mk.injEq] at h
    obtain ⟨h1, rfl⟩ := h
    split at h1
    · cases h1
      refine ⟨by simp [Path.setExt, hn], ?_, ?_, ?_⟩
      · simp only [Path.ext, Path.setExt, hn, Option.bind_some]
        exact ext_append (stem_ne_nil hne) (by decide)
      · simp [FS.set, C102_content]
      · intro r hr
        simp [FS.set, hr]
    · simp at h1
  · rw [if_neg hc] at h
    simp at h

/-- Matchers are saved under the name with the extension `bin`, exactly if the file can be created and
there is room; what is there after an error is the part that fits. -/
theorem C102_matcher_path (fs : FS) (d : Nat) (n : Name) (hne : n ≠ []) (chunks : List Bytes) :
    ∃ q : Path, q.dir = d ∧ q.ext = some ['b', 'i', 'n'] ∧ q.name = some (stem n ++ ['.', 'b', 'i', 'n']) ∧
      (saveMatcher fs ⟨d, some n⟩ chunks).1 =
        (if fs.creatable q = true ∧ chunks.flatten.length ≤ fs.room then some q else none) ∧
      ∀ r, (saveMatcher fs ⟨d, some n⟩ chunks).2.at_ r =
        if fs.creatable q = true ∧ r = q then some (.file (chunks.flatten.take fs.room))
        else fs.at_ r := by
  refine ⟨⟨d, some (stem n ++ ['.', 'b', 'i', 'n'])⟩, rfl, ext_append (stem_ne_nil hne) (by decide), rfl,
    ?_, fun r => ?_⟩ <;> simp only [saveMatcher, Path.setExt, FS.save, bin]
  all_goals
    by_cases hc : fs.creatable ⟨d, some (stem n ++ ['.', 'b', 'i', 'n'])⟩ = true
  · have := (direct_spec chunks ⟨[], fs.room⟩).1
    change (direct chunks fs.room).1 = true ↔ _ at this
    simp only [hc, if_true, this, true_and]
  · simp [hc]
  · simp [hc, FS.set, (C102_matcher chunks fs.room).2]
  · simp [hc]

/-- If saving a rewriter fails although the file can be created, the file that was there is lost: what
is there is the part that fits. -/
theorem C102_old_rewriter_lost (cap : Nat) (fs fs' : FS) (p : Path) (chunks : List Bytes)
    (hc : fs.creatable (p.setExt rwr) = true) (h : saveRewriter cap fs p chunks = (none, fs')) :
    fs'.at_ (p.setExt rwr) = some (.file (chunks.flatten.take fs.room)) ∧
      fs.room < chunks.flatten.length := by
  simp only [saveRewriter, FS.save, hc, if_true, Prod.mk.injEq] at h
  obtain ⟨h1, rfl⟩ := h
  refine ⟨by simp [FS.set, C102_content], ?_⟩
  by_cases hr : chunks.flatten.length ≤ fs.room
  · simp [C102_complete cap chunks fs.room hr] at h1
  · omega

/-- Two names are saved to the same file exactly if they have the same part before the extension: what
comes after the last dot is dropped. -/
theorem C102_same_file_iff (d d' : Nat) (n n' : Name) :
    Path.setExt ⟨d, some n⟩ rwr = Path.setExt ⟨d', some n'⟩ rwr ↔ d = d' ∧ stem n = stem n' := by
  simp only [Path.setExt, Path.mk.injEq, Option.some.injEq]
  constructor
  · rintro ⟨h, h'⟩
    refine ⟨h, ?_⟩
    exact List.append_cancel_right h'
  · rintro ⟨h, h'⟩
    exact ⟨h, by rw [h']⟩

/-- An input without an extension is a panic. -/
theorem C102_no_extension {R : Type} (cap : Nat) (co : Codec R) (sub : Path → Nat) (fs : FS)
    (d : Nat) (n : Name) (output : Path) (hn : '.' ∉ n) :
    compileTool cap co sub fs ⟨d, some n⟩ output = (.panic, fs) := by
  have : Path.ext ⟨d, some n⟩ = none := by simp [Path.ext, ext, splitDot_none.mpr hn]
  unfold compileTool
  rw [this]
  rcases fs.at_ ⟨d, some n⟩ with _ | _ | _ <;> rfl

/-- A version number in a name is taken for an extension: `v1.2` and `v1.3` are the same file. -/
theorem C102_version_lost :
    Path.setExt ⟨0, some ['v', '1', '.', '2']⟩ rwr = Path.setExt ⟨0, some ['v', '1', '.', '3']⟩ rwr := by
  decide

/-- If a circuit can not be encoded, the file that was there is lost. -/
theorem C102_old_circuit_lost (cap : Nat) (fs : FS) (p : Path) (hc : fs.creatable p = true) :
    (saveCircuit cap fs p none).1 = false ∧ (saveCircuit cap fs p none).2.at_ p = some (.file []) := by
  simp [saveCircuit, hc, FS.set]

/-- Circuits that can be encoded are saved completely if there is room; if the file can not be
created, nothing changes. -/
theorem C102_circuit (cap : Nat) (fs : FS) (p : Path) (chunks : List Bytes) :
    (fs.creatable p = true → chunks.flatten.length ≤ fs.room →
      (saveCircuit cap fs p (some chunks)).1 = true ∧
      (saveCircuit cap fs p (some chunks)).2.at_ p = some (.file chunks.flatten)) ∧
    (fs.creatable p = false → ∀ e, saveCircuit cap fs p e = (false, fs)) ∧
    ∀ e r, r ≠ p → (saveCircuit cap fs p e).2.at_ r = fs.at_ r := by
  refine ⟨fun hc hr => ?_, fun hc e => by simp [saveCircuit, hc], fun e r hr => ?_⟩
  · simp [saveCircuit, FS.save, hc, C102_complete cap chunks fs.room hr, FS.set]
  · cases e <;> by_cases hc : fs.creatable p = true <;>
      simp [saveCircuit, FS.save, hc, FS.set, hr]

/-- `compile-rewriter` ends without a panic exactly if the input is a file with the extension `json`
and, if it can be read, the output is written. -/
theorem C102_tool_iff {R : Type} (cap : Nat) (co : Codec R) (sub : Path → Nat) (fs : FS)
    (input output : Path) :
    (compileTool cap co sub fs input output).1 ≠ .panic ↔
      ∃ bs, fs.at_ input = some (.file bs) ∧ input.ext = some json ∧
        ∀ r, co.compile bs = some r →
          let out := if fs.at_ output = some .dir then matcherRwr sub output else output
          fs.creatable (out.setExt rwr) = true ∧
            (buffered cap (co.encode r) fs.room).1 = true := by
  unfold compileTool
  cases hi : fs.at_ input with
  | none => simp
  | some e =>
    cases e with
    | dir => simp
    | file bs =>
      cases hx : input.ext with
      | none => simp
      | some x =>
        by_cases hj : x = json
        · subst hj
          cases hr : co.compile bs with
          | none => simp [hr]
          | some r =>
            simp only [if_true, saveRewriter, FS.save]
            generalize (if fs.at_ output = some Entry.dir then matcherRwr sub output else output) =
              out
            by_cases h2 : fs.creatable (out.setExt rwr) = true <;>
              by_cases h3 : (buffered cap (co.encode r) fs.room).1 = true <;>
              simp [h2, h3, hr]
        · simp [hj]

/-- With room for the file, what `compile-rewriter` writes is loaded by `badger-optimiser` as the
rewriter of the input, under the name that is printed; the input and all other files are kept. -/
theorem C102_tools {R : Type} (cap : Nat) (co : Codec R) (sub : Path → Nat) (fs : FS)
    (input output p : Path) (bs : Bytes) (r : R) (hi : fs.at_ input = some (.file bs))
    (hr : co.compile bs = some r) (hd : ∀ r, co.decode (co.encode r).flatten = some r)
    (hroom : (co.encode r).flatten.length ≤ fs.room)
    (hname : output.name ≠ some [] ∧ (output.name = none → fs.at_ output = some .dir))
    (h : (compileTool cap co sub fs input output).1 = .written p) :
    loadTool co (compileTool cap co sub fs input output).2 p = some r ∧ p ≠ input ∧
      (∀ q, q ≠ p → (compileTool cap co sub fs input output).2.at_ q = fs.at_ q) ∧
      (if fs.at_ output = some .dir then
        p = ⟨sub output, some ['m', 'a', 't', 'c', 'h', 'e', 'r', '.', 'r', 'w', 'r']⟩
      else p.dir = output.dir) := by
  generalize hc : compileTool cap co sub fs input output = c at h ⊢
  obtain ⟨c1, fs'⟩ := c
  simp only at h
  subst h
  unfold compileTool at hc
  rw [hi] at hc
  cases hx : input.ext with
  | none => simp [hx] at hc
  | some x =>
    by_cases hj : x = json
    · subst hj
      simp only [hx, if_true, hr] at hc
      generalize hout : (if fs.at_ output = some Entry.dir then matcherRwr sub output else output) =
        out at hc
      have hn : ∃ n, out.name = some n ∧ n ≠ [] := by
        by_cases ho : fs.at_ output = some .dir
        · rw [if_pos ho] at hout
          subst hout
          exact ⟨_, rfl, by simp⟩
        · rw [if_neg ho] at hout
          subst hout
          cases hn : output.name with
          | none => exact absurd (hname.2 hn) ho
          | some n => exact ⟨n, rfl, fun h => hname.1 (by rw [hn, h])⟩
      obtain ⟨n, hn, hne⟩ := hn
      rcases hs : saveRewriter cap fs out (co.encode r) with ⟨_ | q, fs''⟩
      · simp [hs] at hc
      · simp only [hs, Prod.mk.injEq, End.written.injEq] at hc
        obtain ⟨rfl, rfl⟩ := hc
        obtain ⟨h1, h2, h3, h4⟩ := C102_rewriter_path cap fs fs'' out q _ n hn hne hs
        rw [take_all hroom] at h3
        refine ⟨?_, ?_, h4, ?_⟩
        · simp only [loadTool, h2, if_neg (show rwr ≠ json by decide), if_true, h3]
          exact hd r
        · rintro rfl
          rw [hx] at h2
          exact absurd h2 (by decide)
        · split_ifs with ho
          · rw [if_pos ho] at hout
            subst hout
            simp only [saveRewriter] at hs
            have : q = (matcherRwr sub output).setExt rwr := by
              split_ifs at hs <;> simp_all
            rw [this]
            rfl
          · rw [if_neg ho] at hout
            rw [h1, hout]
    · simp [hx, hj] at hc

/-! ### Examples -/

/-- Three chunks through a buffer of four bytes: the last two bytes are written when the file is
closed. -/
example : buffered 4 [[1, 2], [3, 4, 5], [6, 7]] 7 = (true, [1, 2, 3, 4, 5, 6, 7]) ∧
    buffered 4 [[1, 2], [3, 4, 5], [6, 7]] 5 = (true, [1, 2, 3, 4, 5]) ∧
    buffered 4 [[1, 2], [3, 4, 5], [6, 7]] 4 = (false, [1, 2, 3, 4]) := by
  decide

/-- Names and their extensions. -/
example : ext ['a', '.', 'b', '.', 'c'] = some ['c'] ∧ stem ['a', '.', 'b', '.', 'c'] = ['a', '.', 'b'] ∧
    ext ['.', 'a'] = none ∧ stem ['.', 'a'] = ['.', 'a'] ∧ ext ['a', '.'] = some [] := by
  decide

/-- A file system with one input, one directory and room for 100 bytes. -/
def exampleFS : FS where
  at_ p := if p = ⟨0, some ['a', '.', 'j', 's', 'o', 'n']⟩ then some (.file [1, 2, 3])
    else if p = ⟨0, some ['o']⟩ then some .dir else none
  creatable _ := true
  room := 100

/-- Rewriters that are their bytes. -/
def exampleCodec : Codec Bytes := ⟨some, fun r => [r], some⟩

/-- The tools with an output file and with a directory, and an input without extension. -/
example :
    (compileTool 8192 exampleCodec (fun _ => 7) exampleFS ⟨0, some ['a', '.', 'j', 's', 'o', 'n']⟩
      ⟨0, some ['x', '.', 'y']⟩).1 = .written ⟨0, some ['x', '.', 'r', 'w', 'r']⟩ ∧
    (compileTool 8192 exampleCodec (fun _ => 7) exampleFS ⟨0, some ['a', '.', 'j', 's', 'o', 'n']⟩
      ⟨0, some ['o']⟩).1 =
        .written ⟨7, some ['m', 'a', 't', 'c', 'h', 'e', 'r', '.', 'r', 'w', 'r']⟩ ∧
    (compileTool 8192 exampleCodec (fun _ => 7) exampleFS ⟨0, some ['o']⟩ ⟨0, none⟩).1 = .panic := by
  decide

end Verif.SaveFile
