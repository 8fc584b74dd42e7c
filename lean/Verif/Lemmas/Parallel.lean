import Verif.Model.Parallel
import Verif.Lemmas.PQueue

/-! # Invariants of the multi-threaded optimiser (helper lemmas for `Verif.Props.Parallel`) -/

namespace Tket.Parallel

open Tket.PQueue

set_option linter.unusedSectionVars false

variable {S P : Type} [LinearOrder P]

/-- Circuits that can be obtained from the initial one by rewrites, with their tracked cost. -/
inductive Found (cfg : Cfg S P) : S → P → Prop where
  | init : Found cfg cfg.init.state cfg.init.cost
  | step {s : S} {c : P} {s' : S} {c' : P} {h : Option Nat} :
      Found cfg s c → (s', c', h) ∈ cfg.next s c → Found cfg s' c'

/-- The strict running minima of a history (latest first): those entries that are strictly cheaper
than everything before them. -/
def records : List (Entry S P) → List (S × P)
  | [] => []
  | w :: ws =>
    if ∀ x ∈ ws, w.cost < x.cost then (w.state, w.cost) :: records ws else records ws

theorem records_spec (ws : List (Entry S P)) :
    (records ws).Pairwise (fun a b => a.2 < b.2) ∧
    (∀ a ∈ records ws, ∃ w ∈ ws, (w.state, w.cost) = a) ∧
    (ws ≠ [] → ∃ a, (records ws).head? = some a ∧ ∀ w ∈ ws, a.2 ≤ w.cost) ∧
    (ws = [] → records ws = []) := by
  induction ws with
  | nil => simp [records]
  | cons w ws ih =>
    obtain ⟨h1, h2, h3, h4⟩ := ih
    unfold records
    by_cases h : ∀ x ∈ ws, w.cost < x.cost
    · rw [if_pos h]
      refine ⟨?_, ?_, ?_, by simp⟩
      · rw [List.pairwise_cons]
        refine ⟨?_, h1⟩
        intro a ha
        obtain ⟨x, hx, rfl⟩ := h2 a ha
        exact h x hx
      · intro a ha
        rcases List.mem_cons.1 ha with rfl | ha
        · exact ⟨w, List.mem_cons_self, rfl⟩
        · obtain ⟨x, hx, rfl⟩ := h2 a ha
          exact ⟨x, List.mem_cons_of_mem _ hx, rfl⟩
      · intro _
        refine ⟨_, rfl, ?_⟩
        intro x hx
        rcases List.mem_cons.1 hx with rfl | hx
        · exact le_refl _
        · exact le_of_lt (h x hx)
    · rw [if_neg h]
      have hne : ws ≠ [] := by rintro rfl; simp at h
      obtain ⟨a, ha, hmin⟩ := h3 hne
      refine ⟨h1, ?_, ?_, by simp⟩
      · intro a ha
        obtain ⟨x, hx, rfl⟩ := h2 a ha
        exact ⟨x, List.mem_cons_of_mem _ hx, rfl⟩
      · intro _
        refine ⟨a, ha, ?_⟩
        intro x hx
        rcases List.mem_cons.1 hx with rfl | hx
        · push Not at h
          obtain ⟨y, hy, hle⟩ := h
          exact le_trans (hmin y hy) hle
        · exact hmin x hx

/-- Invariant of the queue thread's local state. -/
structure QInv (cap : Nat) (q : QT S P) (received : List (Entry S P)) : Prop where
  pq : ∃ acc, Inv q.pq acc ∧ ∀ a ∈ acc, a ∈ received
  cap : q.pq.maxSize = cap
  loc : q.localMax = none
  shared : q.sharedMax = none
  min : q.minCost = (records received).head?.map Prod.snd

theorem updateMax_id {q : QT S P} (tb : TieBreak P) (h : q.localMax = none) :
    q.updateMax tb = some q := by
  unfold QT.updateMax
  split
  · rfl
  · rename_i hc
    have hne : q.pq.queue ≠ [] := by
      intro h0; simp [h0] at hc
    obtain ⟨e, he, _⟩ := tb.max_some q.pq.queue hne
    rw [he]
    simp [h]

theorem enqueueOne_spec {cap : Nat} {q : QT S P} {rec : List (Entry S P)} (h : QInv cap q rec)
    (tb : TieBreak P) (w : Entry S P) :
    ∃ q' a, q.enqueueOne tb w = some (q', a) ∧ QInv cap q' (w :: rec) ∧
      records (w :: rec) = a.toList ++ records rec := by
  obtain ⟨acc, hinv, hacc⟩ := h.pq
  obtain ⟨r1, r2, r3, r4⟩ := records_spec rec
  -- is it a record?
  have hnew : q.isNew w.cost = decide (∀ x ∈ rec, w.cost < x.cost) := by
    unfold QT.isNew
    rw [h.min]
    by_cases hre : rec = []
    · subst hre; simp [records]
    · obtain ⟨a, ha, hmin⟩ := r3 hre
      rw [ha]
      simp only [Option.map_some]
      have hamem : a ∈ records rec := List.mem_of_mem_head? ha
      obtain ⟨x, hx, hxa⟩ := r2 a hamem
      have hac : a.2 = x.cost := by rw [← hxa]
      by_cases hlt : w.cost < a.2
      · have : ∀ y ∈ rec, w.cost < y.cost := fun y hy => lt_of_lt_of_le hlt (hmin y hy)
        simp only [hlt, decide_true]
        exact (decide_eq_true this).symm
      · have : ¬ ∀ y ∈ rec, w.cost < y.cost := fun hall => hlt (by rw [hac]; exact hall x hx)
        simp only [hlt, decide_false]
        exact (decide_eq_false this).symm
  have hpush : ∃ pq' r, q.pq.pushUnchecked tb w.state w.hash w.cost = some (pq', r) ∧
      pq'.maxSize = cap ∧ ∃ acc', Inv pq' acc' ∧ ∀ a ∈ acc', a ∈ w :: rec := by
    rcases pushUnchecked_spec hinv tb w.state w.hash w.cost with ⟨hp, _⟩ | ⟨q', hp, hi', hms, _⟩
    · exact ⟨_, _, hp, h.cap, acc, hinv, fun a ha => List.mem_cons_of_mem _ (hacc a ha)⟩
    · refine ⟨_, _, hp, by rw [hms]; exact h.cap, _, hi', ?_⟩
      intro a ha
      rcases List.mem_cons.1 ha with rfl | ha
      · exact List.mem_cons_self
      · exact List.mem_cons_of_mem _ (hacc a ha)
  obtain ⟨pq', r, hp, hms, hacc'⟩ := hpush
  unfold QT.enqueueOne
  simp only [hnew]
  by_cases hall : ∀ x ∈ rec, w.cost < x.cost
  · have hd : decide (∀ x ∈ rec, w.cost < x.cost) = true := decide_eq_true hall
    have hrec : records (w :: rec) = (w.state, w.cost) :: records rec := by
      rw [records, if_pos hall]
    simp only [hd, if_true, hp]
    refine ⟨_, _, rfl, ⟨hacc', hms, h.loc, h.shared, ?_⟩, ?_⟩
    · simp [hrec]
    · simp [hrec]
  · have hd : decide (∀ x ∈ rec, w.cost < x.cost) = false := decide_eq_false hall
    have hrec : records (w :: rec) = records rec := by rw [records, if_neg hall]
    simp only [hd, Bool.false_eq_true, if_false, hp]
    refine ⟨_, _, rfl, ⟨hacc', hms, h.loc, h.shared, ?_⟩, ?_⟩
    · rw [hrec]; exact h.min
    · simp [hrec]

theorem enqueueAll_spec {cap : Nat} (ws : List (Entry S P)) :
    ∀ {q : QT S P} {rec : List (Entry S P)} (_ : QInv cap q rec) (tbs : Nat → TieBreak P),
    ∃ q' as, q.enqueueAll tbs ws = some (q', as) ∧ QInv cap q' (ws.reverse ++ rec) ∧
      records (ws.reverse ++ rec) = as.reverse ++ records rec ∧ as.length ≤ ws.length := by
  induction ws with
  | nil => intro q rec h tbs; exact ⟨q, [], rfl, by simpa using h, by simp, by simp⟩
  | cons w ws ih =>
    intro q rec h tbs
    obtain ⟨q1, a, h1, h2, h3⟩ := enqueueOne_spec h (tbs 0) w
    obtain ⟨q2, as, h4, h5, h6, h7⟩ := ih h2 (fun n => tbs (n + 1))
    refine ⟨q2, a.toList ++ as, ?_, ?_, ?_, ?_⟩
    · simp [QT.enqueueAll, h1, h4]
    · simpa using h5
    · simp only [List.reverse_cons, List.append_assoc, List.singleton_append, List.reverse_append]
      rw [h6, h3]
      cases a <;> simp
    · simp only [List.length_append, List.length_cons]
      have : a.toList.length ≤ 1 := by cases a <;> simp
      omega

theorem enqueue_spec {cap : Nat} {q : QT S P} {rec : List (Entry S P)} (h : QInv cap q rec)
    (tbs : Nat → TieBreak P) (tb : TieBreak P) (ws : List (Entry S P)) :
    ∃ q' as, q.enqueue tbs tb ws = some (q', as) ∧ QInv cap q' (ws.reverse ++ rec) ∧
      records (ws.reverse ++ rec) = as.reverse ++ records rec ∧ as.length ≤ ws.length := by
  obtain ⟨q1, as, h1, h2, h3, h4⟩ := enqueueAll_spec ws h tbs
  refine ⟨q1, as, ?_, h2, h3, h4⟩
  simp [QT.enqueue, h1, updateMax_id tb h2.loc]

/-- The global invariant. -/
structure Glob (cfg : Cfg S P) (s : Sys S P) : Prop where
  q : QInv cfg.cap s.q s.received
  ann : s.announced = records s.received
  fRec : ∀ w ∈ s.received, Found cfg w.state w.cost
  fPush : ∀ m ∈ s.push, ∀ w ∈ m, Found cfg w.state w.cost
  fWork : ∀ w, .busy w ∈ s.workers → Found cfg w.state w.cost
  fBest : Found cfg s.best.1 s.best.2
  lBest : s.best.2 ≤ cfg.init.cost
  lLog : ∀ a c, .newBest a c ∈ s.log → (a, c) ∈ s.announced
  bAnn : ∀ a ∈ s.announced, s.best.2 ≤ a.2 ∨ Log.newBest a.1 a.2 ∈ s.log
  nWork : s.workers.length = cfg.nThreads
  ph1 : s.main = .joining ∨ s.main = .finished → s.running = false ∧ s.log = []
  ph2 : s.main = .finished → ∀ w ∈ s.workers, w = .done
  ph3 : s.main ≠ .running → s.running = false ∨ [] ∈ s.push
  ph4 : Worker.done ∈ s.workers → s.running = false

theorem found_out {cfg : Cfg S P} {w : Entry S P} {mx : Option P}
    (h : Found cfg w.state w.cost) : ∀ x ∈ workerOut cfg.next mx w, Found cfg x.state x.cost := by
  intro x hx
  unfold workerOut at hx
  rw [List.mem_filterMap] at hx
  obtain ⟨⟨s', c', h'⟩, hr, hx⟩ := hx
  simp only at hx
  have key : (h'.map (fun h => (⟨s', c', h⟩ : Entry S P))) = some x →
      Found cfg x.state x.cost := by
    intro hh
    cases h' with
    | none => simp at hh
    | some k =>
      simp only [Option.map_some, Option.some.injEq] at hh
      subst hh
      exact Found.step h hr
  split at hx
  · split at hx
    · simp at hx
    · exact key hx
  · split at hx
    · simp at hx
    · exact key hx

theorem mem_set_imp {α : Type} {l : List α} {i : Nat} {a b : α} (h : b ∈ l.set i a) :
    b = a ∨ b ∈ l := by
  rcases List.mem_or_eq_of_mem_set h with h | h
  · exact Or.inr h
  · exact Or.inl h

theorem sendPush_fields (s : Sys S P) (m : List (Entry S P)) :
    (s.sendPush m).q = s.q ∧ (s.sendPush m).running = s.running ∧ (s.sendPush m).log = s.log ∧
    (s.sendPush m).workers = s.workers ∧ (s.sendPush m).main = s.main ∧
    (s.sendPush m).best = s.best ∧ (s.sendPush m).received = s.received ∧
    (s.sendPush m).announced = s.announced := by
  unfold Sys.sendPush; split <;> simp

theorem mem_sendPush {s : Sys S P} {m x : List (Entry S P)} (h : x ∈ (s.sendPush m).push) :
    x = m ∨ x ∈ s.push := by
  unfold Sys.sendPush at h
  split at h
  · simp only [List.mem_append, List.mem_singleton] at h; tauto
  · exact Or.inr h

theorem sendPush_close (s : Sys S P) :
    (s.sendPush []).running = false ∨ [] ∈ (s.sendPush []).push := by
  unfold Sys.sendPush
  split
  · right; simp
  · rename_i h; left; simpa using h

theorem mem_sendPush_of_mem {s : Sys S P} {m x : List (Entry S P)} (h : x ∈ s.push) :
    x ∈ (s.sendPush m).push := by
  unfold Sys.sendPush
  split
  · exact List.mem_append_left _ h
  · exact h

theorem glob_init (cfg : Cfg S P) : Glob cfg (Sys.init cfg) where
  q := ⟨⟨[], inv_new _ _, by simp⟩, rfl, rfl, rfl, rfl⟩
  ann := rfl
  fRec := by simp [Sys.init]
  fPush := by
    intro m hm w hw
    simp only [Sys.init, List.mem_singleton] at hm
    subst hm
    simp only [List.mem_singleton] at hw
    subst hw
    exact Found.init
  fWork := by
    intro w hw
    simp [Sys.init] at hw
  fBest := Found.init
  lBest := le_refl _
  lLog := by simp [Sys.init]
  bAnn := by simp [Sys.init]
  nWork := by simp [Sys.init]
  ph1 := by simp [Sys.init]
  ph2 := by simp [Sys.init]
  ph3 := by simp [Sys.init]
  ph4 := by simp [Sys.init]

theorem better_le (b : S × P) (s : S) (c : P) : (better b s c).2 ≤ b.2 ∧ (better b s c).2 ≤ c := by
  unfold better
  split
  · rename_i h; exact ⟨le_of_lt h, le_refl _⟩
  · rename_i h; exact ⟨le_refl _, not_lt.1 h⟩

theorem glob_step {cfg : Cfg S P} {s s' : Sys S P} (h : Glob cfg s) (hs : Step cfg s s') :
    Glob cfg s' := by
  cases hs with
  | pqRecv msg rest tbs tb q' as hr hp hm he =>
    obtain ⟨q1, as1, h1, h2, h3, _⟩ := enqueue_spec h.q tbs tb msg
    rw [he] at h1
    simp only [Option.some.injEq, Prod.mk.injEq] at h1
    obtain ⟨rfl, rfl⟩ := h1
    have hmsg : ∀ w ∈ msg, Found cfg w.state w.cost := h.fPush msg (by rw [hp]; simp)
    have hann : ∀ a, a ∈ as.reverse ++ s.announced → a ∈ as ∨ a ∈ s.announced := by
      intro a ha; simpa using ha
    refine ⟨h2, ?_, ?_, ?_, h.fWork, h.fBest, h.lBest, ?_, ?_, h.nWork, ?_, h.ph2, ?_, h.ph4⟩
    · simp only [h3, h.ann]
    · intro w hw
      simp only [List.mem_append, List.mem_reverse] at hw
      rcases hw with hw | hw
      · exact hmsg w hw
      · exact h.fRec w hw
    · intro m hmem; exact h.fPush m (by rw [hp]; exact List.mem_cons_of_mem _ hmem)
    · intro a c ha
      simp only [List.mem_append, List.mem_map, List.mem_singleton, reduceCtorEq, or_false] at ha
      simp only [List.mem_append, List.mem_reverse]
      rcases ha with ha | ⟨b, hb, hbe⟩
      · exact Or.inr (h.lLog a c ha)
      · cases hbe; exact Or.inl hb
    · intro a ha
      simp only [List.mem_append, List.mem_map, List.mem_singleton, reduceCtorEq, or_false]
      rcases hann a ha with ha | ha
      · exact Or.inr (Or.inr ⟨a, ha, rfl⟩)
      · rcases h.bAnn a ha with h' | h'
        · exact Or.inl h'
        · exact Or.inr (Or.inl h')
    · intro hph; have := h.ph1 hph; rw [hr] at this; simp at this
    · intro hph
      rcases h.ph3 hph with h' | h'
      · exact Or.inl h'
      · right
        rw [hp] at h'
        rcases List.mem_cons.1 h' with h' | h'
        · exact absurd h'.symm hm
        · exact h'
  | pqClose rest hr hp =>
    refine ⟨h.q, h.ann, h.fRec, ?_, h.fWork, h.fBest, h.lBest, ?_, ?_, h.nWork, ?_, h.ph2, ?_, ?_⟩
    · intro m hmem; exact h.fPush m (by rw [hp]; exact List.mem_cons_of_mem _ hmem)
    · intro a c ha
      simp only [List.mem_append, List.mem_singleton, reduceCtorEq, or_false] at ha
      exact h.lLog a c ha
    · intro a ha
      simp only [List.mem_append, List.mem_singleton, reduceCtorEq, or_false]
      exact h.bAnn a ha
    · intro hph; have := h.ph1 hph; rw [hr] at this; simp at this
    · intro _; exact Or.inl rfl
    · intro _; rfl
  | pqSend i tb tb' w q' hr hi hpop hu =>
    obtain ⟨acc, hinv, hacc⟩ := h.q.pq
    have hne : s.q.pq.queue ≠ [] := by
      intro h0; rw [pop_nil tb h0] at hpop; simp at hpop
    obtain ⟨e, st, _, _, hmem, _, hpe, _, hms, _, _, hinv'⟩ := pop_spec hinv tb hne
    rw [hpe] at hpop
    simp only [Option.some.injEq] at hpop
    subst hpop
    rw [updateMax_id _ (by exact h.q.loc)] at hu
    simp only [Option.some.injEq] at hu
    subst hu
    refine ⟨⟨⟨acc, hinv', hacc⟩, by simpa [hms] using h.q.cap, h.q.loc, h.q.shared, h.q.min⟩,
      h.ann, h.fRec, h.fPush, ?_, h.fBest, h.lBest, h.lLog, h.bAnn, ?_, h.ph1, ?_, h.ph3, ?_⟩
    · intro x hx
      rcases mem_set_imp hx with hx | hx
      · simp only [Worker.busy.injEq] at hx; subst hx
        exact h.fRec _ (hacc _ hmem)
      · exact h.fWork x hx
    · simpa using h.nWork
    · intro hph
      have := h.ph1 (Or.inr hph); rw [hr] at this; simp at this
    · intro hd
      rcases mem_set_imp hd with hd | hd
      · simp at hd
      · exact h.ph4 hd
  | workerSend i w hi hne =>
    obtain ⟨e1, e2, e3, e4, e5, e6, e7, e8⟩ := sendPush_fields s (workerOut cfg.next s.q.sharedMax w)
    have hw : Found cfg w.state w.cost := h.fWork w (List.mem_of_getElem? hi)
    refine ⟨by simpa [e1, e7] using h.q, by simpa [e7, e8] using h.ann, by simpa [e7] using h.fRec,
      ?_, ?_, by simpa [e6] using h.fBest, by simpa [e6] using h.lBest,
      by simpa [e3, e8] using h.lLog, by simpa [e3, e6, e8] using h.bAnn, ?_,
      by simpa [e2, e3, e5] using h.ph1, ?_, ?_, ?_⟩
    · intro m hm x hx
      rcases mem_sendPush hm with rfl | hm
      · exact found_out hw x hx
      · exact h.fPush m hm x hx
    · intro x hx
      rcases mem_set_imp hx with hx | hx
      · split at hx <;> simp at hx
      · exact h.fWork x hx
    · simpa using h.nWork
    · intro hph
      have hph' : s.main = .finished := by simpa [e5] using hph
      have := h.ph2 hph' _ (List.mem_of_getElem? hi)
      simp at this
    · intro hph
      simp only [e2, e5] at hph ⊢
      rcases h.ph3 hph with h' | h'
      · exact Or.inl h'
      · exact Or.inr (mem_sendPush_of_mem h')
    · intro hd
      simp only [e2]
      rcases mem_set_imp hd with hd | hd
      · split at hd
        · simp at hd
        · rename_i hr; simpa using hr
      · exact h.ph4 hd
  | workerNone i w hi he =>
    refine ⟨h.q, h.ann, h.fRec, h.fPush, ?_, h.fBest, h.lBest, h.lLog, h.bAnn, ?_, h.ph1, ?_, h.ph3,
      ?_⟩
    · intro x hx
      rcases mem_set_imp hx with hx | hx
      · simp at hx
      · exact h.fWork x hx
    · simpa using h.nWork
    · intro hph
      have := h.ph2 hph _ (List.mem_of_getElem? hi)
      simp at this
    · intro hd
      rcases mem_set_imp hd with hd | hd
      · simp at hd
      · exact h.ph4 hd
  | workerStop i hi hr =>
    refine ⟨h.q, h.ann, h.fRec, h.fPush, ?_, h.fBest, h.lBest, h.lLog, h.bAnn, ?_, h.ph1, ?_, h.ph3,
      ?_⟩
    · intro x hx
      rcases mem_set_imp hx with hx | hx
      · simp at hx
      · exact h.fWork x hx
    · simpa using h.nWork
    · intro hph
      have := h.ph2 hph _ (List.mem_of_getElem? hi)
      simp at this
    · intro _; exact hr
  | mainBest st c rest hm hl =>
    have hann : (st, c) ∈ s.announced := h.lLog st c (by rw [hl]; simp)
    have hfound : Found cfg st c := by
      rw [h.ann] at hann
      obtain ⟨w, hw, hwe⟩ := (records_spec s.received).2.1 _ hann
      simp only [Prod.mk.injEq] at hwe
      have := h.fRec w hw
      rw [hwe.1, hwe.2] at this
      exact this
    obtain ⟨b1, b2⟩ := better_le s.best st c
    refine ⟨h.q, h.ann, h.fRec, h.fPush, h.fWork, ?_, le_trans b1 h.lBest, ?_, ?_, h.nWork, ?_, ?_,
      h.ph3, h.ph4⟩
    · simp only [better]; split
      · exact hfound
      · exact h.fBest
    · intro a d ha; exact h.lLog a d (by rw [hl]; exact List.mem_cons_of_mem _ ha)
    · intro a ha
      rcases h.bAnn a ha with h' | h'
      · exact Or.inl (le_trans b1 h')
      · rw [hl] at h'
        rcases List.mem_cons.1 h' with h' | h'
        · simp only [Log.newBest.injEq] at h'
          left; rw [h'.2]; exact b2
        · exact Or.inr h'
    · intro hph
      rcases hm with hm | hm <;> rcases hph with hph | hph <;> simp [hm] at hph
    · intro hph
      rcases hm with hm | hm <;> simp [hm] at hph
  | mainCount n rest hl hm =>
    have hnot : ¬ (s.main = .joining ∨ s.main = .finished) := by
      intro hph
      have := (h.ph1 hph).2
      rw [hl] at this; simp at this
    refine ⟨h.q, h.ann, h.fRec, h.fPush, h.fWork, h.fBest, h.lBest, ?_, ?_, h.nWork, ?_, h.ph2,
      h.ph3, h.ph4⟩
    · intro a d ha; exact h.lLog a d (by rw [hl]; exact List.mem_cons_of_mem _ ha)
    · intro a ha
      rcases h.bAnn a ha with h' | h'
      · exact Or.inl h'
      · rw [hl] at h'
        rcases List.mem_cons.1 h' with h' | h'
        · simp at h'
        · exact Or.inr h'
    · intro hph; exact absurd hph hnot
  | mainLimit n rest m hl hm hc hn =>
    obtain ⟨e1, e2, e3, e4, e5, e6, e7, e8⟩ := sendPush_fields s []
    refine ⟨by simpa [e1, e7] using h.q, by simpa [e7, e8] using h.ann, by simpa [e7] using h.fRec,
      ?_, by simpa [e4] using h.fWork, by simpa [e6] using h.fBest, by simpa [e6] using h.lBest,
      ?_, ?_, by simpa [e4] using h.nWork, by simp, by simp, ?_, by simpa [e2, e4] using h.ph4⟩
    · intro m hm x hx
      rcases mem_sendPush hm with rfl | hm
      · simp at hx
      · exact h.fPush m hm x hx
    · intro a d ha
      simp only [e8]
      exact h.lLog a d (by rw [hl]; exact List.mem_cons_of_mem _ ha)
    · intro a ha
      simp only [e6, e8] at ha ⊢
      rcases h.bAnn a ha with h' | h'
      · exact Or.inl h'
      · rw [hl] at h'
        rcases List.mem_cons.1 h' with h' | h'
        · simp at h'
        · exact Or.inr h'
    · intro _; exact sendPush_close s
  | mainLost hm hl hr =>
    exact ⟨h.q, h.ann, h.fRec, h.fPush, h.fWork, h.fBest, h.lBest, h.lLog, h.bAnn, h.nWork,
      by simp, by simp, fun _ => Or.inl hr, h.ph4⟩
  | mainTimeout hm ht =>
    obtain ⟨e1, e2, e3, e4, e5, e6, e7, e8⟩ := sendPush_fields s []
    refine ⟨by simpa [e1, e7] using h.q, by simpa [e7, e8] using h.ann, by simpa [e7] using h.fRec,
      ?_, by simpa [e4] using h.fWork, by simpa [e6] using h.fBest, by simpa [e6] using h.lBest,
      by simpa [e3, e8] using h.lLog, by simpa [e3, e6, e8] using h.bAnn,
      by simpa [e4] using h.nWork, by simp, by simp, ?_, by simpa [e2, e4] using h.ph4⟩
    · intro m hm x hx
      rcases mem_sendPush hm with rfl | hm
      · simp at hx
      · exact h.fPush m hm x hx
    · intro _; exact sendPush_close s
  | mainDrained hm hl hr =>
    exact ⟨h.q, h.ann, h.fRec, h.fPush, h.fWork, h.fBest, h.lBest, h.lLog, h.bAnn, h.nWork,
      fun _ => ⟨hr, hl⟩, by simp, fun _ => Or.inl hr, h.ph4⟩
  | mainJoin hm hw =>
    exact ⟨h.q, h.ann, h.fRec, h.fPush, h.fWork, h.fBest, h.lBest, h.lLog, h.bAnn, h.nWork,
      fun _ => h.ph1 (Or.inl hm), fun _ => hw, fun _ => Or.inl (h.ph1 (Or.inl hm)).1, h.ph4⟩

theorem reachable_glob {cfg : Cfg S P} {s : Sys S P} (h : Reachable cfg s) : Glob cfg s := by
  induction h with
  | init => exact glob_init cfg
  | step _ hs ih => exact glob_step ih hs

/-! ## Termination measure after closing -/

/-- Work the queue thread still has to do for one message. -/
def msgCost (cap : Nat) (m : List (Entry S P)) : Nat := 2 * (cap + 1) + m.length + 2

/-- Messages up to and including the first empty one. -/
def chanCost (cap : Nat) : List (List (Entry S P)) → Nat
  | [] => 0
  | [] :: _ => msgCost cap ([] : List (Entry S P))
  | (w :: ws) :: rest => msgCost cap (w :: ws) + chanCost cap rest

def workerCost : Worker S P → Nat
  | .done => 0
  | .idle => 1
  | .busy _ => 2

def mainCost : Main → Nat
  | .running => 3
  | .draining => 2
  | .joining => 1
  | .finished => 0

def measure (cap : Nat) (s : Sys S P) : Nat :=
  (if s.running then chanCost cap s.push + 2 * s.q.pq.queue.length else 0) +
    (s.workers.map workerCost).sum + s.log.length + mainCost s.main

theorem chanCost_append {cap : Nat} {l : List (List (Entry S P))} (h : [] ∈ l)
    (m : List (Entry S P)) : chanCost cap (l ++ [m]) = chanCost cap l := by
  induction l with
  | nil => simp at h
  | cons a l ih =>
    cases a with
    | nil => simp [chanCost]
    | cons w ws =>
      simp only [List.cons_append, chanCost]
      rw [ih (by simpa using h)]

theorem sum_set {l : List (Worker S P)} {i : Nat} {a b : Worker S P} (h : l[i]? = some a) :
    ((l.set i b).map workerCost).sum + workerCost a = (l.map workerCost).sum + workerCost b := by
  induction l generalizing i with
  | nil => simp at h
  | cons x l ih =>
    cases i with
    | zero =>
      simp only [List.getElem?_cons_zero, Option.some.injEq] at h
      subst h
      simp only [List.set_cons_zero, List.map_cons, List.sum_cons]; omega
    | succ i =>
      simp only [List.getElem?_cons_succ] at h
      have := ih h
      simp only [List.set_cons_succ, List.map_cons, List.sum_cons]; omega

theorem measure_step {cfg : Cfg S P} {s s' : Sys S P} (h : Glob cfg s) (hs : Step cfg s s')
    (hm : s.main ≠ .running) : s'.main ≠ .running ∧ measure cfg.cap s' < measure cfg.cap s := by
  have hcl := h.ph3 hm
  have hlen' : ∀ q : QT S P, ∀ r, QInv cfg.cap q r → q.pq.queue.length ≤ cfg.cap := by
    intro q r hq
    obtain ⟨acc, hi, _⟩ := hq.pq
    have := hi.qlen
    rw [hq.cap] at this
    exact this
  cases hs with
  | pqRecv msg rest tbs tb q' as hr hp hmne he =>
    refine ⟨hm, ?_⟩
    obtain ⟨q1, as1, h1, h2, h3, h4⟩ := enqueue_spec h.q tbs tb msg
    rw [he] at h1
    simp only [Option.some.injEq, Prod.mk.injEq] at h1
    obtain ⟨rfl, rfl⟩ := h1
    have hq := hlen' _ _ h2
    unfold measure
    simp only [hr, if_true, hp]
    cases msg with
    | nil => exact absurd rfl hmne
    | cons w ws =>
      simp only [chanCost, msgCost, List.length_append, List.length_map, List.length_nil,
        List.length_cons] at h4 ⊢
      omega
  | pqClose rest hr hp =>
    refine ⟨hm, ?_⟩
    unfold measure
    simp only [hr, if_true, hp, chanCost, msgCost, Bool.false_eq_true, if_false,
      List.length_append, List.length_singleton]
    omega
  | pqSend i tb tb' w q' hr hi hpop hu =>
    refine ⟨hm, ?_⟩
    obtain ⟨acc, hinv, hacc⟩ := h.q.pq
    have hne : s.q.pq.queue ≠ [] := by
      intro h0; rw [pop_nil tb h0] at hpop; simp at hpop
    obtain ⟨e, st, hem, _, hmem, _, hpe, hqe, _⟩ := pop_spec hinv tb hne
    rw [updateMax_id _ (by exact h.q.loc)] at hu
    simp only [Option.some.injEq] at hu
    subst hu
    have h1 := dropKey_length_of_mem hinv.qnd hem
    have h2 := sum_set (b := .busy w) hi
    unfold measure
    simp only [hr, if_true, hqe]
    simp only [workerCost] at h2
    omega
  | workerSend i w hi hne =>
    obtain ⟨e1, e2, e3, e4, e5, e6, e7, e8⟩ := sendPush_fields s (workerOut cfg.next s.q.sharedMax w)
    refine ⟨by simpa [e5] using hm, ?_⟩
    unfold measure
    simp only [e1, e2, e3, e5]
    by_cases hr : s.running = true
    · have hc : [] ∈ s.push := by simpa [hr] using hcl
      have h2 := sum_set (b := .idle) hi
      simp only [Sys.sendPush, hr, if_true, chanCost_append hc]
      simp only [workerCost] at h2
      omega
    · have h2 := sum_set (b := .done) hi
      simp only [Sys.sendPush, hr]
      simp only [workerCost] at h2
      simp only [Bool.false_eq_true, if_false]
      omega
  | workerNone i w hi he =>
    refine ⟨hm, ?_⟩
    have h2 := sum_set (b := .idle) hi
    unfold measure
    simp only [workerCost] at h2 ⊢
    omega
  | workerStop i hi hr =>
    refine ⟨hm, ?_⟩
    have h2 := sum_set (b := .done) hi
    unfold measure
    simp only [workerCost] at h2 ⊢
    omega
  | mainBest st c rest hmm hl =>
    refine ⟨hm, ?_⟩
    unfold measure
    simp only [hl, List.length_cons]
    omega
  | mainCount n rest hl hmm =>
    refine ⟨hm, ?_⟩
    unfold measure
    simp only [hl, List.length_cons]
    omega
  | mainLimit n rest m hl hmm hc hn => exact absurd hmm hm
  | mainLost hmm hl hr => exact absurd hmm hm
  | mainTimeout hmm ht => exact absurd hmm hm
  | mainDrained hmm hl hr =>
    refine ⟨by simp, ?_⟩
    unfold measure
    simp only [hmm, mainCost]
    omega
  | mainJoin hmm hw =>
    refine ⟨by simp, ?_⟩
    unfold measure
    simp only [hmm, mainCost]
    omega

/-- After closing, some thread can always make a step until main has returned. -/
theorem progress {cfg : Cfg S P} {s : Sys S P} (h : Glob cfg s) (tb : TieBreak P)
    (hm : s.main ≠ .running) (hf : s.main ≠ .finished) : ∃ s', Step cfg s s' := by
  by_cases hr : s.running = true
  · have hc : [] ∈ s.push := by simpa [hr] using h.ph3 hm
    rcases hp : s.push with _ | ⟨m, rest⟩
    · rw [hp] at hc; simp at hc
    · by_cases hmn : m = []
      · subst hmn; exact ⟨_, Step.pqClose s rest hr hp⟩
      · obtain ⟨q', as, he, _⟩ := enqueue_spec h.q (fun _ => tb) tb m
        exact ⟨_, Step.pqRecv s m rest _ _ q' as hr hp hmn he⟩
  · have hr' : s.running = false := by simpa using hr
    by_cases hw : ∀ w ∈ s.workers, w = .done
    · cases hmm : s.main with
      | running => exact absurd hmm hm
      | finished => exact absurd hmm hf
      | joining => exact ⟨_, Step.mainJoin s hmm hw⟩
      | draining =>
        cases hl : s.log with
        | nil => exact ⟨_, Step.mainDrained s hmm hl hr'⟩
        | cons m rest =>
          cases m with
          | newBest a c => exact ⟨_, Step.mainBest s a c rest (Or.inr hmm) hl⟩
          | stateCount n => exact ⟨_, Step.mainCount s n rest hl (Or.inl hmm)⟩
    · push Not at hw
      obtain ⟨w, hw, hnd⟩ := hw
      obtain ⟨i, hi⟩ := List.getElem?_of_mem hw
      cases w with
      | done => exact absurd rfl hnd
      | idle => exact ⟨_, Step.workerStop s i hi hr'⟩
      | busy w =>
        by_cases he : workerOut cfg.next s.q.sharedMax w = []
        · exact ⟨_, Step.workerNone s i w hi he⟩
        · exact ⟨_, Step.workerSend s i w hi he⟩

end Tket.Parallel
