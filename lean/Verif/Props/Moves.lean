import Verif.Props.Press
import Verif.Spec.Pool
/-! # Property C35: successive movements -/
namespace Verif.Props
open Verif Verif.Spec

/-- A motor buffer at rest, at a time that is not negative. -/
structure AtRest (name : String) (p : Pool) : Prop where
  time : 0 ≤ p.now
  first : p.next = 0
  idle : p.waiting = []
  free : ∃ b, p.w.buf name = some b ∧ b.lastKey.2 = 0

/-- C35 in full. -/
def C35_full : Prop := ∀ (C : Cfg) (name : String) (p0 p : Pool) (tr : List Happening),
  AtRest name p0 → PoolRun C name p0 tr p → NoOverlap tr

/-! ## The movements under way -/

/-- A movement: its number, key, start, and the number of events that have come about. -/
structure Mv where
  n : ℕ
  key : String
  s : ℚ
  i : ℕ

def Mv.t1 (m : Mv) : ℚ := m.s + (timePresses m.key).2.1
def Mv.t2 (m : Mv) : ℚ := m.s + (timePresses m.key).2.1 + (timePresses m.key).2.2.1
def Mv.fin (m : Mv) : ℚ := m.s + (timePresses m.key).2.1 + (timePresses m.key).2.2.1 + (timePresses m.key).2.2.2

/-- The event it waits for. -/
def mvEv (name : String) (m : Mv) : Verif.Ev :=
  match m.i with
  | 0 => ⟨round4 m.t1, name, .initiated⟩
  | 1 => ⟨round4 m.t2, name, .unknown⟩
  | 2 => ⟨round4 m.t2, name, .pressed m.key⟩
  | _ => ⟨round4 m.fin, name, .finished⟩

def mvK3 (name : String) : Mach → Out Mach YV Unit := fun w4 =>
  .ret (w4.upd name (fun b => { b with state := .free, execution := .free, lastKey := (b.lastKey.1, 0) })) ()
def mvK2 (name : String) (m : Mv) : Mach → Out Mach YV Unit := fun w3 =>
  .yield w3 (.ev ⟨round4 m.fin, name, .finished⟩) (mvK3 name)
def mvK1 (name : String) (m : Mv) : Mach → Out Mach YV Unit := fun w2 =>
  .yield { w2 with interaction := addStr w2.interaction m.key } (.ev ⟨round4 m.t2, name, .pressed m.key⟩) (mvK2 name m)
def mvK0 (name : String) (m : Mv) : Mach → Out Mach YV Unit := fun w1 =>
  .yield (w1.upd name (fun b => { b with processor := .free })) (.ev ⟨round4 m.t2, name, .unknown⟩) (mvK1 name m)

/-- How it goes on. -/
def mvK (name : String) (m : Mv) : Mach → Out Mach YV Unit :=
  match m.i with
  | 0 => mvK0 name m
  | 1 => mvK1 name m
  | 2 => mvK2 name m
  | _ => mvK3 name

/-- The process of a movement. -/
def IsMv (name : String) (m : Mv) (x : Waiting) : Prop := x = ⟨m.n, mvEv name m, mvK name m⟩

theorem press_bounds (key : String) : (timePresses key).2.1 = 1 / 20 ∧ 0 ≤ (timePresses key).2.2.1 ∧ 0 ≤ (timePresses key).2.2.2 := by
  obtain ⟨s, _, ht⟩ := style_exists key
  rw [ht]; cases s <;> norm_num [StyleTimes]

theorem mv_times (m : Mv) : m.s < m.t1 ∧ m.t1 ≤ m.t2 ∧ m.t2 ≤ m.fin ∧ m.t1 = m.s + 1 / 20 := by
  obtain ⟨h1, h2, h3⟩ := press_bounds m.key
  unfold Mv.t1 Mv.t2 Mv.fin
  rw [h1]
  refine ⟨by linarith, by linarith, by linarith, rfl⟩

theorem mvEv_bounds (name : String) (m : Mv) : round4 m.t1 ≤ (mvEv name m).time ∧ (mvEv name m).time ≤ round4 m.fin := by
  obtain ⟨_, h2, h3, _⟩ := mv_times m
  unfold mvEv
  split
  · exact ⟨le_refl _, round4_mono (h2.trans h3)⟩
  · exact ⟨round4_mono h2, round4_mono h3⟩
  · exact ⟨round4_mono h2, round4_mono h3⟩
  · exact ⟨round4_mono (h2.trans h3), le_refl _⟩

/-- An earlier movement waits for an earlier time. -/
theorem mv_before (name : String) {a b : Mv} (h : a.fin ≤ b.s) : (mvEv name a).time < (mvEv name b).time := by
  have h1 := (mvEv_bounds name a).2
  have h2 := (mvEv_bounds name b).1
  have h3 := round4_mono h
  have h4 : round4 b.s < round4 b.t1 := by
    have e := (mv_times b).2.2.2
    have c1 := round4_close b.s
    have c2 := round4_close b.t1
    rw [abs_le] at c1 c2
    linarith [c1.1, c1.2, c2.1, c2.2]
  linarith

theorem hasFinished_append {tr : List Happening} {h : Happening} {m : ℕ} :
    HasFinished (tr ++ [h]) m ↔ HasFinished tr m ∨ ∃ e, h = .came m e ∧ e.act = .finished := by
  unfold HasFinished
  constructor
  · rintro ⟨e, he, ha⟩
    rw [List.mem_append, List.mem_singleton] at he
    rcases he with he | he
    · exact .inl ⟨e, he, ha⟩
    · exact .inr ⟨e, he.symm, ha⟩
  · rintro (⟨e, he, ha⟩ | ⟨e, rfl, ha⟩)
    · exact ⟨e, List.mem_append_left _ he, ha⟩
    · exact ⟨e, by simp, ha⟩

theorem hasFinished_mono {pre tr : List Happening} (h : pre <+: tr) {m : ℕ} (hf : HasFinished pre m) : HasFinished tr m := by
  obtain ⟨e, he, ha⟩ := hf; exact ⟨e, h.subset he, ha⟩

/-- What holds throughout if movements are asked for in batches: `ms` are the movements under way, one after the other, the first of
them is `f`. -/
structure MovesInv (name : String) (tr : List Happening) (p : Pool) (f : ℕ) (ms : List Mv) : Prop where
  time : 0 ≤ p.now
  procs : p.waiting = ms.map (fun m => ⟨m.n, mvEv name m, mvK name m⟩)
  nums : ms.map Mv.n = List.range' f ms.length
  next : f + ms.length = p.next
  order : ms.Pairwise (fun a b => a.fin ≤ b.s)
  late : ∀ m ∈ ms, -(1 / 20000) ≤ m.s
  fin : ∀ m, HasFinished tr m ↔ m < f
  asked : ∀ m, (∃ pre key t, pre ++ [Happening.asked m key t] <+: tr) ↔ m < p.next
  key : ∃ b, p.w.buf name = some b ∧
    ((∃ l, ms.getLast? = some l ∧ b.lastKey.2 = l.fin ∧ AskedAtRest tr f) ∨ (b.lastKey.2 = 0 ∧ (ms = [] ∨ ¬ AskedAtRest tr f)))
  ok : NoOverlap tr

theorem noOverlap_snoc {tr : List Happening} {h : Happening} (ok : NoOverlap tr)
    (hn : ∀ n e, h = .came n e → e.act = .initiated → ∀ m < n, HasFinished tr m) : NoOverlap (tr ++ [h]) := by
  intro pre post n e he ha m hm
  rcases List.eq_nil_or_concat post with rfl | ⟨post', x, rfl⟩
  · have := List.append_inj_left' he rfl
    have h2 := List.append_inj_right' he rfl
    subst this
    simp only [List.cons.injEq, and_true] at h2
    exact hn n e h2 ha m hm
  · have he' : tr ++ [h] = (pre ++ .came n e :: post') ++ [x] := by rw [he]; simp
    have := List.append_inj_left' he' rfl
    exact ok pre post' n e this ha m hm

theorem askedAtRest_snoc {tr : List Happening} {h : Happening} {p : ℕ} (hn : ∀ key t, h ≠ .asked p key t) :
    AskedAtRest (tr ++ [h]) p ↔ AskedAtRest tr p := by
  constructor
  · intro hr pre key t hp; exact hr pre key t (hp.trans (List.prefix_append _ _))
  · intro hr pre key t hp
    rw [List.prefix_concat_iff] at hp
    rcases hp with hp | hp
    · have := List.append_inj_right' hp rfl
      simp only [List.cons.injEq, and_true] at this
      exact absurd this.symm (hn key t)
    · exact hr pre key t hp

theorem asked_snoc {tr : List Happening} {h : Happening} {p : ℕ} (hn : ∀ key t, h ≠ .asked p key t) :
    (∃ pre key t, pre ++ [Happening.asked p key t] <+: tr ++ [h]) ↔ ∃ pre key t, pre ++ [Happening.asked p key t] <+: tr := by
  constructor
  · rintro ⟨pre, key, t, hp⟩
    rw [List.prefix_concat_iff] at hp
    rcases hp with hp | hp
    · have := List.append_inj_right' hp rfl
      simp only [List.cons.injEq, and_true] at this
      exact absurd this.symm (hn key t)
    · exact ⟨pre, key, t, hp⟩
  · rintro ⟨pre, key, t, hp⟩; exact ⟨pre, key, t, hp.trans (List.prefix_append _ _)⟩

/-- Only the first movement under way goes on. -/
theorem first_goes {name : String} {tr : List Happening} {p : Pool} {f : ℕ} {ms : List Mv} (h : MovesInv name tr p f ms)
    {pre post : List Waiting} {x : Waiting} (hw : p.waiting = pre ++ x :: post) (hmin : ∀ y ∈ p.waiting, x.e.time ≤ y.e.time) :
    pre = [] ∧ ∃ m ms', ms = m :: ms' ∧ m.n = f ∧ x = ⟨m.n, mvEv name m, mvK name m⟩ ∧
      post = ms'.map (fun m => ⟨m.n, mvEv name m, mvK name m⟩) := by
  have hp := h.procs
  rw [hw] at hp
  cases ms with
  | nil => simp at hp
  | cons m ms' =>
    have hn : m.n = f := by have := h.nums; simp [List.range'_succ] at this; exact this.1
    cases pre with
    | nil =>
      simp only [List.nil_append, List.map_cons, List.cons.injEq] at hp
      exact ⟨rfl, m, ms', rfl, hn, hp.1, hp.2⟩
    | cons y pre' =>
      exfalso
      simp only [List.cons_append, List.map_cons, List.cons.injEq] at hp
      have hx : x ∈ ms'.map (fun m => (⟨m.n, mvEv name m, mvK name m⟩ : Waiting)) := by rw [← hp.2]; simp
      obtain ⟨b, hb, rfl⟩ := List.mem_map.1 hx
      have hlt := mv_before name ((List.pairwise_cons.1 h.order).1 b hb)
      have := hmin y (by rw [hw]; simp)
      rw [hp.1] at this
      simp only at this
      linarith

/-- The clock does not go below zero. -/
theorem mvEv_nonneg (name : String) {m : Mv} (h : -(1 / 20000) ≤ m.s) : 0 ≤ (mvEv name m).time := by
  have e := (mv_times m).2.2.2
  have : 0 ≤ round4 m.t1 := round4_nonneg (by rw [e]; linarith)
  exact this.trans (mvEv_bounds name m).1

/-- The end of a movement is not zero. -/
theorem fin_pos {m : Mv} (h : -(1 / 20000) ≤ m.s) : 0 < m.fin := by
  obtain ⟨_, h2, h3, h4⟩ := mv_times m; linarith

/-- The start of a movement. -/
theorem asked_out (C : Cfg) (name key : String) (n : ℕ) (t : ℚ) (w : Mach) (b : Buf) (hb : w.buf name = some b) :
    ∃ w1, (Desc.motorContinue name key t (timePresses key)).run C w =
        .yield w1 (.ev (mvEv name ⟨n, key, if b.lastKey.2 ≠ 0 then b.lastKey.2 else t, 0⟩))
          (mvK name ⟨n, key, if b.lastKey.2 ≠ 0 then b.lastKey.2 else t, 0⟩) ∧
      ∃ b', w1.buf name = some b' ∧ b'.lastKey.2 = (⟨n, key, if b.lastKey.2 ≠ 0 then b.lastKey.2 else t, 0⟩ : Mv).fin := by
  rw [continue_out C name key t _ w b hb]
  refine ⟨_, rfl, ?_⟩
  rw [buf_upd_self, hb]
  exact ⟨_, rfl, rfl⟩

theorem inBatches_init {tr : List Happening} {h : Happening} (hb : InBatches (tr ++ [h])) : InBatches tr := by
  intro pre post n key t he
  exact hb pre (post ++ [h]) n key t (by rw [he]; simp)

/-- A step of a movement that does not end it. -/
theorem mv_goOn {name : String} {m : Mv} {w w1 : Mach} {e : Verif.Ev} {k : Mach → Out Mach YV Unit} (h : mvK name m w = .yield w1 (.ev e) k)
    {b : Buf} (hb : w.buf name = some b) :
    (mvEv name m).act ≠ .finished ∧ e = mvEv name { m with i := m.i + 1 } ∧ k = mvK name { m with i := m.i + 1 } ∧
      ∃ b', w1.buf name = some b' ∧ b'.lastKey = b.lastKey := by
  obtain ⟨n, key, s, i⟩ := m
  match i, h with
  | 0, h =>
    simp only [mvK, mvK0, Out.yield.injEq, YV.ev.injEq] at h
    obtain ⟨rfl, rfl, rfl⟩ := h
    exact ⟨by simp [mvEv], rfl, rfl, { b with processor := .free }, by rw [buf_upd_self, hb]; rfl, rfl⟩
  | 1, h =>
    simp only [mvK, mvK1, Out.yield.injEq, YV.ev.injEq] at h
    obtain ⟨rfl, rfl, rfl⟩ := h
    exact ⟨by simp [mvEv], rfl, rfl, b, hb, rfl⟩
  | 2, h =>
    simp only [mvK, mvK2, Out.yield.injEq, YV.ev.injEq] at h
    obtain ⟨rfl, rfl, rfl⟩ := h
    exact ⟨by simp [mvEv], rfl, rfl, b, hb, rfl⟩
  | i + 3, h => simp [mvK, mvK3] at h

/-- The end of a movement. -/
theorem mv_finish {name : String} {m : Mv} {w w1 : Mach} (h : mvK name m w = .ret w1 ()) {b : Buf} (hb : w.buf name = some b) :
    (mvEv name m).act = .finished ∧ ∃ b', w1.buf name = some b' ∧ b'.lastKey.2 = 0 := by
  obtain ⟨n, key, s, i⟩ := m
  match i, h with
  | 0, h => simp [mvK, mvK0] at h
  | 1, h => simp [mvK, mvK1] at h
  | 2, h => simp [mvK, mvK2] at h
  | i + 3, h =>
    simp only [mvK, mvK3, Out.ret.injEq, and_true] at h
    subst h
    exact ⟨rfl, { b with state := .free, execution := .free, lastKey := (b.lastKey.1, 0) }, by rw [buf_upd_self, hb]; rfl, rfl⟩

/-- One step keeps the invariant. -/
theorem moves_step {C : Cfg} {name : String} {tr : List Happening} {p p' : Pool} {f : ℕ} {ms : List Mv} {h : Happening}
    (hi : MovesInv name tr p f ms) (hs : PoolStep C name p h p') (hb : InBatches (tr ++ [h])) :
    ∃ f' ms', MovesInv name (tr ++ [h]) p' f' ms' := by
  obtain ⟨b, hbuf, hkey⟩ := hi.key
  cases hs with
  | ask h1 h2 h3 =>
    rename_i key t w1 e k
    obtain ⟨q, hq, hq1, hq2, hq3⟩ := hb tr [] p.next key t rfl
    have hqf : q = f := by
      apply Nat.le_antisymm
      · by_contra hlt
        exact absurd ((hi.fin f).1 (hq1 f (by omega))) (by omega)
      · by_contra hlt
        exact hq2 q (le_refl _) ((hi.fin q).2 (by omega))
    subst hqf
    obtain ⟨w1', ho, b', hb', hl'⟩ := asked_out C name key p.next t p.w b hbuf
    rw [h3] at ho
    simp only [Out.yield.injEq, YV.ev.injEq] at ho
    obtain ⟨rfl, rfl, rfl⟩ := ho
    have ht : -(1 / 20000) ≤ t := by
      have c := round4_close t; rw [abs_le] at c
      have := hi.time; linarith [c.1]
    generalize hs : (if b.lastKey.2 ≠ 0 then b.lastKey.2 else t) = s at *
    have hlast : (ms = [] ∧ s = t) ∨ ∃ l, ms.getLast? = some l ∧ s = l.fin := by
      rcases hkey with ⟨l, hl, hk, _⟩ | ⟨hk, hm | hn⟩
      · have hpos := fin_pos (hi.late l (List.mem_of_getLast? hl))
        exact .inr ⟨l, hl, by rw [← hs, if_pos (by rw [hk]; exact hpos.ne'), hk]⟩
      · exact .inl ⟨hm, by rw [← hs, hk]; simp⟩
      · exact absurd hq3 hn
    have hord : ∀ a ∈ ms, a.fin ≤ s := by
      intro a ha
      rcases hlast with ⟨rfl, _⟩ | ⟨l, hl, rfl⟩
      · simp at ha
      · obtain ⟨ms', rfl⟩ := List.getLast?_eq_some_iff.1 hl
        rcases List.mem_append.1 ha with ha | ha
        · have := (List.pairwise_append.1 hi.order).2.2 a ha l (by simp)
          obtain ⟨q1, q2, q3, _⟩ := mv_times l
          linarith
        · rw [List.mem_singleton.1 ha]
    have hlate : -(1 / 20000) ≤ s := by
      rcases hlast with ⟨_, rfl⟩ | ⟨l, hl, rfl⟩
      · exact ht
      · have := fin_pos (hi.late l (List.mem_of_getLast? hl)); linarith
    refine ⟨q, ms ++ [⟨p.next, key, s, 0⟩], ⟨?_, ?_, ?_, ?_, ?_, ?_, ?_, ?_, ?_, ?_⟩⟩
    · exact hi.time.trans h1
    · simp [hi.procs]
    · simp only [List.map_append, hi.nums, List.map_cons, List.map_nil, List.length_append, List.length_cons, List.length_nil]
      rw [List.range'_concat]; simp [hi.next]
    · have := hi.next; simp; omega
    · rw [List.pairwise_append]
      exact ⟨hi.order, by simp, fun a ha b hb => by rw [List.mem_singleton.1 hb]; exact hord a ha⟩
    · intro m hm
      rcases List.mem_append.1 hm with hm | hm
      · exact hi.late m hm
      · rw [List.mem_singleton.1 hm]; exact hlate
    · intro m
      rw [hasFinished_append, ← hi.fin m]
      exact ⟨fun hm => hm.elim id (by rintro ⟨e, he, _⟩; simp at he), .inl⟩
    · intro m
      by_cases hm : m = p.next
      · subst hm
        exact ⟨fun _ => by simp, fun _ => ⟨tr, key, t, List.prefix_refl _⟩⟩
      · rw [asked_snoc (by intro _ _ he; simp only [Happening.asked.injEq] at he; exact hm he.1.symm), hi.asked m]
        simp only; omega
    · refine ⟨b', hb', .inl ⟨_, by simp, hl', ?_⟩⟩
      by_cases hf : q = p.next
      · intro pre k' t' hp m hm
        rw [List.prefix_concat_iff] at hp
        rcases hp with hp | hp
        · have := List.append_inj_left' hp rfl
          rw [this]; exact hq1 m hm
        · exact absurd ((hi.asked q).1 ⟨pre, k', t', hp⟩) (by omega)
      · rw [askedAtRest_snoc (by intro _ _ he; simp only [Happening.asked.injEq] at he; exact hf he.1.symm)]
        exact hq3
    · exact noOverlap_snoc hi.ok (by intro n e he; simp at he)
  | goOn hw hmin hk =>
    rename_i pre post x w1 e k
    obtain ⟨rfl, m, ms', rfl, hn, rfl, rfl⟩ := first_goes hi hw hmin
    obtain ⟨hnf, rfl, rfl, b', hb', hl'⟩ := mv_goOn hk hbuf
    have hna : ∀ q key t, Happening.came m.n (mvEv name m) ≠ .asked q key t := by simp
    have hfin : (⟨m.n, m.key, m.s, m.i + 1⟩ : Mv).fin = m.fin := rfl
    refine ⟨f, { m with i := m.i + 1 } :: ms', ⟨?_, ?_, ?_, ?_, ?_, ?_, ?_, ?_, ?_, ?_⟩⟩
    · exact mvEv_nonneg name (hi.late m (by simp))
    · simp
    · simpa using hi.nums
    · simpa using hi.next
    · have := hi.order
      rw [List.pairwise_cons] at this ⊢
      exact this
    · intro a ha
      rcases List.mem_cons.1 ha with rfl | ha
      · exact hi.late m (by simp)
      · exact hi.late a (by simp [ha])
    · intro q
      rw [hasFinished_append, ← hi.fin q]
      refine ⟨fun hq => hq.elim id ?_, .inl⟩
      rintro ⟨e, he, ha⟩
      simp only [Happening.came.injEq] at he
      obtain ⟨_, rfl⟩ := he
      exact absurd ha hnf
    · intro q; rw [asked_snoc (hna q)]; exact hi.asked q
    · refine ⟨b', hb', ?_⟩
      rw [askedAtRest_snoc (hna f), hl']
      rcases hkey with ⟨l, hl, hk, hr⟩ | ⟨hk, hm | hr⟩
      · left
        cases ms' with
        | nil =>
          simp only [List.getLast?_singleton, Option.some.injEq] at hl
          subst hl
          exact ⟨_, rfl, hk, hr⟩
        | cons a r =>
          rw [List.getLast?_cons_cons] at hl ⊢
          exact ⟨l, hl, hk, hr⟩
      · simp at hm
      · exact .inr ⟨hk, .inr hr⟩
    · apply noOverlap_snoc hi.ok
      intro n e he _ q hq
      simp only [Happening.came.injEq] at he
      exact (hi.fin q).2 (by omega)
  | finish hw hmin hk =>
    rename_i pre post x w1
    obtain ⟨rfl, m, ms', rfl, hn, rfl, rfl⟩ := first_goes hi hw hmin
    obtain ⟨hact, b', hb', hl'⟩ := mv_finish hk hbuf
    have hna : ∀ q key t, Happening.came m.n (mvEv name m) ≠ .asked q key t := by simp
    have hnext := hi.next
    simp only [List.length_cons] at hnext
    refine ⟨f + 1, ms', ⟨?_, ?_, ?_, ?_, ?_, ?_, ?_, ?_, ?_, ?_⟩⟩
    · exact mvEv_nonneg name (hi.late m (by simp))
    · simp
    · have := hi.nums; simp [List.range'_succ] at this; exact this.2
    · simp only; omega
    · exact (List.pairwise_cons.1 hi.order).2
    · intro a ha; exact hi.late a (by simp [ha])
    · intro q
      rw [hasFinished_append, hi.fin q]
      constructor
      · rintro (hq | ⟨e, he, _⟩)
        · omega
        · simp only [Happening.came.injEq] at he; omega
      · intro hq
        by_cases hqf : q < f
        · exact .inl hqf
        · exact .inr ⟨_, by rw [show q = m.n by omega], hact⟩
    · intro q; rw [asked_snoc (hna q)]; exact hi.asked q
    · refine ⟨b', hb', .inr ⟨hl', ?_⟩⟩
      by_cases hms : ms' = []
      · exact .inl hms
      · right
        rw [askedAtRest_snoc (hna _)]
        intro hr
        have hlen : 0 < ms'.length := List.length_pos_iff.2 hms
        obtain ⟨pre, key, t, hp⟩ := (hi.asked (f + 1)).2 (by omega)
        have := hasFinished_mono ((List.prefix_append _ _).trans hp) (hr pre key t hp f (by omega))
        exact absurd ((hi.fin f).1 this) (by omega)
    · apply noOverlap_snoc hi.ok
      intro n e he hac
      simp only [Happening.came.injEq] at he
      rw [← he.2, hact] at hac
      simp at hac

/-- C35, as far as it holds: if movements are asked for in batches (the first one of a batch while the hands are at rest, the others
before any of the batch has finished) they never overlap. In particular two presses never overlap, nor any number of presses that are
all asked for before the first has finished. Missing: presses asked for when an earlier one of the batch has finished already (and a
later one has not): these do overlap. -/
theorem C35_partial {C : Cfg} {name : String} {p0 p : Pool} {tr : List Happening} (h0 : AtRest name p0) (hr : PoolRun C name p0 tr p)
    (hb : InBatches tr) : NoOverlap tr := by
  have : ∃ f ms, MovesInv name tr p f ms := by
    induction hr with
    | nil =>
      obtain ⟨b, hb0, hl⟩ := h0.free
      refine ⟨0, [], ⟨h0.time, by simp [h0.idle], rfl, by simp [h0.first], by simp, by simp, ?_, ?_, ⟨b, hb0, .inr ⟨hl, .inl rfl⟩⟩, ?_⟩⟩
      · intro m; simp [HasFinished]
      · intro m; simp [h0.first]
      · intro pre post n e he; simp at he
    | snoc hr' hs ih =>
      obtain ⟨f, ms, hi⟩ := ih (inBatches_init hb)
      exact moves_step hi hs hb
  obtain ⟨_, _, hi⟩ := this
  exact hi.ok

/-! ## Three presses -/

/-- A movement as a process. -/
def Mv.proc (name : String) (m : Mv) : Waiting := ⟨m.n, mvEv name m, mvK name m⟩

theorem pool_ask (C : Cfg) (name key : String) (t L now : ℚ) (w : Mach) (next : ℕ) (ws : List Waiting)
    (hb : ∃ b, w.buf name = some b ∧ b.lastKey.2 = L) (h1 : now ≤ round4 t) (h2 : ∀ x ∈ ws, round4 t ≤ x.e.time) :
    ∃ w1, PoolStep C name ⟨now, w, next, ws⟩ (.asked next key t)
        ⟨round4 t, w1, next + 1, ws ++ [Mv.proc name ⟨next, key, if L ≠ 0 then L else t, 0⟩]⟩ ∧
      ∃ b, w1.buf name = some b ∧ b.lastKey.2 = (⟨next, key, if L ≠ 0 then L else t, 0⟩ : Mv).fin := by
  obtain ⟨b, hb, rfl⟩ := hb
  obtain ⟨w1, ho, hb'⟩ := asked_out C name key next t w b hb
  exact ⟨w1, .ask h1 h2 ho, hb'⟩

theorem pool_goOn (C : Cfg) (name : String) (L : ℚ) (now : ℚ) (w : Mach) (next : ℕ) (pre post : List Waiting) (m : Mv) (hm : m.i < 3)
    (hb : ∃ b, w.buf name = some b ∧ b.lastKey.2 = L) (hmin : ∀ y ∈ pre ++ m.proc name :: post, (mvEv name m).time ≤ y.e.time) :
    ∃ w1, PoolStep C name ⟨now, w, next, pre ++ m.proc name :: post⟩ (.came m.n (mvEv name m))
        ⟨(mvEv name m).time, w1, next, pre ++ Mv.proc name { m with i := m.i + 1 } :: post⟩ ∧
      ∃ b, w1.buf name = some b ∧ b.lastKey.2 = L := by
  obtain ⟨b, hb, rfl⟩ := hb
  have : ∃ w1 e k, mvK name m w = .yield w1 (.ev e) k := by
    obtain ⟨n, key, s, i⟩ := m
    match i, hm with
    | 0, _ => exact ⟨_, _, _, rfl⟩
    | 1, _ => exact ⟨_, _, _, rfl⟩
    | 2, _ => exact ⟨_, _, _, rfl⟩
  obtain ⟨w1, e, k, hk⟩ := this
  obtain ⟨_, rfl, rfl, b', hb', hl⟩ := mv_goOn hk hb
  exact ⟨w1, .goOn (x := m.proc name) rfl hmin hk, b', hb', by rw [hl]⟩

theorem pool_finish (C : Cfg) (name : String) (now : ℚ) (w : Mach) (next : ℕ) (pre post : List Waiting) (m : Mv) (hm : 3 ≤ m.i)
    (hb : ∃ b, w.buf name = some b) (hmin : ∀ y ∈ pre ++ m.proc name :: post, (mvEv name m).time ≤ y.e.time) :
    ∃ w1, PoolStep C name ⟨now, w, next, pre ++ m.proc name :: post⟩ (.came m.n (mvEv name m))
        ⟨(mvEv name m).time, w1, next, pre ++ post⟩ ∧ ∃ b, w1.buf name = some b ∧ b.lastKey.2 = 0 := by
  obtain ⟨b, hb⟩ := hb
  have : ∃ w1, mvK name m w = .ret w1 () := by
    obtain ⟨n, key, s, i⟩ := m
    match i, hm with
    | i + 3, _ => exact ⟨_, rfl⟩
  obtain ⟨w1, hk⟩ := this
  obtain ⟨_, b', hb', hl⟩ := mv_finish hk hb
  exact ⟨w1, .finish (x := m.proc name) rfl hmin hk, b', hb', hl⟩

theorem times_A : timePresses "A" = (3 / 20, 1 / 20, 1 / 100, 9 / 100) := by
  have h1 : slowestKeys.contains "A" = false := by decide
  have h2 : pressingKeys.contains "A" = true := by decide
  unfold timePresses; rw [h1, h2]; norm_num
theorem times_B : timePresses "B" = (1 / 4, 1 / 20, 1 / 10, 3 / 20) := by
  have h1 : slowestKeys.contains "B" = false := by decide
  have h2 : pressingKeys.contains "B" = false := by decide
  unfold timePresses; rw [h1, h2]; norm_num

theorem round4_lit (q : ℚ) (k : ℤ) (h : q = k / 10000) : round4 q = q := by rw [h, round4_of_int]

/-- A motor buffer at rest at time 0. -/
def exPool : Pool := ⟨0, exMach exManualReg [("manual", exBuf .motor)], 0, []⟩

theorem exPool_rest : AtRest "manual" exPool := ⟨le_refl _, rfl, rfl, _, rfl, rfl⟩

/-- "A" and then "B" are asked for at once, "B" waits until "A" has finished. -/
theorem two_presses (C : Cfg) : ∃ w1 evs, PoolRun C "manual" exPool
      ([.asked 0 "A" 0, .asked 1 "B" 0] ++ evs) ⟨3 / 20, w1, 2, [Mv.proc "manual" ⟨1, "B", 3 / 20, 0⟩]⟩ ∧
    (∀ h ∈ evs, ∃ e, h = .came 0 e) ∧ (∃ b, w1.buf "manual" = some b ∧ b.lastKey.2 = 0) ∧ evs ≠ [] := by
  have r0 : round4 0 = 0 := round4_zero
  have r1 : round4 (1 / 20) = 1 / 20 := round4_lit _ 500 (by norm_num)
  have r2 : round4 (3 / 50) = 3 / 50 := round4_lit _ 600 (by norm_num)
  have r3 : round4 (3 / 20) = 3 / 20 := round4_lit _ 1500 (by norm_num)
  have r4 : round4 (1 / 5) = 1 / 5 := round4_lit _ 2000 (by norm_num)
  obtain ⟨w1, s1, b1⟩ := pool_ask C "manual" "A" 0 0 0 exPool.w 0 [] ⟨_, rfl, rfl⟩ (by rw [r0]) (by simp)
  have f1 : (⟨0, "A", if (0 : ℚ) ≠ 0 then 0 else 0, 0⟩ : Mv) = ⟨0, "A", 0, 0⟩ := by simp
  rw [f1] at s1 b1
  have e0 : (⟨0, "A", 0, 0⟩ : Mv).fin = 3 / 20 := by norm_num [Mv.fin, times_A]
  have v0 : mvEv "manual" ⟨0, "A", 0, 0⟩ = ⟨1 / 20, "manual", .initiated⟩ := by norm_num [mvEv, Mv.t1, times_A, r1]
  have v1 : mvEv "manual" ⟨0, "A", 0, 1⟩ = ⟨3 / 50, "manual", .unknown⟩ := by norm_num [mvEv, Mv.t2, times_A, r2]
  have v2 : mvEv "manual" ⟨0, "A", 0, 2⟩ = ⟨3 / 50, "manual", .pressed "A"⟩ := by norm_num [mvEv, Mv.t2, times_A, r2]
  have v3 : mvEv "manual" ⟨0, "A", 0, 3⟩ = ⟨3 / 20, "manual", .finished⟩ := by norm_num [mvEv, Mv.fin, times_A, r3]
  have u0 : mvEv "manual" ⟨1, "B", 3 / 20, 0⟩ = ⟨1 / 5, "manual", .initiated⟩ := by norm_num [mvEv, Mv.t1, times_B, r4]
  obtain ⟨w2, s2, b2⟩ := pool_ask C "manual" "B" 0 _ (round4 0) w1 1 [Mv.proc "manual" ⟨0, "A", 0, 0⟩] b1 (le_refl _) (by norm_num [Mv.proc, v0, r0])
  have f2 : ∀ n, (⟨n, "B", if (⟨0, "A", 0, 0⟩ : Mv).fin ≠ 0 then (⟨0, "A", 0, 0⟩ : Mv).fin else 0, 0⟩ : Mv) = ⟨n, "B", 3 / 20, 0⟩ := by
    intro n; rw [e0]; norm_num
  simp only [f2] at s2 b2
  have run2 := PoolRun.snoc (PoolRun.snoc (PoolRun.nil (p0 := exPool)) s1) s2
  obtain ⟨w3, s3, b3⟩ := pool_goOn C "manual" _ (round4 0) w2 2 [] [Mv.proc "manual" ⟨1, "B", 3 / 20, 0⟩] ⟨0, "A", 0, 0⟩ (by decide) b2
    (by norm_num [Mv.proc, v0, u0])
  have run3 := PoolRun.snoc run2 s3
  obtain ⟨w4, s4, b4⟩ := pool_goOn C "manual" _ (mvEv "manual" ⟨0, "A", 0, 0⟩).time w3 2 [] [Mv.proc "manual" ⟨1, "B", 3 / 20, 0⟩] ⟨0, "A", 0, 1⟩ (by decide) b3
    (by norm_num [Mv.proc, v1, u0])
  have run4 := PoolRun.snoc run3 s4
  obtain ⟨w5, s5, b5⟩ := pool_goOn C "manual" _ (mvEv "manual" ⟨0, "A", 0, 1⟩).time w4 2 [] [Mv.proc "manual" ⟨1, "B", 3 / 20, 0⟩] ⟨0, "A", 0, 2⟩ (by decide) b4
    (by norm_num [Mv.proc, v2, u0])
  have run5 := PoolRun.snoc run4 s5
  obtain ⟨w6, s6, b6⟩ := pool_finish C "manual" (mvEv "manual" ⟨0, "A", 0, 2⟩).time w5 2 [] [Mv.proc "manual" ⟨1, "B", 3 / 20, 0⟩] ⟨0, "A", 0, 3⟩ (by decide)
    (b5.imp fun _ h => h.1) (by norm_num [Mv.proc, v3, u0])
  have run6 := PoolRun.snoc run5 s6
  have e3 : (mvEv "manual" ⟨0, "A", 0, 3⟩).time = 3 / 20 := by rw [v3]
  rw [e3] at run6
  refine ⟨w6, [.came 0 (mvEv "manual" ⟨0, "A", 0, 0⟩), .came 0 (mvEv "manual" ⟨0, "A", 0, 1⟩), .came 0 (mvEv "manual" ⟨0, "A", 0, 2⟩),
    .came 0 (mvEv "manual" ⟨0, "A", 0, 3⟩)], ?_, by simp, b6, by simp⟩
  simpa only [List.nil_append, List.append_assoc, List.singleton_append, List.cons_append] using run6

/-- C35 is false: when the first movement ends it erases the end of the second one, and a third press starts while the second is
still being carried out. -/
theorem C35_refuted : ¬ C35_full := by
  intro hfull
  obtain ⟨H, cf⟩ := exists_collisionFree
  have r3 : round4 (3 / 20) = 3 / 20 := round4_lit _ 1500 (by norm_num)
  have r4 : round4 (1 / 5) = 1 / 5 := round4_lit _ 2000 (by norm_num)
  have r5 : round4 (3 / 10) = 3 / 10 := round4_lit _ 3000 (by norm_num)
  obtain ⟨w1, evs, run, hevs, hb, _⟩ := two_presses (exCfg (exPy H))
  have u0 : mvEv "manual" ⟨1, "B", 3 / 20, 0⟩ = ⟨1 / 5, "manual", .initiated⟩ := by norm_num [mvEv, Mv.t1, times_B, r4]
  have u1 : mvEv "manual" ⟨1, "B", 3 / 20, 1⟩ = ⟨3 / 10, "manual", .unknown⟩ := by norm_num [mvEv, Mv.t2, times_B, r5]
  have c0 : mvEv "manual" ⟨2, "A", 3 / 20, 0⟩ = ⟨1 / 5, "manual", .initiated⟩ := by norm_num [mvEv, Mv.t1, times_A, r4]
  obtain ⟨w2, s2, b2⟩ := pool_ask (exCfg (exPy H)) "manual" "A" (3 / 20) 0 (3 / 20) w1 2 [Mv.proc "manual" ⟨1, "B", 3 / 20, 0⟩] hb
    (by rw [r3]) (by norm_num [Mv.proc, u0, r3])
  simp only [ne_eq, not_true_eq_false, if_false, List.singleton_append] at s2
  have run2 := PoolRun.snoc run s2
  obtain ⟨w3, s3, b3⟩ := pool_goOn (exCfg (exPy H)) "manual" _ (round4 (3 / 20)) w2 3 [] [Mv.proc "manual" ⟨2, "A", 3 / 20, 0⟩] ⟨1, "B", 3 / 20, 0⟩
    (by decide) b2 (by norm_num [Mv.proc, u0, c0])
  have run3 := PoolRun.snoc run2 s3
  obtain ⟨w4, s4, b4⟩ := pool_goOn (exCfg (exPy H)) "manual" _ (mvEv "manual" ⟨1, "B", 3 / 20, 0⟩).time w3 3 [Mv.proc "manual" ⟨1, "B", 3 / 20, 1⟩] []
    ⟨2, "A", 3 / 20, 0⟩ (by decide) b3 (by norm_num [Mv.proc, u1, c0])
  have run4 := PoolRun.snoc run3 s4
  obtain ⟨e, he, ha⟩ := hfull _ _ _ _ _ exPool_rest run4 _ [] 2 _ rfl (by rw [c0]) 1 (by decide)
  have hmem : ∀ h, h ∈ ([.asked 0 "A" 0, .asked 1 "B" 0] ++ evs ++ [.asked 2 "A" (3 / 20)] ++
      [.came 1 (mvEv "manual" ⟨1, "B", 3 / 20, 0⟩)] : List Happening) → (∀ e, h = .came 1 e → e.act = .finished → False) := by
    intro h hh e he ha
    subst he
    rw [List.mem_append, List.mem_append, List.mem_append] at hh
    rcases hh with ((hh | hh) | hh) | hh
    · simp at hh
    · obtain ⟨e', h'⟩ := hevs _ hh; simp at h'
    · simp at hh
    · simp only [List.mem_singleton, Happening.came.injEq, true_and] at hh
      rw [hh, u0] at ha; simp at ha
  exact hmem _ he _ rfl ha

/-- The hypotheses of `C35_partial` are met by "A" and "B" asked for at the same time, "A" carried out and "B" waiting. -/
example : ∃ (C : Cfg) (p : Pool) (tr : List Happening), AtRest "manual" exPool ∧ PoolRun C "manual" exPool tr p ∧ InBatches tr ∧
    p.waiting ≠ [] ∧ 2 < tr.length := by
  obtain ⟨H, _⟩ := exists_collisionFree
  obtain ⟨w1, evs, run, hevs, _, hne⟩ := two_presses (exCfg (exPy H))
  refine ⟨_, _, _, exPool_rest, run, ?_, by simp, by simp [List.length_pos_iff, hne]⟩
  intro pre post n key t he
  have hnf : ∀ m, ¬ HasFinished [] m := by simp [HasFinished]
  have hnf1 : ∀ m, ¬ HasFinished [.asked 0 "A" 0] m := by simp [HasFinished]
  rcases pre with _ | ⟨a, _ | ⟨b, pre⟩⟩
  · simp only [List.cons_append, List.nil_append, List.cons.injEq, Happening.asked.injEq] at he
    exact ⟨0, by omega, by omega, fun m _ => hnf m, fun pre' _ _ _ => by omega⟩
  · simp only [List.cons_append, List.nil_append, List.cons.injEq] at he
    obtain ⟨rfl, _⟩ := he
    exact ⟨0, by omega, by omega, fun m _ => hnf1 m, fun pre' _ _ _ => by omega⟩
  · simp only [List.cons_append, List.nil_append, List.cons.injEq] at he
    obtain ⟨e', h'⟩ := hevs (.asked n key t) (by rw [he.2.2]; simp)
    simp at h'

end Verif.Props
