import Verif.Lemmas.ReadyCode
import Verif.Lemmas.SimRun
/-! # Modules and their interruptions: steps -/
namespace Verif
open Verif.Spec

variable {D : String → ℕ} {X : ℕ → Prop} {s s' : Sim} {p e : ℕ} {A B : Type}

/-! ## A running process -/

/-- Process `e` may go on at `pt`. -/
structure Primed (e : ℕ) (pt : Pt) (x : Except PyErr SVal) (s : Sim) : Prop where
  point : s.points e = some pt
  kind : ∀ n, pt.module = some n → alook n s.extra = some e
  new : ∀ n, pt = .extraNew n → s.strikes e = 0
  ok : ∀ v, x = .ok v → pt.isNew = false → NoneNew s ∧ ∀ q, s.strikes q = 0
  work : ∀ n, pt.working = some n → (∃ a, alook n s.activate = some a ∧ s.triggered a = true) ∧ (s.strikes e = 0 ∨ s.strikes e + 1 ≤ orders n s.startedList)
  main : pt.main = true → e = 2

theorem readies_code (C : Cfg) {pt : Pt} {x : Except PyErr SVal} (h : Ready (fun _ => 0) (fun q => q = e) s) (hp : Primed e pt x s) :
    Readies (fun q => q = e) (code C pt x) s (ReadyRes e pt) := by
  have hz : ∀ v, x = .ok v → pt.isNew = false → ∀ q pt n, s.points q = some pt → pt.working = some n → s.strikes q = 0 := fun v hv hn q _ _ _ _ => (hp.ok v hv hn).2 q
  have hg := h.poised.gens e pt hp.point
  cases pt with
  | procNew =>
    rcases x with x | v
    · exact readies_throw h
    · exact readies_procCycle h rfl rfl (.inl rfl)
  | procFirst =>
    rcases x with x | v
    · exact readies_throw h
    · refine readies_bind (readies_procsReturned h (hz v rfl rfl)) fun _ s1 h1 _ hs => ?_
      subst hs
      exact readies_procLoop h1 (hp.main rfl) hp.point rfl rfl (hp.ok v rfl rfl).1 (hz v rfl rfl)
  | procIdle =>
    rcases x with x | v
    · exact readies_throw h
    · exact readies_procSpins h rfl rfl
  | procSpin n =>
    rcases x with x | v
    · exact readies_throw h
    · cases n with
      | zero => exact readies_procCycle h rfl rfl (.inr rfl)
      | succ n => exact readies_procSpins h rfl rfl
  | procAgain =>
    rcases x with x | v
    · exact readies_throw h
    · refine readies_bind (readies_procsReturned h (hz v rfl rfl)) fun _ s1 h1 _ hs => ?_
      subst hs
      refine readies_bind (readies_newEvent h1) fun a s2 h2 g2 ⟨hf, hsame, hpts⟩ => ?_
      have hg : Pace s2 { s2 with procActivate := a } := ⟨rfl, le_rfl, fun _ _ => rfl, fun _ _ => rfl, rfl, fun _ h => h, fun _ _ _ h => h, fun _ h => .inl h⟩
      refine readies_bind (Q := fun s' _ => s' = { s2 with procActivate := a }) ⟨?_, hg, fun _ _ => rfl⟩ fun _ s3 h3 _ hs => ?_
      · exact ⟨poised_procActivate h2.poised hf.plain.1 hf.free hf.act, placed_pace hg h2.placed (fun _ _ h => .inl h) (.inr (mellow_pace hg hf.plain)) (.inl rfl), h2.blank⟩
      · subst hs
        refine readies_procLoop h3 (hp.main rfl) (pt := .procAgain) ?_ rfl rfl (fun q n => ?_) fun q pt n hq hw => ?_
        · show s2.points e = _
          rw [hpts]; exact hp.point
        · show s2.points q ≠ _
          rw [hpts]; exact (hp.ok v rfl rfl).1 q n
        · exact (hsame.strikes q).trans ((hp.ok v rfl rfl).2 q)
  | extraNew name =>
    rcases x with x | v
    · exact readies_throw h
    · exact readies_extraLoop h rfl rfl (hp.kind _ rfl) (.inl (hp.new _ rfl))
  | extraIdle name =>
    rcases x with x | v
    · exact readies_throw h
    · refine readies_bind (readies_renew h (hp.kind _ rfl)) fun a s1 h1 g1 hq => ?_
      exact readies_extraLoop h1 rfl rfl (by rw [g1.extra]; exact hp.kind _ rfl) (.inl ((hq.2.2.2.2.2.1 e).trans ((hp.ok v rfl rfl).2 e)))
  | extraMain name pro =>
    exact readies_extraAfterMain h hp.point (hp.kind _ rfl) (h.poised.refs e _ pro hp.point rfl) (hp.work _ rfl).1 (hp.work _ rfl).2 fun v hv => (hp.ok v hv rfl).2 e
  | extraCont name => exact readies_extraAfterCont h (hp.kind _ rfl) (hp.work _ rfl).2
  | localNew name g =>
    rcases x with x | v
    · exact readies_throw h
    · refine readies_bind (readies_get h) fun w s1 h1 _ hs => ?_
      obtain ⟨rfl, rfl⟩ := hs
      exact readies_localRun h1 (hg _) rfl
  | localWait name ev k => exact readies_localResume h hg rfl
  | envNew =>
    rcases x with x | v
    · exact readies_throw h
    · exact readies_envStart h rfl rfl
  | envWait pro k =>
    rcases x with x | v
    · exact readies_throw h
    · refine readies_bind (readies_envNext h (h.poised.refs e _ pro hp.point rfl)) fun _ s1 h1 _ hs => ?_
      exact readies_envAdvance h1 hg (fun q n => by rw [hs]; exact (hp.ok v rfl rfl).1 q n) rfl rfl
  | envProcNew ev =>
    rcases x with x | v
    · exact readies_throw h
    · exact readies_envProcStart h rfl
  | envProc ev => exact readies_envProcResume h

theorem ready_waits {pt pt' : Pt} {ev : ℕ} (h : Ready (fun _ => 0) (fun q => q = p) s) (hp : s.points p = some pt) (hm : ∀ n, pt.module = some n → alook n s.extra = some p)
    (hr : PoisedRes p pt s ev pt') : Ready (fun _ => 0) (fun _ => False) (s.waits p ev pt') := by
  have hint : ∀ x q, .interrupt q ∈ (s.waits p ev pt').cbs x → .interrupt q ∈ s.cbs x := fun x q hm => (mem_addCallback hm).elim id (fun h => by cases h.1)
  have hmel : ∀ a, Mellow s a → Mellow (s.waits p ev pt') a := fun a ha => ⟨ha.1, fun q hq => ha.2.1 q (hint a q hq), ha.2.2⟩
  refine ⟨poised_waits h.poised hp hm hr, ⟨fun n a ha => hmel a (h.placed.act n a ha), hmel _ h.placed.proc, hmel _ h.placed.env⟩, fun x hx => ⟨?_, ?_⟩⟩
  · unfold Sim.triggered
    exact (congrArg _ (value_addCallback _ _ _ _)).trans (h.blank x hx).1
  · have hx : s.next ≤ x := hx
    have := h.poised.born p pt hp
    exact (fset_other _ _ (by omega)).trans (h.blank x hx).2

theorem ready_ends {pt : Pt} {v : Except PyErr SVal} (h : Ready D (fun q => q = p) s) (hp : s.points p = some pt) (hi : ∀ q, .interrupt q ∉ s.cbs p) :
    Ready D (fun _ => False) (s.ends p v) := by
  have hb := h.poised.born p pt hp
  have hmel : ∀ a, Mellow s a → Mellow (s.ends p v) a := fun a ha => mellow_pace (s := { s with points := fset s.points p Option.none }) (pace_trigger _ p v) ha
  refine ⟨poised_ends h.poised hp hi, ⟨fun n a ha => hmel a (h.placed.act n a ha), hmel _ h.placed.proc, hmel _ h.placed.env⟩, fun x hx => ⟨?_, ?_⟩⟩
  · have hx : s.next ≤ x := hx
    show (fset s.events p _ x).value.isSome = false
    rw [fset_other _ _ (by omega)]; exact (h.blank x hx).1
  · have hx : s.next ≤ x := hx
    exact (fset_other _ _ (by omega)).trans (h.blank x hx).2

/-- A process runs until it waits or ends. -/
theorem ready_resume (C : Cfg) {pt : Pt} {x : Except PyErr SVal} (h : Ready (fun _ => 0) (fun q => q = p) s) (hp : Primed p pt x s) (hi : ∀ q, .interrupt q ∉ s.cbs p) :
    Ready (fun _ => 0) (fun _ => False) (s.resume C p x) ∧ s.next ≤ (s.resume C p x).next := by
  have hc := readies_code C h hp
  have hlt : p < s.next := (Nat.lt_succ_self _).trans (h.poised.born p pt hp.point)
  unfold Readies Does at hc
  rw [resume_eq C hp.point]
  rcases hr : code C pt x s with ⟨s1, y | r⟩
  · rw [hr] at hc
    exact ⟨ready_ends hc.1 ((hc.2.1.points p hlt).trans hp.point) fun q hq => hi q (hc.2.1.calm p q hlt hq), hc.2.1.next⟩
  · rw [hr] at hc
    have hp1 : s1.points p = some pt := (hc.2.1.points p hlt).trans hp.point
    cases r with
    | done v => exact ⟨ready_ends hc.1 hp1 fun q hq => hi q (hc.2.1.calm p q hlt hq), hc.2.1.next⟩
    | wait ev pt' => exact ⟨ready_waits hc.1 hp1 (fun n hn => by show alook n s1.extra = _; rw [hc.2.1.extra]; exact hp.kind n hn) (hc.2.2 _ rfl ev pt' rfl), hc.2.1.next⟩

/-! ## The next event -/

theorem ready_iff {X' : ℕ → Prop} (h : Ready D X s) (hx : ∀ p, X p ↔ X' p) : Ready D X' s := by
  have : X = X' := funext fun p => propext (hx p)
  rw [← this]; exact h

theorem head_upTo {en x : Entry} {q : List Entry} (h : Poised D X s) (hq : s.queue = en :: q) (hx : x ∈ s.queue) (hu : x.urgent = true) (ht : x.time ≤ en.time) : en.urgent = true := by
  have hs := h.sorted
  rw [hq] at hs hx
  rcases List.mem_cons.1 hx with rfl | hx
  · exact hu
  · rcases (List.pairwise_cons.1 hs).1 x hx with h1 | ⟨_, h1 | h1⟩
    · exact absurd ht (not_le.2 h1)
    · exact h1
    · rw [hu] at h1; cases h1

theorem strikes_pos (h : 0 < s.strikes p) : ∃ en ∈ s.queue, .interrupt p ∈ s.cbs en.ev := by
  obtain ⟨en, hen, hm⟩ := List.countP_pos_iff.1 h
  exact ⟨en, hen, by simpa using hm⟩

/-- If the next event is not urgent, nobody is interrupted and no module waits for its start. -/
theorem ready_slow {en : Entry} {q : List Entry} (h : Ready D (fun _ => False) s) (hi : Inv s) (hq : s.queue = en :: q) (hu : en.urgent = false) :
    (∀ p, s.strikes p = 0) ∧ ∀ p pt, s.points p = some pt → pt.isNew = false := by
  have hnow := hi.ahead en (by rw [hq]; exact .head _)
  refine ⟨fun p => ?_, fun p pt hp => ?_⟩
  · by_contra hc
    obtain ⟨x, hx, hm⟩ := strikes_pos (Nat.pos_of_ne_zero hc)
    obtain ⟨h1, h2⟩ := h.poised.now x hx p hm
    rw [head_upTo h.poised hq hx h1 (h2.le.trans hnow)] at hu; cases hu
  · cases hn : pt.isNew with
    | false => rfl
    | true =>
      obtain ⟨_, x, hx, _, h1, h2⟩ := h.poised.init p pt hp hn id
      rw [head_upTo h.poised hq hx h1 (h2.trans hnow)] at hu; cases hu

theorem triggered_taken (s : Sim) (en : Entry) (q : List Entry) (x : ℕ) : (s.taken en q).triggered x = s.triggered x := by
  show (fset s.events en.ev _ x).value.isSome = _
  by_cases hx : x = en.ev
  · subst hx; rw [fset_same]; rfl
  · rw [fset_other _ _ hx]; rfl

theorem mem_taken {en : Entry} {q : List Entry} {x : ℕ} {cb : Callback} (h : cb ∈ (s.taken en q).cbs x) : x ≠ en.ev ∧ cb ∈ s.cbs x := by
  rw [cbs_taken] at h
  split at h
  · cases h
  · exact ⟨‹_›, h⟩

theorem strikes_taken {en : Entry} {q : List Entry} (hq : s.queue = en :: q) (p : ℕ) : (s.taken en q).strikes p + (if .interrupt p ∈ s.cbs en.ev then 1 else 0) ≤ s.strikes p := by
  unfold Sim.strikes
  rw [hq, List.countP_cons]
  simp only [decide_eq_true_eq]
  exact Nat.add_le_add_right (List.countP_mono_left fun x _ => by simpa using fun hm => (mem_taken hm).2) _

theorem ready_taken {en : Entry} {q : List Entry} (h : Ready D (fun _ => False) s) (hi : Inv s) (ha : Awake (fun _ => False) s) (hq : s.queue = en :: q) :
    Ready D (Resumed (s.cbs en.ev)) (s.taken en q) := by
  have hen : en ∈ s.queue := by rw [hq]; exact .head _
  have hsub : ∀ x ∈ q, x ∈ s.queue := fun x hx => by rw [hq]; exact .tail _ hx
  have hnow := hi.ahead en hen
  have hst : ∀ p, (s.taken en q).strikes p ≤ s.strikes p := fun p => (Nat.le_add_right _ _).trans (strikes_taken hq p)
  have htr := triggered_taken s en q
  have hmel : ∀ a, Mellow s a → Mellow (s.taken en q) a := fun a h1 => ⟨h1.1, fun x hx => h1.2.1 x (mem_taken hx).2, fun x hx => h1.2.2 x (hsub x hx)⟩
  have hp := h.poised
  refine ⟨?_, ⟨fun n a h1 => hmel a (h.placed.act n a h1), hmel _ h.placed.proc, hmel _ h.placed.env⟩, fun x hx => ⟨by rw [htr]; exact (h.blank x hx).1, (h.blank x hx).2⟩⟩
  constructor
  · have := hp.sorted
    rw [hq] at this; exact (List.pairwise_cons.1 this).2
  · have := hp.ord
    rw [hq] at this; exact (List.pairwise_cons.1 this).2
  · exact fun x hx => hp.known x (hsub x hx)
  · exact hp.born
  · intro ev hev
    rw [cbs_taken]
    split
    · rfl
    · exact hp.unborn ev hev
  · intro p hx
    have hr := hi.res _ _ hx
    obtain ⟨pt, hpt⟩ := Option.isSome_iff_exists.1 hr.2
    refine ⟨hp.born p pt hpt, fun ev hm => ?_⟩
    obtain ⟨h1, h2⟩ := mem_taken hm
    exact h1 ((hi.res _ _ h2).1.symm.trans hr.1)
  · intro ev p hm
    obtain ⟨h1, h2⟩ := mem_taken hm
    obtain ⟨a1, a2, a3, a4⟩ := hp.intr ev p h2
    exact ⟨by rw [cbs_taken, if_neg h1]; exact a1, by rw [htr]; exact a2, a3, a4⟩
  · intro x hx p hm
    obtain ⟨a1, a2⟩ := hp.now x (hsub x hx) p (mem_taken hm).2
    refine ⟨a1, le_antisymm (a2.le.trans hnow) ?_⟩
    have := hp.sorted
    rw [hq] at this; exact upTo_le ((List.pairwise_cons.1 this).1 x hx)
  · exact hp.extra
  · exact hp.refs
  · exact fun p pt n h1 _ => hp.kind p pt n h1 id
  · intro p pt h1 h2 hx
    obtain ⟨b1, x, b2, b3, b4, b5⟩ := hp.init p pt h1 h2 id
    refine ⟨b1, x, ?_, b3, b4, b5.trans hnow⟩
    rw [hq] at b2
    rcases List.mem_cons.1 b2 with rfl | b2
    · refine absurd ?_ hx
      have := ha.woken p pt h1 id
      rw [b1, ← b3] at this; exact this
    · exact b2
  · exact fun x hx hu p hm => hp.urg x (hsub x hx) hu p (mem_taken hm).2
  · exact fun ev p r h1 h2 => hp.one ev p r (mem_taken h1).2 (mem_taken h2).2
  · exact fun n a h1 => (hp.act n a h1).imp_right fun y => y.imp_right fun y r hr => y r (mem_taken hr).2
  · exact hp.dist
  · exact ⟨hp.proc.1, fun r hr => hp.proc.2 r (mem_taken hr).2⟩
  · exact fun e n he _ => (hp.idle e n he id).imp_right fun y h0 => (htr _).trans (y (h0.trans_le (hst e)))
  · exact fun e pt n he _ hw => ⟨(hp.busy e pt n he id hw).1.imp fun a y => y.imp_right fun y => (htr a).trans y, (Nat.add_le_add_right (hst e) _).trans (hp.busy e pt n he id hw).2⟩
  · exact fun e n he _ => Nat.le_zero.1 ((hst e).trans (hp.newb e n he id).le)
  · exact hp.gens

theorem main_two {rf : ℚ} {pt : Pt} (h : Cycling rf s) (hp : s.points p = some pt) (hm : pt.main = true) : p = 2 := by
  obtain ⟨st, c, hr⟩ := h
  by_cases hc : p = c
  · subst hc
    have := hr.child pt hp
    cases pt <;> first | exact this.elim | exact absurd hm Bool.false_ne_true
  · have := hr.mods p pt hp hc
    cases pt <;> first | exact this | exact absurd hm Bool.false_ne_true

/-- Whoever is resumed may go on. -/
def Loaded (l : List Callback) (x : Except PyErr SVal) (s : Sim) : Prop := ∀ p, .resume p ∈ l → ∃ pt, Primed p pt x s ∧ ∀ q, .interrupt q ∉ s.cbs p

theorem loaded_taken {rf : ℚ} {en : Entry} {q : List Entry} {x : Except PyErr SVal} (h : Ready (fun _ => 0) (fun _ => False) s) (hf : Fine rf s) (hq : s.queue = en :: q) : Loaded (s.cbs en.ev) x (s.taken en q) := by
  intro p hm
  have hi := hf.1
  have hen : en ∈ s.queue := by rw [hq]; exact .head _
  obtain ⟨pt, hpt⟩ := Option.isSome_iff_exists.1 (hi.res _ _ hm).2
  have hst : ∀ p, (s.taken en q).strikes p ≤ s.strikes p := fun p => (Nat.le_add_right _ _).trans (strikes_taken hq p)
  have hslow : pt.isNew = false → (∀ p, (s.taken en q).strikes p = 0) ∧ NoneNew s := fun hn => by
    have hu : en.urgent = false := by
      cases hu : en.urgent with
      | false => rfl
      | true => rw [h.poised.urg en hen hu p hm pt hpt] at hn; cases hn
    have := ready_slow h hi hq hu
    exact ⟨fun p => Nat.le_zero.1 ((hst p).trans (this.1 p).le), fun r n hr => by cases this.2 r _ hr⟩
  refine ⟨pt, ⟨hpt, fun n hn => h.poised.kind p pt n hpt id hn, fun n hn => Nat.le_zero.1 ((hst p).trans (h.poised.newb p n (hn ▸ hpt) id).le), fun v _ hn => ⟨(hslow hn).2, (hslow hn).1⟩, fun n hn => ?_, fun hm => main_two hf.2 hpt hm⟩, fun r hr => ?_⟩
  · refine ⟨(h.poised.busy p pt n hpt id hn).1.imp fun a y => y.imp_right fun y => (triggered_taken s en q a).trans y, .inl ((hslow ?_).1 p)⟩
    cases pt <;> first | rfl | cases hn
  · refine calm_untriggered h.poised ?_ r (mem_taken hr).2
    unfold Sim.triggered
    rw [hi.live p (by rw [hpt]; rfl)]; rfl

theorem primed_same {pt : Pt} {x : Except PyErr SVal} (h : Primed e pt x s) (hp : s'.points = s.points) (he : s'.extra = s.extra) (hs : Same s s') (ht : ∀ a, s.triggered a = true → s'.triggered a = true) : Primed e pt x s' := by
  refine ⟨by rw [hp]; exact h.point, by rw [he]; exact h.kind, fun n hn => (hs.strikes e).trans (h.new n hn), fun v hv hn => ⟨fun r n => by rw [hp]; exact (h.ok v hv hn).1 r n, fun r => (hs.strikes r).trans ((h.ok v hv hn).2 r)⟩, fun n hn => ?_, h.main⟩
  rw [hs.activate, hs.strikes, hs.started]
  exact ⟨(h.work n hn).1.imp fun a y => y.imp_right (ht a), (h.work n hn).2⟩

theorem loaded_trigger {l : List Callback} {x v : Except PyErr SVal} {ev : ℕ} (h : Loaded l x s) (hp : Poised D X s) (ht : s.triggered ev = false) : Loaded l x (s.trigger ev v) := fun p hm => by
  obtain ⟨pt, h1, h2⟩ := h p hm
  exact ⟨pt, primed_same h1 rfl rfl (same_trigger hp ht) (pace_trigger s ev v).trig, fun q hq => h2 q (by rwa [cbs_trigger] at hq)⟩

theorem triggered_defuse (s : Sim) (ev x : ℕ) : (s.defuse ev).triggered x = s.triggered x := by
  show (fset s.events ev _ x).value.isSome = _
  by_cases he : x = ev
  · subst he; rw [fset_same]; rfl
  · rw [fset_other _ _ he]; rfl

theorem same_defuse (s : Sim) (ev : ℕ) : Same s (s.defuse ev) := ⟨rfl, rfl, rfl, fun _ => strikes_congr rfl fun en _ => by rw [cbs_defuse]⟩

theorem ready_defuse {ev : ℕ} (h : Ready D X s) : Ready D X (s.defuse ev) := by
  have hmel : ∀ a, Mellow s a → Mellow (s.defuse ev) a := fun a h1 => ⟨h1.1, fun x hx => h1.2.1 x (by rwa [cbs_defuse] at hx), h1.2.2⟩
  exact ⟨poised_defuse h.poised, ⟨fun n a h1 => hmel a (h.placed.act n a h1), hmel _ h.placed.proc, hmel _ h.placed.env⟩, fun x hx => ⟨(triggered_defuse s ev x).trans (h.blank x hx).1, (h.blank x hx).2⟩⟩

theorem loaded_defuse {l : List Callback} {x : Except PyErr SVal} {ev : ℕ} (h : Loaded l x s) : Loaded l x (s.defuse ev) := fun p hm => by
  obtain ⟨pt, h1, h2⟩ := h p hm
  exact ⟨pt, primed_same h1 rfl rfl (same_defuse s ev) (fun a ha => (triggered_defuse s ev a).trans ha), fun q hq => h2 q (by rwa [cbs_defuse] at hq)⟩

theorem same_drop {ev : ℕ} {c : Callback} (hc : ∀ p, c ≠ .interrupt p) : Same s (s.dropCallback ev c) := ⟨rfl, rfl, rfl, strikes_drop hc⟩

theorem ready_drop {X' : ℕ → Prop} {ev : ℕ} {c : Callback} (h : Ready D X s) (hc : ∀ p, c ≠ .interrupt p) (hx : ∀ p, X p → X' p)
    (hr : ∀ p, X' p → X p ∨ (p + 1 < s.next ∧ ∀ ev', .resume p ∉ (s.dropCallback ev c).cbs ev')) : Ready D X' (s.dropCallback ev c) := by
  have hmel : ∀ a, Mellow s a → Mellow (s.dropCallback ev c) a := fun a h1 => ⟨h1.1, fun x hx => h1.2.1 x (mem_drop hx), h1.2.2⟩
  exact ⟨poised_drop h.poised hc hx hr, ⟨fun n a h1 => hmel a (h.placed.act n a h1), hmel _ h.placed.proc, hmel _ h.placed.env⟩, fun x hx => ⟨(triggered_drop s ev c x).trans (h.blank x hx).1, (h.blank x hx).2⟩⟩

theorem loaded_drop {l : List Callback} {x : Except PyErr SVal} {ev : ℕ} {c : Callback} (h : Loaded l x s) (hc : ∀ p, c ≠ .interrupt p) : Loaded l x (s.dropCallback ev c) := fun p hm => by
  obtain ⟨pt, h1, h2⟩ := h p hm
  exact ⟨pt, primed_same h1 rfl rfl (same_drop hc) (fun a ha => (triggered_drop s ev c a).trans ha), fun q hq => h2 q (mem_drop hq)⟩

/-- The callbacks of an event that interrupts nobody. -/
theorem ready_callbacks (C : Cfg) {ev : ℕ} {v : Except PyErr SVal} (l : List Callback) : ∀ {s : Sim}, Ready (fun _ => 0) (Resumed l) s → Loaded l v s → (∀ p, l.count (.resume p) ≤ 1) →
    (∀ p q, .resume p ∈ l → .resume q ∈ l → p = q) → (∀ c, .check c ∈ l → c < s.next) → (∀ p, .interrupt p ∉ l) → Ready (fun _ => 0) (fun _ => False) (l.foldl (callback C ev v) s) := by
  induction l with
  | nil => intro s h _ _ _ _ _; exact ready_iff h fun p => ⟨(fun hm => by cases hm), False.elim⟩
  | cons cb l ih =>
    intro s h hl hc ho hk hi
    have hc' : ∀ p, l.count (.resume p) ≤ 1 := fun p => (List.sublist_cons_self cb l).count_le _ |>.trans (hc p)
    have ho' : ∀ p q, .resume p ∈ l → .resume q ∈ l → p = q := fun p q h1 h2 => ho p q (.tail _ h1) (.tail _ h2)
    have hi' : ∀ p, .interrupt p ∉ l := fun p hp => hi p (.tail _ hp)
    have hk' : ∀ c, .check c ∈ l → c < s.next := fun c hc => hk c (.tail _ hc)
    have hrest : (∀ p, cb ≠ .resume p) → Ready (fun _ => 0) (Resumed l) s ∧ Loaded l v s := fun hn => ⟨ready_iff h fun p =>
      ⟨fun hm => (List.mem_cons.1 hm).resolve_left fun he => hn p he.symm, .tail _⟩, fun p hm => hl p (.tail _ hm)⟩
    rw [List.foldl_cons]
    cases cb with
    | resume p =>
      have hn : ∀ q, .resume q ∉ l := fun q hq => by
        have hpq := ho p q (.head _) (.tail _ hq)
        subst hpq
        have h1 := hc p
        rw [List.count_cons_self] at h1
        have h2 := List.count_pos_iff.2 hq
        omega
      obtain ⟨pt, h1, h2⟩ := hl p (.head _)
      have hx : Ready (fun _ => 0) (fun q => q = p) s := ready_iff h fun q => ⟨fun hm => by
        rcases List.mem_cons.1 hm with he | hm
        · cases he; rfl
        · exact absurd hm (hn q), fun hm => by subst hm; exact .head _⟩
      have key : Ready (fun _ => 0) (fun _ => False) (callback C ev v s (.resume p)) ∧ s.next ≤ (callback C ev v s (.resume p)).next := by
        unfold callback
        rcases v with x | v
        · exact ready_resume C (ready_defuse hx) (primed_same h1 rfl rfl (same_defuse s ev) (fun a ha => (triggered_defuse s ev a).trans ha)) fun q hq => h2 q (by rwa [cbs_defuse] at hq)
        · exact ready_resume C hx h1 h2
      exact ih (ready_iff key.1 fun q => ⟨False.elim, fun hm => absurd hm (hn q)⟩) (fun q hq => absurd hq (hn q)) hc' ho' (fun c hc => (hk' c hc).trans_le key.2) hi'
    | interrupt p => exact absurd (List.mem_cons_self ..) (hi p)
    | check c =>
      obtain ⟨h1, h2⟩ := hrest (by simp)
      unfold callback
      dsimp only
      by_cases ht : s.triggered c = true
      · rw [if_pos ht]; exact ih h1 h2 hc' ho' hk' hi'
      · rw [if_neg ht]
        have ht : s.triggered c = false := by simpa using ht
        have hlt := hk c (.head _)
        rcases v with x | v
        · have ht' : (s.defuse ev).triggered c = false := (triggered_defuse s ev c).trans ht
          exact ih (ready_trigger (ready_defuse h1) hlt ht') (loaded_trigger (loaded_defuse h2) (ready_defuse h1).poised ht') hc' ho' hk' hi'
        · exact ih (ready_trigger h1 hlt ht) (loaded_trigger h2 h1.poised ht) hc' ho' hk' hi'
    | build c a b =>
      obtain ⟨h1, h2⟩ := hrest (by simp)
      exact ih (ready_drop (ready_drop h1 (by simp) (fun _ h => h) fun _ h => .inl h) (by simp) (fun _ h => h) fun _ h => .inl h) (loaded_drop (loaded_drop h2 (by simp)) (by simp)) hc' ho' hk' hi'
    | stop =>
      obtain ⟨h1, h2⟩ := hrest (by simp)
      exact ih h1 h2 hc' ho' hk' hi'

/-- What the next interruption finds: for a module that works there is a request. -/
theorem primed_struck {rf : ℚ} {en : Entry} {q : List Entry} {pt : Pt} (h : Ready (fun _ => 0) (fun _ => False) s) (hf : Fine rf s) (ha : Awake (fun _ => False) s) (hq : s.queue = en :: q) (hm : .interrupt p ∈ s.cbs en.ev) (hp : s.points p = some pt) :
    Ready (fun _ => 0) (fun r => r = p) ((s.taken en q).dropCallback (s.target p) (.resume p)) ∧ Primed p pt (.error .interrupt) ((s.taken en q).dropCallback (s.target p) (.resume p)) := by
  have hi := hf.1
  have hc := (h.poised.intr en.ev p hm).1
  have htk := strikes_taken hq p
  rw [if_pos hm] at htk
  have hsame := same_drop (s := s.taken en q) (ev := s.target p) (c := .resume p) (by simp)
  refine ⟨ready_drop (ready_taken h hi ha hq) (by simp) (fun r hr => ?_) (fun r hr => .inr ?_), ?_⟩
  · unfold Resumed at hr
    rw [hc] at hr; simp at hr
  · subst hr
    refine ⟨h.poised.born r pt hp, fun ev hm => ?_⟩
    rw [cbs_dropped] at hm
    split at hm
    · rename_i he
      have h1 := (mem_taken (List.mem_of_mem_erase hm)).2
      have h2 : (s.cbs ev).count (.resume r) ≤ 1 := hi.once ev r
      have h3 : (s.taken en q).cbs ev = s.cbs ev := by rw [cbs_taken, if_neg (mem_taken (List.mem_of_mem_erase hm)).1]
      rw [h3] at hm
      have h4 := List.count_pos_iff.2 hm
      rw [List.count_erase_self] at h4
      omega
    · rename_i he
      exact he ((hi.res _ _ (mem_taken hm).2).1.symm)
  · refine primed_same (s := s.taken en q) ⟨hp, fun n hn => h.poised.kind p pt n hp id hn, fun n hn => ?_, (fun v hv => by cases hv), fun n hn => ?_, fun hm => main_two hf.2 hp hm⟩ rfl rfl hsame fun a ha => (triggered_drop _ _ _ a).trans ha
    · have := h.poised.newb p n (hn ▸ hp) id
      omega
    · obtain ⟨h1, h2⟩ := h.poised.busy p pt n hp id hn
      exact ⟨h1.imp fun a y => y.imp_right fun y => (triggered_taken s en q a).trans y, .inr (htk.trans h2)⟩

theorem ready_called (C : Cfg) {rf : ℚ} {en : Entry} {q : List Entry} (h : Ready (fun _ => 0) (fun _ => False) s) (hf : Fine rf s) (ha : Awake (fun _ => False) s) (hq : s.queue = en :: q) :
    Ready (fun _ => 0) (fun _ => False) (s.called C en q) := by
  by_cases hint : ∃ p, .interrupt p ∈ s.cbs en.ev
  · obtain ⟨p, hm⟩ := hint
    have hc := (h.poised.intr en.ev p hm).1
    have hv := (hf.1.intr en.ev p hm).1
    unfold Sim.called
    rw [hc, hv]
    show Ready _ _ (callback C en.ev (.error .interrupt) (s.taken en q) (.interrupt p))
    unfold callback
    dsimp only
    have ht := ready_taken h hf.1 ha hq
    have hx : ∀ r, Resumed (s.cbs en.ev) r ↔ False := fun r => ⟨fun hr => by unfold Resumed at hr; rw [hc] at hr; simp at hr, False.elim⟩
    split
    · exact ready_iff ht hx
    · cases hp : s.points p with
      | none =>
        unfold Sim.resume
        have : ((s.taken en q).dropCallback ((s.taken en q).target p) (.resume p)).points p = Option.none := hp
        rw [this]
        exact ready_drop (ready_iff ht hx) (by simp) (fun _ h => h) fun _ h => .inl h
      | some pt =>
        obtain ⟨h1, h2⟩ := primed_struck h hf ha hq hm hp
        refine (ready_resume C h1 h2 fun r hr => ?_).1
        refine calm_untriggered h.poised ?_ r (mem_taken (mem_drop hr)).2
        unfold Sim.triggered
        rw [hf.1.live p (by rw [hp]; rfl)]; rfl
  · exact ready_callbacks C _ (ready_taken h hf.1 ha hq) (loaded_taken h hf hq) (hf.1.once en.ev) (fun p r h1 h2 => h.poised.one en.ev p r h1 h2) (fun c hc => (hf.1.chk _ c hc).1) fun p hp => hint ⟨p, hp⟩

theorem ready_step {C : Cfg} {rf : ℚ} {r : Stepped} (h : Ready (fun _ => 0) (fun _ => False) s) (hf : Fine rf s) (ha : Awake (fun _ => False) s) (hs : s.step C = r) :
    match r with | .ok s' => Ready (fun _ => 0) (fun _ => False) s' | .stopped s' => Ready (fun _ => 0) (fun _ => False) s' | .raised s' _ => Ready (fun _ => 0) (fun _ => False) s' | .empty => True := by
  rcases step_cases hs with ⟨rfl, _⟩ | ⟨en, q, hq, ⟨hst, rfl⟩ | ⟨_, rfl | ⟨x, rfl⟩⟩⟩
  · trivial
  · exact ready_iff (ready_taken h hf.1 ha hq) fun p => ⟨fun hp => (ha.stops _ hst).1 p hp, False.elim⟩
  · exact ready_called C h hf ha hq
  · exact ready_called C h hf ha hq

end Verif
