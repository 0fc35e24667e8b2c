import Verif.Lemmas.Twin2
/-! # Steps of simulations that are alike -/
namespace Verif

variable {R : ℕ → ℕ → Prop} {E E' : Option Entry} {s s' : Sim} {a b : ℕ} {C : Cfg}

theorem both_code {pt pt' : Pt} (h : Twin R E E' s s') (hp : PtTwin (Corr R s s') pt pt') (x : Except PyErr SVal) : Both R E E' s s' (code C pt x s) (code C pt' x s') (Ways R) := by
  cases hp with
  | main hpq => exact both_extraAfterMain h _ hpq x
  | env hpq =>
    cases x with
    | error x => exact both_throw h
    | ok v => exact both_bind (both_envNext h hpq) fun s1 s1' _ _ h1 _ _ _ => both_envAdvance h1 _
  | other h1 h2 =>
    cases pt with
    | extraMain n p => exact absurd rfl (h1 n p)
    | envWait p k => exact absurd rfl (h2 p k)
    | localWait n e k => exact both_localResume h n e k x
    | extraCont n => exact both_extraAfterCont h n x
    | envProc e => exact both_envProcResume h e x
    | procNew => cases x with
      | error x => exact both_throw h
      | ok v => exact both_procCycle h (fun _ _ => by simp) (fun _ _ => by simp)
    | procFirst => cases x with
      | error x => exact both_throw h
      | ok v => exact both_bind (both_procsReturned h v) fun s1 s1' _ _ h1 _ _ _ => both_procLoop h1
    | procIdle => cases x with
      | error x => exact both_throw h
      | ok v => exact both_procSpins h 4
    | procSpin n => cases x with
      | error x => exact both_throw h
      | ok v => cases n with
        | zero => exact both_procCycle h (fun _ _ => by simp) (fun _ _ => by simp)
        | succ n => exact both_procSpins h n
    | procAgain => cases x with
      | error x => exact both_throw h
      | ok v =>
        refine both_bind (both_procsReturned h v) fun s1 s1' _ _ h1 _ _ _ => both_bind (both_newEvent h1) fun s2 s2' u v h2 _ _ huv =>
          both_bind (P := SameRes) (m := SimM.set fun s => { s with procActivate := u }) (m' := SimM.set fun s => { s with procActivate := v }) ⟨?_, le_rfl, le_rfl, .ok rfl⟩ fun s3 s3' _ _ h3 _ _ _ => both_procLoop h3
        exact ⟨h2.one, h2.now, h2.w, h2.interruptibles, h2.started, h2.envArgs, h2.trace, h2.grow, h2.events, h2.points, h2.target, h2.activate, h2.extra, huv, h2.envActivate, h2.queue, h2.gap, h2.gap', h2.stop, h2.stop', h2.fresh, h2.fresh'⟩
    | extraNew n => cases x with
      | error x => exact both_throw h
      | ok v => exact both_extraLoop h n
    | extraIdle n => cases x with
      | error x => exact both_throw h
      | ok v => exact both_bind (both_renewActivate h n) fun s1 s1' _ _ h1 _ _ _ => both_extraLoop h1 n
    | localNew n g => cases x with
      | error x => exact both_throw h
      | ok v =>
        refine both_bind (both_get h (P := SameRes) h.w) fun s1 s1' w w' h1 _ _ e1 => ?_
        cases e1
        exact both_localRun h1 n _
    | envNew => cases x with
      | error x => exact both_throw h
      | ok v => exact both_envStart h
    | envProcNew e => cases x with
      | error x => exact both_throw h
      | ok v => exact both_envProcStart h e

/-- The simulations stay alike, and their events remain. -/
structure Kept2 (R : ℕ → ℕ → Prop) (E E' : Option Entry) (s s' s1 s1' : Sim) : Prop where
  twin : Twin R E E' s1 s1'
  next : s.next ≤ s1.next
  next' : s'.next ≤ s1'.next

theorem Kept2.trans {s1 s1' s2 s2' : Sim} (h : Kept2 R E E' s s' s1 s1') (h' : Kept2 R E E' s1 s1' s2 s2') : Kept2 R E E' s s' s2 s2' := ⟨h'.twin, h.next.trans h'.next, h.next'.trans h'.next'⟩

theorem kin_resume {p q : ℕ} (h : Twin R E E' s s') (hpq : Corr R s s' p q) (x : Except PyErr SVal) : Kept2 R E E' s s' (s.resume C p x) (s'.resume C q x) := by
  unfold Sim.resume
  have hp := h.points p q hpq.1
  revert hp
  generalize s.points p = o; generalize s'.points q = o'
  intro hp
  cases hp with
  | none => exact ⟨h, le_rfl, le_rfl⟩
  | @some pt pt' hp =>
    dsimp only
    have hb := both_code (C := C) h hp x
    rcases hm : code C pt x s with ⟨s1, y⟩
    rcases hm' : code C pt' x s' with ⟨s1', y'⟩
    rw [hm, hm'] at hb
    obtain ⟨h1, n1, n1', ho⟩ := hb
    dsimp only at h1 n1 n1' ho
    have hc := hpq.mono n1 n1'
    cases ho with
    | error x => exact ⟨twin_trigger (twin_endpoint h1 hc) hc _, n1, n1'⟩
    | ok hw =>
      cases hw with
      | wait hev hpt => exact ⟨twin_addCallback (twin_point h1 hc (.some hpt) hev) hev (.resume hc), n1, n1'⟩
      | done => exact ⟨twin_trigger (twin_endpoint h1 hc) hc _, n1, n1'⟩

theorem kin_callback (h : Twin R E E' s s') (hab : Corr R s s' a b) (v : Except PyErr SVal) {c d : Callback} (hcd : CbTwin (Corr R s s') c d) : Kept2 R E E' s s' (callback C a v s c) (callback C b v s' d) := by
  cases hcd with
  | resume hpq => cases v with
    | ok v => exact kin_resume h hpq _
    | error x =>
      obtain ⟨h1, h2, h3⟩ := kin_resume (C := C) (x := .error x) (twin_defuse h hab) hpq
      exact ⟨h1, h2, h3⟩
  | interrupt hpq =>
    simp only [callback, twin_triggered h hpq.1]
    split
    · exact ⟨h, le_rfl, le_rfl⟩
    · obtain ⟨h1, h2, h3⟩ := kin_resume (C := C) (x := v) (twin_dropCallback h (h.target _ _ hpq.1) (.resume hpq)) hpq
      exact ⟨h1, h2, h3⟩
  | check hpq =>
    simp only [callback, twin_triggered h hpq.1]
    split
    · exact ⟨h, le_rfl, le_rfl⟩
    · cases v with
      | ok v => exact ⟨twin_trigger h hpq _, le_rfl, le_rfl⟩
      | error x => exact ⟨twin_trigger (twin_defuse h hab) hpq _, le_rfl, le_rfl⟩
  | build h1 h2 h3 => exact ⟨twin_dropCallback (twin_dropCallback h h2 (.check h1)) h3 (.check h1), le_rfl, le_rfl⟩

theorem kin_callbacks (v : Except PyErr SVal) : ∀ {l l' : List Callback} {s s' : Sim}, Twin R E E' s s' → Corr R s s' a b → List.Forall₂ (CbTwin (Corr R s s')) l l' →
    Kept2 R E E' s s' (l.foldl (callback C a v) s) (l'.foldl (callback C b v) s')
  | _, _, _, _, h, _, .nil => ⟨h, le_rfl, le_rfl⟩
  | _ :: r, _ :: r', s, s', h, hab, .cons hx hr => by
    have h1 := kin_callback (C := C) h hab v hx
    have hm : ∀ a b, Corr R s s' a b → Corr R _ _ a b := fun a b hc => hc.mono h1.next h1.next'
    exact h1.trans (kin_callbacks v h1.twin (hm _ _ hab) (hr.imp fun _ _ hx => hx.mono hm))

/-! ## Steps -/

/-- The same step in both simulations. -/
def StepBoth (C : Cfg) (R : ℕ → ℕ → Prop) (E E' : Option Entry) (s s' : Sim) : Prop :=
  ∃ s1 s1', Twin R E E' s1 s1' ∧ ((s.step C = .ok s1 ∧ s'.step C = .ok s1') ∨ ∃ x, s.step C = .raised s1 x ∧ s'.step C = .raised s1' x)

/-- The next event of both is the same. -/
theorem twin_pop (h : Twin R E E' s s') {x x' : Entry} {Q Q' : List Entry} (h1 : s.queue = x :: withEntry E Q) (h2 : s'.queue = x' :: withEntry E' Q') (h3 : List.Forall₂ (EnTwin (Corr R s s')) (x :: Q) (x' :: Q'))
    (h4 : (x :: Q).Pairwise Entry.upTo) (h5 : s.now ≤ x.time) (h6 : ∀ en ∈ Q, en.urgent = true → en.time ≤ s.now) (hg : ∀ e, E = some e → x.time < e.time) (hg' : ∀ e, E' = some e → x.time < e.time) :
    StepBoth C R E E' s s' := by
  cases h3 with
  | cons hx hr =>
  have h4' := List.pairwise_cons.1 h4
  have hev := h.events _ _ hx.ev.1
  let s1 : Sim := { s with now := x.time, queue := withEntry E Q, events := fset s.events x.ev { s.events x.ev with callbacks := Option.none } }
  let s1' : Sim := { s' with now := x'.time, queue := withEntry E' Q', events := fset s'.events x'.ev { s'.events x'.ev with callbacks := Option.none } }
  have k0 := twin_event h hx.ev (x := { s.events x.ev with callbacks := Option.none }) (y := { s'.events x'.ev with callbacks := Option.none }) ⟨hev.value, hev.defused, .none⟩
  have k1 : Twin R E E' s1 s1' :=
    ⟨k0.one, hx.time, k0.w, k0.interruptibles, k0.started, k0.envArgs, k0.trace, k0.grow, k0.events, k0.points, k0.target, k0.activate, k0.extra, k0.procActivate, k0.envActivate,
      ⟨Q, Q', rfl, rfl, hr, h4'.2, fun en he => upTo_le (h4'.1 en he), fun en he hu => (h6 en he hu).trans h5⟩, fun e he => ⟨(h.gap e he).1, hg e he⟩, fun e he => ⟨(h.gap' e he).1, hg' e he⟩, k0.stop, k0.stop', k0.fresh, k0.fresh'⟩
  have hcb : List.Forall₂ (CbTwin (Corr R s s')) ((s.events x.ev).callbacks.getD []) ((s'.events x'.ev).callbacks.getD []) := by
    have := hev.callbacks
    revert this
    generalize (s.events x.ev).callbacks = o; generalize (s'.events x'.ev).callbacks = o'
    intro h1
    cases h1 with
    | none => exact .nil
    | some h1 => exact h1
  have hno : ∀ {l l' : List Callback}, List.Forall₂ (CbTwin (Corr R s s')) l l' → l.contains .stop = false ∧ l'.contains .stop = false := by
    intro l l' hl
    induction hl with
    | nil => exact ⟨rfl, rfl⟩
    | cons hc _ ih =>
      rw [List.contains_cons, List.contains_cons, ih.1, ih.2]
      cases hc <;> exact ⟨rfl, rfl⟩
  have hvv : (s'.events x'.ev).value.getD (.ok .nothing) = (s.events x.ev).value.getD (.ok .nothing) := by rw [hev.value]
  have k2 := kin_callbacks (C := C) (a := x.ev) (b := x'.ev) ((s.events x.ev).value.getD (.ok .nothing)) k1 hx.ev hcb
  have hd := (k2.twin.events _ _ hx.ev.1).defused
  refine ⟨_, _, k2.twin, ?_⟩
  revert hd
  unfold Sim.step
  rw [h1, h2]
  dsimp only
  rw [(hno hcb).1, (hno hcb).2, hvv]
  simp only [Bool.false_eq_true, if_false]
  change _ = _ → _
  generalize (s.events x.ev).value.getD (.ok .nothing) = v
  intro hd
  cases v with
  | ok v => exact .inl ⟨rfl, rfl⟩
  | error y =>
    dsimp only
    by_cases hf : ((((s.events x.ev).callbacks.getD []).foldl (callback C x.ev (.error y)) s1).events x.ev).defused = true
    · exact .inl ⟨if_pos hf, if_pos (hd ▸ hf)⟩
    · exact .inr ⟨y, if_neg hf, if_neg (hd ▸ hf)⟩

/-- One of them is stopped. -/
def AtStop (R : ℕ → ℕ → Prop) (e e' : Entry) (s s' : Sim) : Prop :=
  ∃ Q Q', s.queue = insertEntry e Q ∧ s'.queue = e' :: Q' ∧ List.Forall₂ (EnTwin (Corr R s s')) Q Q' ∧ Q.Pairwise Entry.upTo ∧ (∀ en ∈ Q, e'.time ≤ en.time) ∧ ∀ en ∈ Q, en.urgent = false

theorem twin_step {e e' : Entry} (h : Twin R (some e) (some e') s s') (he : e'.time ≤ e.time) : AtStop R e e' s s' ∨ StepBoth C R (some e) (some e') s s' := by
  obtain ⟨Q, Q', h1, h2, h3, h4, h5, h6⟩ := h.queue
  obtain ⟨hu, hl⟩ := h.gap e rfl
  obtain ⟨hu', hl'⟩ := h.gap' e' rfl
  cases h3 with
  | nil => exact .inl ⟨[], [], h1, h2, .nil, .nil, (fun _ h => by cases h), (fun _ h => by cases h)⟩
  | @cons x x' Q Q' hx hr =>
    by_cases hb : x.time < e'.time
    · refine .inr (twin_pop h (x := x) (x' := x') (Q := Q) (Q' := Q') ?_ ?_ (.cons hx hr) h4 (h5 x (.head _)) (fun en hen => h6 en (.tail _ hen)) (fun e1 h1 => ?_) (fun e1 h1 => ?_))
      · rw [h1]; show insertEntry e (x :: Q) = x :: insertEntry e Q
        rw [insertEntry, if_pos (before_iff.2 (.inl (hb.trans_le he)))]
      · rw [h2]; show insertEntry e' (x' :: Q') = x' :: insertEntry e' Q'
        rw [insertEntry, if_pos (before_iff.2 (.inl (by rw [← hx.time]; exact hb)))]
      · cases h1; exact hb.trans_le he
      · cases h1; exact hb
    · have hall : ∀ en ∈ x :: Q, e'.time ≤ en.time := fun en hen => by
        rcases List.mem_cons.1 hen with rfl | hen
        · exact not_lt.1 hb
        · exact (not_lt.1 hb).trans (upTo_le ((List.pairwise_cons.1 h4).1 en hen))
      have hurg : ∀ en ∈ x :: Q, en.urgent = false := fun en hen => by
        cases hue : en.urgent with
        | false => rfl
        | true => exact absurd (h6 en hen hue) (not_le.2 (hl'.trans_le (hall en hen)))
      refine .inl ⟨x :: Q, x' :: Q', h1, ?_, .cons hx hr, h4, hall, hurg⟩
      rw [h2]; show insertEntry e' (x' :: Q') = _
      rw [insertEntry, if_neg]
      intro hn
      rcases before_iff.1 hn with hn | ⟨_, hn | hn⟩
      · exact hb (by rw [hx.time]; exact hn)
      · rw [← hx.urgent, hurg x (.head _)] at hn; cases hn
      · rw [hu'] at hn; cases hn

theorem twin_step_free (h : Twin R Option.none Option.none s s') : (s.step C = .empty ∧ s'.step C = .empty) ∨ StepBoth C R Option.none Option.none s s' := by
  obtain ⟨Q, Q', h1, h2, h3, h4, h5, h6⟩ := h.queue
  cases h3 with
  | nil =>
    left
    unfold Sim.step
    rw [h1, h2]
    exact ⟨rfl, rfl⟩
  | @cons x x' Q Q' hx hr =>
    exact .inr (twin_pop h (x := x) (x' := x') (Q := Q) (Q' := Q') h1 h2 (.cons hx hr) h4 (h5 x (.head _)) (fun en hen => h6 en (.tail _ hen)) (fun e1 h1 => by cases h1) (fun e1 h1 => by cases h1))

end Verif
