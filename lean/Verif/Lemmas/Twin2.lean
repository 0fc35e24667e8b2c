import Verif.Lemmas.Twin
/-! # Code of simulations that are alike -/
namespace Verif

variable {R : ℕ → ℕ → Prop} {E E' : Option Entry} {s s' s0 s0' : Sim} {a b : ℕ} {A B A' B' : Type}

/-- Two outcomes that correspond to each other. -/
inductive Outcomes {A B : Type} (P : A → B → Prop) : Except PyErr A → Except PyErr B → Prop
  | ok {a : A} {b : B} : P a b → Outcomes P (.ok a) (.ok b)
  | error (x : PyErr) : Outcomes P (.error x) (.error x)

/-- Two pieces of code that do the same. -/
structure Both (R : ℕ → ℕ → Prop) (E E' : Option Entry) (s s' : Sim) (r : Sim × Except PyErr A) (r' : Sim × Except PyErr B) (P : Sim → Sim → A → B → Prop) : Prop where
  twin : Twin R E E' r.1 r'.1
  next : s.next ≤ r.1.next
  next' : s'.next ≤ r'.1.next
  outcome : Outcomes (P r.1 r'.1) r.2 r'.2

/-- The same result. -/
abbrev SameRes {A : Type} (_ _ : Sim) (a b : A) : Prop := a = b

/-- Events that correspond to each other. -/
abbrev Evs (R : ℕ → ℕ → Prop) (s s' : Sim) (a b : ℕ) : Prop := Corr R s s' a b

/-- Ways to go on that correspond to each other. -/
abbrev Ways (R : ℕ → ℕ → Prop) (s s' : Sim) (a b : Res) : Prop := ResTwin (Corr R s s') a b

theorem both_ok (h : Twin R E E' s s') {P : Sim → Sim → A → B → Prop} {x : A} {y : B} (hp : P s s' x y) : Both R E E' s s' (s, .ok x) (s', .ok y) P := ⟨h, le_rfl, le_rfl, .ok hp⟩
theorem both_error (h : Twin R E E' s s') {P : Sim → Sim → A → B → Prop} {x : PyErr} : Both R E E' s s' ((s, .error x) : Sim × Except PyErr A) ((s', .error x) : Sim × Except PyErr B) P := ⟨h, le_rfl, le_rfl, .error x⟩

theorem both_pure (h : Twin R E E' s s') {P : Sim → Sim → A → B → Prop} {x : A} {y : B} (hp : P s s' x y) : Both R E E' s s' ((pure x : SimM A) s) ((pure y : SimM B) s') P := both_ok h hp
theorem both_throw (h : Twin R E E' s s') {P : Sim → Sim → A → B → Prop} {x : PyErr} : Both R E E' s s' ((SimM.throw x : SimM A) s) ((SimM.throw x : SimM B) s') P := both_error h
theorem both_get (h : Twin R E E' s s') {P : Sim → Sim → A → B → Prop} {f : Sim → A} {g : Sim → B} (hp : P s s' (f s) (g s')) : Both R E E' s s' (SimM.get f s) (SimM.get g s') P := both_ok h hp
theorem both_set {f g : Sim → Sim} {P : Sim → Sim → Unit → Unit → Prop} (h : Twin R E E' (f s) (g s')) (h1 : s.next ≤ (f s).next) (h2 : s'.next ≤ (g s').next) (hp : P (f s) (g s') () ()) :
    Both R E E' s s' (SimM.set f s) (SimM.set g s') P := ⟨h, h1, h2, .ok hp⟩

theorem both_bind {m : SimM A} {m' : SimM A'} {f : A → SimM B} {f' : A' → SimM B'} {P : Sim → Sim → A → A' → Prop} {Q : Sim → Sim → B → B' → Prop} (h : Both R E E' s s' (m s) (m' s') P)
    (hf : ∀ s1 s1' x y, Twin R E E' s1 s1' → s.next ≤ s1.next → s'.next ≤ s1'.next → P s1 s1' x y → Both R E E' s1 s1' (f x s1) (f' y s1') Q) : Both R E E' s s' ((m >>= f) s) ((m' >>= f') s') Q := by
  show Both R E E' s s' (SimM.bind m f s) (SimM.bind m' f' s') Q
  unfold SimM.bind
  rcases hm : m s with ⟨s1, x⟩
  rcases hm' : m' s' with ⟨s1', y⟩
  rw [hm, hm'] at h
  obtain ⟨h1, h2, h3, h4⟩ := h
  dsimp only at h1 h2 h3 h4
  cases h4 with
  | error x => exact ⟨h1, h2, h3, .error x⟩
  | ok hp =>
    obtain ⟨k1, k2, k3, k4⟩ := hf s1 s1' _ _ h1 h2 h3 hp
    exact ⟨k1, h2.trans k2, h3.trans k3, k4⟩

/-! ## Events -/

theorem corr_new (h : Twin R E E' s s') {s1 s1' : Sim} (h1 : s.next < s1.next) (h2 : s'.next < s1'.next) : Corr R s1 s1' s.next s'.next := ⟨h.grow 0, h1, h2⟩

theorem both_newEvent (h : Twin R E E' s s') : Both R E E' s s' (newEvent s) (newEvent s') (Evs R) :=
  ⟨twin_alloc h ⟨rfl, rfl, .some .nil⟩, Nat.le_succ _, Nat.le_succ _, .ok (corr_new h (Nat.lt_succ_self _) (Nat.lt_succ_self _))⟩

theorem both_succeed (h : Twin R E E' s s') (hc : Corr R s s' a b) : Both R E E' s s' (succeed a s) (succeed b s') SameRes := by
  unfold succeed
  rw [twin_triggered h hc.1]
  split
  · exact both_error h
  · exact ⟨twin_trigger h hc _, le_rfl, le_rfl, .ok rfl⟩

theorem both_timeout (h : Twin R E E' s s') (d : ℚ) : Both R E E' s s' (timeout d s) (timeout d s') (Evs R) := by
  unfold timeout
  split
  · exact both_error h
  · rename_i hd
    have h1 := twin_alloc h (x := ⟨some (.ok .nothing), false, some []⟩) (y := ⟨some (.ok .nothing), false, some []⟩) ⟨rfl, rfl, .some .nil⟩
    have hc := corr_new h (Nat.lt_succ_self s.next) (Nat.lt_succ_self s'.next) (s1 := s.alloc ⟨some (.ok .nothing), false, some []⟩) (s1' := s'.alloc ⟨some (.ok .nothing), false, some []⟩)
    exact ⟨twin_schedule h1 hc false (not_lt.1 hd) (fun h => by cases h), Nat.le_succ _, Nat.le_succ _, .ok hc⟩

theorem both_process (h : Twin R E E' s s') {pt pt' : Pt} (hp : PtTwin (Corr R s s') pt pt') : Both R E E' s s' (process pt s) (process pt' s') (Evs R) := by
  have h1 := twin_alloc h (x := ⟨Option.none, false, some []⟩) (y := ⟨Option.none, false, some []⟩) ⟨rfl, rfl, .some .nil⟩
  have hc : ∀ {s1 s1' : Sim}, s.next < s1.next → s'.next < s1'.next → Corr R s1 s1' s.next s'.next := fun h1 h2 => corr_new h h1 h2
  have h2 := twin_alloc h1 (x := ⟨some (.ok .nothing), false, some [.resume s.next]⟩) (y := ⟨some (.ok .nothing), false, some [.resume s'.next]⟩)
    ⟨rfl, rfl, .some (.cons (.resume (hc (by show s.next < s.next + 1 + 1; omega) (by show s'.next < s'.next + 1 + 1; omega))) .nil)⟩
  have hc1 : ∀ {s1 s1' : Sim}, s.next + 1 < s1.next → s'.next + 1 < s1'.next → Corr R s1 s1' (s.next + 1) (s'.next + 1) := fun h1 h2 => ⟨h.grow 1, h1, h2⟩
  have h3 := twin_schedule h2 (a := s.next + 1) (b := s'.next + 1) (hc1 (Nat.lt_succ_self _) (Nat.lt_succ_self _)) true (d := 0) le_rfl (fun _ => rfl)
  refine ⟨twin_point h3 (a := s.next) (b := s'.next) (x := some pt) (y := some pt') (hc ?_ ?_) (.some (hp.mono fun _ _ hc => hc.mono ?_ ?_)) (c := s.next + 1) (d := s'.next + 1) (hc1 (Nat.lt_succ_self _) (Nat.lt_succ_self _)),
    ?_, ?_, .ok (hc ?_ ?_)⟩
  · show s.next < s.next + 1 + 1; omega
  · show s'.next < s'.next + 1 + 1; omega
  · show s.next ≤ s.next + 1 + 1; omega
  · show s'.next ≤ s'.next + 1 + 1; omega
  · show s.next ≤ s.next + 1 + 1; omega
  · show s'.next ≤ s'.next + 1 + 1; omega
  · show s.next < s.next + 1 + 1; omega
  · show s'.next < s'.next + 1 + 1; omega

theorem both_interrupt (h : Twin R E E' s s') (hc : Corr R s s' a b) : Both R E E' s s' (interruptProcess a s) (interruptProcess b s') SameRes := by
  unfold interruptProcess
  rw [twin_triggered h hc.1]
  split
  · exact both_error h
  · have h1 := twin_alloc h (x := ⟨some (.error .interrupt), true, some [.interrupt a]⟩) (y := ⟨some (.error .interrupt), true, some [.interrupt b]⟩)
      ⟨rfl, rfl, .some (.cons (.interrupt (hc.mono (Nat.le_succ _) (Nat.le_succ _))) .nil)⟩
    exact ⟨twin_schedule h1 (corr_new h (Nat.lt_succ_self _) (Nat.lt_succ_self _)) true le_rfl (fun _ => rfl), Nat.le_succ _, Nat.le_succ _, .ok rfl⟩

theorem twin_check {c d : ℕ} (h : Twin R E E' s s') (hc : Corr R s s' c d) (hab : Corr R s s' a b) :
    Twin R E E' (if s.processed a then (if s.triggered c then s else s.trigger c (.ok .nothing)) else s.addCallback a (.check c))
      (if s'.processed b then (if s'.triggered d then s' else s'.trigger d (.ok .nothing)) else s'.addCallback b (.check d)) ∧
    (if s.processed a then (if s.triggered c then s else s.trigger c (.ok .nothing)) else s.addCallback a (.check c)).next = s.next ∧
    (if s'.processed b then (if s'.triggered d then s' else s'.trigger d (.ok .nothing)) else s'.addCallback b (.check d)).next = s'.next := by
  rw [twin_processed h hab.1, twin_triggered h hc.1]
  split
  · split
    · exact ⟨h, rfl, rfl⟩
    · exact ⟨twin_trigger h hc _, rfl, rfl⟩
  · exact ⟨twin_addCallback h hab (.check hc), rfl, rfl⟩

theorem both_anyOf {c d : ℕ} (h : Twin R E E' s s') (hab : Corr R s s' a b) (hcd : Corr R s s' c d) : Both R E E' s s' (anyOf a c s) (anyOf b d s') (Evs R) := by
  have h1 := twin_alloc h (x := ⟨Option.none, false, some [.build s.next a c]⟩) (y := ⟨Option.none, false, some [.build s'.next b d]⟩)
    ⟨rfl, rfl, .some (.cons (.build (corr_new h (Nat.lt_succ_self _) (Nat.lt_succ_self _)) (hab.mono (Nat.le_succ _) (Nat.le_succ _)) (hcd.mono (Nat.le_succ _) (Nat.le_succ _))) .nil)⟩
  have hn : ∀ {s1 s1' : Sim}, s1.next = s.next + 1 → s1'.next = s'.next + 1 → Corr R s1 s1' s.next s'.next := fun h1 h2 => corr_new h (by omega) (by omega)
  obtain ⟨h2, e2, e2'⟩ := twin_check h1 (hn rfl rfl) (hab.mono (Nat.le_succ _) (Nat.le_succ _))
  obtain ⟨h3, e3, e3'⟩ := twin_check h2 (hn e2 e2') (hcd.mono (by rw [e2]; exact Nat.le_succ _) (by rw [e2']; exact Nat.le_succ _))
  have e : (anyOf a c s).1.next = s.next + 1 := e3.trans e2
  have e' : (anyOf b d s').1.next = s'.next + 1 := e3'.trans e2'
  exact ⟨h3, by rw [e]; omega, by rw [e']; omega, .ok (hn e e')⟩

/-! ## Reporting -/

theorem both_data (h : Twin R E E' s s') {f g : Sim → Sim} (hf : ∃ w i st tr, f s = { s with w := w, interruptibles := i, started := st, trace := tr } ∧ g s' = { s' with w := w, interruptibles := i, started := st, trace := tr }) :
    Both R E E' s s' (SimM.set f s) (SimM.set g s') SameRes := by
  obtain ⟨w, i, st, tr, h1, h2⟩ := hf
  refine both_set (by rw [h1, h2]; exact twin_data h w i st tr) (by rw [h1]) (by rw [h2]) rfl

theorem both_w (h : Twin R E E' s s') (w : Mach) : Both R E E' s s' (SimM.set (fun s => { s with w := w }) s) (SimM.set (fun s => { s with w := w }) s') SameRes :=
  both_data h ⟨w, s.interruptibles, s.started, s.trace, rfl, by rw [h.interruptibles, h.started, h.trace]⟩

theorem both_onW (h : Twin R E E' s s') (f : Mach → Mach) : Both R E E' s s' (SimM.set (fun s => { s with w := f s.w }) s) (SimM.set (fun s => { s with w := f s.w }) s') SameRes :=
  both_data h ⟨f s.w, s.interruptibles, s.started, s.trace, rfl, by rw [h.w, h.interruptibles, h.started, h.trace]⟩

theorem both_activateProc (h : Twin R E E' s s') (e : Ev) : Both R E E' s s' (activateProc e s) (activateProc e s') SameRes := by
  have hc : activateProc e = (pure () : SimM Unit) ∨ activateProc e = fun s => if s.triggered s.procActivate then (s, .ok ()) else succeed s.procActivate s := by
    unfold activateProc
    split
    · exact .inl rfl
    · by_cases hp : e.proc = procName
      · exact .inl (if_pos hp)
      · exact .inr (if_neg hp)
  rcases hc with hc | hc
  · rw [hc]; exact both_pure h rfl
  · rw [hc]
    dsimp only
    rw [twin_triggered h h.procActivate.1]
    split
    · exact both_ok h rfl
    · exact both_succeed h h.procActivate

theorem both_printEvent (h : Twin R E E' s s') (e : Ev) : Both R E E' s s' (printEvent e s) (printEvent e s') SameRes := by
  have hc : printEvent e = (pure () : SimM Unit) ∨ printEvent e = SimM.set (fun s => { s with trace := s.trace ++ [(s.now, e)] }) := by
    unfold printEvent
    split
    · exact .inl rfl
    · exact .inr rfl
  rcases hc with hc | hc
  · rw [hc]; exact both_pure h rfl
  · rw [hc]
    exact both_data h ⟨s.w, s.interruptibles, s.started, s.trace ++ [(s.now, e)], rfl, by rw [h.w, h.interruptibles, h.started, h.trace, h.now]⟩

theorem both_envInteraction (h : Twin R E E' s s') : Both R E E' s s' (envInteraction s) (envInteraction s') SameRes := by
  unfold envInteraction
  rw [← h.w]
  split
  · exact both_ok h rfl
  · dsimp only
    split
    · exact both_bind (m := succeed s.envActivate) (m' := succeed s'.envActivate) (both_succeed h h.envActivate) fun s1 s1' _ _ h1 _ _ _ => both_onW h1 (fun w => { w with interaction := [] })
    · exact both_onW h (fun w => { w with interaction := [] })

/-! ## Processes of modules -/

theorem both_localRun (h : Twin R E E' s s') (name : String) (o : Out Mach YV Unit) : Both R E E' s s' (localRun name o s) (localRun name o s') (Ways R) := by
  cases o with
  | yield w y k => cases y with
    | ev e =>
      refine both_bind (both_w h w) fun s1 s1' _ _ h1 _ _ _ => both_bind (both_get h1 (P := SameRes) h1.now) fun s2 s2' t t' h2 _ _ e2 => ?_
      cases e2
      exact both_bind (both_timeout h2 _) fun s3 s3' t t' h3 _ _ e3 => both_pure h3 (.wait e3 (.other (fun _ _ => by simp) (fun _ _ => by simp)))
    | cont d => exact both_bind (both_w h w) fun s1 s1' _ _ h1 _ _ _ => both_pure h1 .done
    | procs => exact both_bind (both_w h w) fun s1 s1' _ _ h1 _ _ _ => both_pure h1 .done
    | nothing => exact both_bind (both_w h w) fun s1 s1' _ _ h1 _ _ _ => both_pure h1 .done
  | ret w u => exact both_bind (both_w h w) fun s1 s1' _ _ h1 _ _ _ => both_pure h1 .done
  | raise w x => exact both_bind (both_w h w) fun s1 s1' _ _ h1 _ _ _ => both_throw h1

theorem both_localResume (h : Twin R E E' s s') (name : String) (e : Ev) (k : Mach → Out Mach YV Unit) (x : Except PyErr SVal) : Both R E E' s s' (localResume name e k x s) (localResume name e k x s') (Ways R) := by
  unfold localResume
  split
  · exact both_pure h .done
  · exact both_throw h
  · refine both_bind (both_printEvent h e) fun s1 s1' _ _ h1 _ _ _ => both_bind (both_activateProc h1 e) fun s2 s2' _ _ h2 _ _ _ => both_bind (both_envInteraction h2) fun s3 s3' _ _ h3 _ _ _ =>
      both_bind (both_get h3 (P := SameRes) h3.w) fun s4 s4' w w' h4 _ _ e4 => ?_
    cases e4
    exact both_localRun h4 name _

theorem alook_twin {K : ℕ → ℕ → Prop} (name : String) : ∀ {l l' : List (String × ℕ)}, List.Forall₂ (fun x y => x.1 = y.1 ∧ K x.2 y.2) l l' → Option.Rel K (alook name l) (alook name l')
  | _, _, .nil => .none
  | (n, a) :: r, (m, b) :: r', .cons hx hr => by
    obtain ⟨h1, h2⟩ := hx
    dsimp only at h1 h2
    subst h1
    simp only [alook]
    split
    · exact .some h2
    · exact alook_twin name hr

theorem aset_twin {K : ℕ → ℕ → Prop} (name : String) (hk : K a b) : ∀ {l l' : List (String × ℕ)}, List.Forall₂ (fun x y => x.1 = y.1 ∧ K x.2 y.2) l l' →
    List.Forall₂ (fun x y => x.1 = y.1 ∧ K x.2 y.2) (aset name a l) (aset name b l')
  | _, _, .nil => .cons ⟨rfl, hk⟩ .nil
  | (n, u) :: r, (m, v) :: r', .cons hx hr => by
    obtain ⟨h1, h2⟩ := hx
    dsimp only at h1 h2
    subst h1
    simp only [aset]
    split
    · exact .cons ⟨rfl, hk⟩ hr
    · exact .cons ⟨rfl, h2⟩ (aset_twin name hk hr)

theorem both_activateOf (h : Twin R E E' s s') (name : String) : Both R E E' s s' (activateOf name s) (activateOf name s') (Evs R) := by
  unfold activateOf
  have := alook_twin name h.activate
  revert this
  generalize alook name s.activate = o; generalize alook name s'.activate = o'
  intro h1
  cases h1 with
  | none => exact both_error h
  | some h1 => exact both_ok h h1

theorem both_renewActivate (h : Twin R E E' s s') (name : String) : Both R E E' s s' (renewActivate name s) (renewActivate name s') (Evs R) := by
  refine both_bind (both_newEvent h) fun s1 s1' x y h1 _ _ hxy => both_bind (P := fun s s' _ _ => Corr R s s' x y) ⟨?_, le_rfl, le_rfl, .ok hxy⟩ fun s2 s2' _ _ h2 _ _ hxy => both_pure h2 hxy
  exact ⟨h1.one, h1.now, h1.w, h1.interruptibles, h1.started, h1.envArgs, h1.trace, h1.grow, h1.events, h1.points, h1.target, aset_twin name hxy h1.activate, h1.extra, h1.procActivate, h1.envActivate, h1.queue, h1.gap, h1.gap', h1.stop, h1.stop', h1.fresh, h1.fresh'⟩

theorem twin_startedList (h : Twin R E E' s s') : s.startedList = s'.startedList := by unfold Sim.startedList; rw [h.started, h.w]

theorem twin_setStarted (h : Twin R E E' s s') (l : List PItem) : Both R E E' s s' (SimM.set (·.setStarted l) s) (SimM.set (·.setStarted l) s') SameRes := by
  refine both_data h ?_
  unfold Sim.setStarted
  rw [← h.started]
  split
  · exact ⟨s.w, s.interruptibles, some l, s.trace, rfl, by rw [h.w, h.interruptibles, h.trace]⟩
  · rename_i hs
    exact ⟨{ s.w with procs := l }, s.interruptibles, s.started, s.trace, rfl, by rw [h.w, h.interruptibles, h.started, h.trace]⟩

theorem both_interruptibles (h : Twin R E E' s s') (f : List (String × ℕ) → List (String × ℕ)) :
    Both R E E' s s' (SimM.set (fun s => { s with interruptibles := f s.interruptibles }) s) (SimM.set (fun s => { s with interruptibles := f s.interruptibles }) s') SameRes :=
  both_data h ⟨s.w, f s.interruptibles, s.started, s.trace, rfl, by rw [h.w, h.interruptibles, h.started, h.trace]⟩

theorem both_extraLoop {C : Cfg} (h : Twin R E E' s s') (name : String) : Both R E E' s s' (extraLoop C name s) (extraLoop C name s') (Ways R) := by
  refine both_bind (both_get h (P := SameRes) (twin_startedList h)) fun s1 s1' l l' h1 _ _ e1 => ?_
  cases e1
  rcases takeFor name l with x | _ | ⟨⟨i, d⟩, rest⟩
  · exact both_throw h1
  · refine both_bind (both_interruptibles h1 _) fun s2 s2' _ _ h2 _ _ _ => both_bind (both_activateOf h2 name) fun s3 s3' x y h3 _ _ hxy =>
      both_bind (P := fun s s' g g' => g = g' ∧ Corr R s s' x y) (both_get h3 ⟨twin_processed h3 hxy.1, hxy⟩) fun s4 s4' g g' h4 _ _ e4 => ?_
    obtain ⟨e4, hxy⟩ := e4
    subst e4
    cases g
    · exact both_pure h4 (.wait hxy (.other (fun _ _ => by simp) (fun _ _ => by simp)))
    · exact both_bind (both_renewActivate h4 name) fun s5 s5' z z' h5 _ _ hz => both_pure h5 (.wait hz (.other (fun _ _ => by simp) (fun _ _ => by simp)))
  · refine both_bind (twin_setStarted h1 rest) fun s2 s2' _ _ h2 _ _ _ => both_bind (both_activateOf h2 name) fun s3 s3' x y h3 _ _ hxy =>
      both_bind (P := fun s s' g g' => g = g' ∧ Corr R s s' x y) (both_get h3 ⟨twin_triggered h3 hxy.1, hxy⟩) fun s4 s4' g g' h4 _ _ e4 => ?_
    obtain ⟨e4, hxy⟩ := e4
    subst e4
    have hlast : ∀ {s5 s5' : Sim}, Twin R E E' s5 s5' → Both R E E' s5 s5' ((process (.localNew name (d.run C)) >>= fun pro => pure (.wait pro (.extraMain name pro)) : SimM Res) s5)
        ((process (.localNew name (d.run C)) >>= fun pro => pure (.wait pro (.extraMain name pro)) : SimM Res) s5') (Ways R) := fun h5 =>
      both_bind (both_process h5 (.other (fun _ _ => by simp) (fun _ _ => by simp))) fun s6 s6' p q h6 _ _ hpq => both_pure h6 (.wait hpq (.main hpq))
    cases g
    · exact both_bind (both_succeed h4 hxy) fun s5 s5' _ _ h5 _ _ _ => hlast h5
    · exact hlast h4

theorem both_extraAfterMain {C : Cfg} {p q : ℕ} (h : Twin R E E' s s') (name : String) (hpq : Corr R s s' p q) (x : Except PyErr SVal) :
    Both R E E' s s' (extraAfterMain C name p x s) (extraAfterMain C name q x s') (Ways R) := by
  unfold extraAfterMain
  split
  · refine both_bind (P := fun s s' g g' => g = g' ∧ Corr R s s' p q) (both_get h ⟨twin_triggered h hpq.1, hpq⟩) fun s1 s1' g g' h1 _ _ e1 => ?_
    obtain ⟨e1, hpq⟩ := e1
    subst e1
    cases g
    · exact both_bind (both_interrupt h1 hpq) fun s2 s2' _ _ h2 _ _ _ => both_extraLoop h2 name
    · exact both_extraLoop h1 name
  · exact both_throw h
  · exact both_bind (both_process h (.other (fun _ _ => by simp) (fun _ _ => by simp))) fun s1 s1' p q h1 _ _ hpq => both_pure h1 (.wait hpq (.other (fun _ _ => by simp) (fun _ _ => by simp)))
  · exact both_extraLoop h name

theorem both_extraAfterCont {C : Cfg} (h : Twin R E E' s s') (name : String) (x : Except PyErr SVal) : Both R E E' s s' (extraAfterCont C name x s) (extraAfterCont C name x s') (Ways R) := by
  unfold extraAfterCont
  split
  · exact both_extraLoop h name
  · exact both_throw h
  · exact both_extraLoop h name

/-! ## The process of the rules -/

theorem both_interruptExtra (h : Twin R E E' s s') (name : String) : Both R E E' s s' (interruptExtra name s) (interruptExtra name s') SameRes := by
  unfold interruptExtra
  have := alook_twin name h.extra
  revert this
  generalize alook name s.extra = o; generalize alook name s'.extra = o'
  intro h1
  cases h1 with
  | none => exact both_error h
  | some h1 => exact both_interrupt h h1

theorem both_notify (h : Twin R E E' s s') (x : PItem) : Both R E E' s s' (notify x s) (notify x s') SameRes := by
  cases x with
  | procedural => exact both_throw h
  | gen name i d =>
    refine both_bind (both_activateOf h name) fun s1 s1' x y h1 _ _ hxy => both_bind (P := fun s s' g g' => g = g' ∧ Corr R s s' x y) (both_get h1 ⟨twin_triggered h1 hxy.1, hxy⟩) fun s2 s2' g g' h2 _ _ e2 => ?_
    obtain ⟨e2, hxy⟩ := e2
    subst e2
    split
    · refine both_bind (both_get h2 (P := SameRes) (by rw [h2.interruptibles])) fun s3 s3' o o' h3 _ _ e3 => ?_
      cases e3
      split
      · exact both_pure h3 rfl
      · split
        · exact both_pure h3 rfl
        · exact both_bind (both_interruptibles h3 _) fun s4 s4' _ _ h4 _ _ _ => both_interruptExtra h4 name
    · cases d.interruptible
      · exact both_succeed h2 hxy
      · exact both_bind (both_interruptibles h2 _) fun s3 s3' _ _ h3 n3 n3' _ => both_succeed h3 (hxy.mono n3 n3')

theorem both_notifyAll : ∀ {s s' : Sim} (l : List PItem), Twin R E E' s s' → Both R E E' s s' (notifyAll l s) (notifyAll l s') SameRes
  | _, _, [], h => both_pure h rfl
  | _, _, x :: r, h => both_bind (both_notify h x) fun _ _ _ _ h1 _ _ _ => both_notifyAll r h1

theorem both_procCycle {C : Cfg} {pt : Pt} (h : Twin R E E' s s') (h1 : ∀ n p, pt ≠ .extraMain n p) (h2 : ∀ p k, pt ≠ .envWait p k) : Both R E E' s s' (procCycle C pt s) (procCycle C pt s') (Ways R) := by
  refine both_bind (both_get h (P := SameRes) h.now) fun s1 s1' x y k1 _ _ e1 => ?_
  cases e1
  exact both_bind (both_process k1 (.other (fun _ _ => by simp) (fun _ _ => by simp))) fun s2 s2' p q k2 _ _ hpq => both_pure k2 (.wait hpq (.other h1 h2))

theorem both_procSpins (h : Twin R E E' s s') (n : ℕ) : Both R E E' s s' (procSpins n s) (procSpins n s') (Ways R) :=
  both_bind (both_timeout h 0) fun _ _ _ _ h1 _ _ hpq => both_pure h1 (.wait hpq (.other (fun _ _ => by simp) (fun _ _ => by simp)))

theorem both_procLoop (h : Twin R E E' s s') : Both R E E' s s' (procLoop s) (procLoop s') (Ways R) := by
  refine both_bind (both_get h (P := SameRes) (twin_startedList h)) fun s1 s1' l l' h1 _ _ e1 => ?_
  cases e1
  split
  · refine both_bind (twin_setStarted h1 _) fun s2 s2' _ _ h2 _ _ _ => both_bind (both_get h2 (P := SameRes) (twin_startedList h2)) fun s3 s3' l l' h3 _ _ e3 => ?_
    cases e3
    exact both_bind (both_notifyAll l h3) fun s4 s4' _ _ h4 _ _ _ => both_procSpins h4 4
  · refine both_bind (P := Evs R) (both_get h1 h1.procActivate) fun s2 s2' x y h2 _ _ hxy => both_bind (P := fun s s' g g' => g = g' ∧ Corr R s s' x y) (both_get h2 ⟨twin_processed h2 hxy.1, hxy⟩) fun s3 s3' g g' h3 _ _ e3 => ?_
    obtain ⟨e3, hxy⟩ := e3
    subst e3
    split
    · exact both_procSpins h3 4
    · exact both_pure h3 (.wait hxy (.other (fun _ _ => by simp) (fun _ _ => by simp)))

theorem both_procsReturned (h : Twin R E E' s s') (v : SVal) : Both R E E' s s' (procsReturned v s) (procsReturned v s') SameRes := by
  unfold procsReturned
  split
  · exact both_data h ⟨s.w, s.interruptibles, Option.none, s.trace, rfl, by rw [h.w, h.interruptibles, h.trace]⟩
  · exact both_throw h

/-! ## The environment -/

theorem both_envIter (h : Twin R E E' s s') (e : EnvEvent) (k : Mach → Out Mach EnvEvent Unit) : Both R E E' s s' (envIter e k s) (envIter e k s') (Ways R) := by
  refine both_bind (both_process h (.other (fun _ _ => by simp) (fun _ _ => by simp))) fun s1 s1' p q h1 _ _ hpq =>
    both_bind (P := fun s s' x y => Corr R s s' x y ∧ Corr R s s' p q) (both_get h1 ⟨h1.envActivate, hpq⟩) fun s2 s2' x y h2 _ _ hxy =>
      both_bind (both_anyOf h2 hxy.2 hxy.1) fun s3 s3' c d h3 n3 n3' hcd => both_pure h3 (.wait hcd (.env (hxy.2.mono n3 n3')))

/-- `envStart` with what it reads. -/
def envStartWith (o : Option (Out Mach EnvEvent Unit)) : SimM Res := fun s =>
  match o with
  | Option.none => (s, .error .type)
  | some (.yield w e k) => envIter e k { s with w := w }
  | some (.ret w _) => ({ s with w := w }, .error .runtime)
  | some (.raise w x) => ({ s with w := w }, .error x)

theorem envStart_with {C : Cfg} (s : Sim) :
    envStart C s = envStartWith (s.envArgs.map fun a => envProcess (fun env w => { w with env := some env }) envOf C.upper a.stimuli a.triggers a.times a.startTime s.w) s := by
  unfold envStart envStartWith
  cases ha : s.envArgs with
  | none => rfl
  | some a =>
    dsimp only [Option.map]
    generalize envProcess (fun env w => { w with env := some env }) envOf C.upper a.stimuli a.triggers a.times a.startTime s.w = o
    cases o <;> rfl

theorem both_envStart {C : Cfg} (h : Twin R E E' s s') : Both R E E' s s' (envStart C s) (envStart C s') (Ways R) := by
  have hw : ∀ w : Mach, Twin R E E' { s with w := w } { s' with w := w } := fun w => (both_w h w).twin
  rw [envStart_with s, envStart_with s', ← h.envArgs, ← h.w]
  generalize (s.envArgs.map fun a => envProcess (fun env w => { w with env := some env }) envOf C.upper a.stimuli a.triggers a.times a.startTime s.w) = o
  rcases o with _ | ⟨w, e, k⟩ | ⟨w, u⟩ | ⟨w, x⟩
  · exact both_error h
  · obtain ⟨h1, h2, h3, h4⟩ := both_envIter (hw w) e k
    exact ⟨h1, h2, h3, h4⟩
  · exact ⟨hw w, le_rfl, le_rfl, .error _⟩
  · exact ⟨hw w, le_rfl, le_rfl, .error _⟩

theorem both_startAutomatic (h : Twin R E E' s s') (name : String) (i : ℕ) (d : Desc) : Both R E E' s s' (startAutomatic name i d s) (startAutomatic name i d s') SameRes := by
  have h0 : Both R E E' s s' (SimM.set (fun s => s.setStarted (s.startedList ++ [.gen name i d])) s) (SimM.set (fun s => s.setStarted (s.startedList ++ [.gen name i d])) s') SameRes := by
    have := twin_setStarted h (s.startedList ++ [.gen name i d])
    have e := twin_startedList h
    refine ⟨?_, this.next, ?_, .ok rfl⟩
    · show Twin R E E' (s.setStarted (s.startedList ++ [.gen name i d])) (s'.setStarted (s'.startedList ++ [.gen name i d]))
      rw [← e]; exact this.twin
    · show s'.next ≤ (s'.setStarted (s'.startedList ++ [.gen name i d])).next
      rw [← e]; exact this.next'
  refine both_bind h0 fun s1 s1' _ _ h1 _ _ _ => both_bind (both_activateOf h1 name) fun s2 s2' x y h2 _ _ hxy => both_bind (P := fun s s' g g' => g = g' ∧ Corr R s s' x y) (both_get h2 ⟨twin_triggered h2 hxy.1, hxy⟩) fun s3 s3' g g' h3 _ _ e3 => ?_
  · obtain ⟨e3, hxy⟩ := e3
    subst e3
    cases g
    rotate_left
    · refine both_bind (both_get h3 (P := SameRes) (by rw [h3.interruptibles])) fun s4 s4' o o' h4 _ _ e4 => ?_
      cases e4
      split
      · exact both_throw h4
      · exact both_bind (both_interruptibles h4 _) fun s5 s5' _ _ h5 _ _ _ => both_interruptExtra h5 name
    · exact both_bind (both_interruptibles h3 _) fun s5 s5' _ _ h5 n5 n5' _ => both_succeed h5 (hxy.mono n5 n5')

/-- `automatic` with what it reads. -/
def automaticWith (name : String) (o : Option Desc) (w : Mach) : SimM Unit := fun s =>
  match o with
  | Option.none => (s, .ok ())
  | some d => startAutomatic name w.nextId d { s with w := { w with nextId := w.nextId + 1 } }

theorem automatic_with (name : String) (s : Sim) : automatic name s = automaticWith name ((s.w.buf name).bind fun b => automaticFor name b s.w.onScreen s.now) s.w s := by
  unfold automatic automaticWith
  cases s.w.buf name with
  | none => rfl
  | some b =>
    dsimp only [Option.bind]
    cases automaticFor name b s.w.onScreen s.now <;> rfl

theorem both_automatic (h : Twin R E E' s s') (name : String) : Both R E E' s s' (automatic name s) (automatic name s') SameRes := by
  rw [automatic_with name s, automatic_with name s', ← h.w, ← h.now]
  generalize ((s.w.buf name).bind fun b => automaticFor name b s.w.onScreen s.now) = o
  rcases o with _ | d
  · exact both_ok h rfl
  · obtain ⟨h1, h2, h3, h4⟩ := both_startAutomatic (both_w h { s.w with nextId := s.w.nextId + 1 }).twin name s.w.nextId d
    exact ⟨h1, h2, h3, h4⟩

theorem both_automaticAll : ∀ {s s' : Sim} (l : List String), Twin R E E' s s' → Both R E E' s s' (automaticAll l s) (automaticAll l s') SameRes
  | _, _, [], h => both_pure h rfl
  | _, _, x :: r, h => both_bind (both_automatic h x) fun _ _ _ _ h1 _ _ _ => both_automaticAll r h1

theorem both_envNext {p q : ℕ} (h : Twin R E E' s s') (hpq : Corr R s s' p q) : Both R E E' s s' (envNext p s) (envNext q s') SameRes := by
  refine both_bind (P := Evs R) (both_get h h.envActivate) fun s1 s1' x y h1 n1 n1' hxy => both_bind (P := SameRes) (both_get h1 (twin_triggered h1 hxy.1)) fun s2 s2' g g' h2 n2 n2' e2 => ?_
  cases e2
  split
  · refine both_bind (both_newEvent h2) fun s3 s3' u v h3 n3 n3' huv => both_bind (P := SameRes) (m := SimM.set fun s => { s with envActivate := u }) (m' := SimM.set fun s => { s with envActivate := v }) ⟨?_, le_rfl, le_rfl, .ok rfl⟩
      fun s4 s4' _ _ h4 n4 n4' _ => both_interrupt h4 (hpq.mono (n1.trans (n2.trans (n3.trans n4))) (n1'.trans (n2'.trans (n3'.trans n4'))))
    exact ⟨h3.one, h3.now, h3.w, h3.interruptibles, h3.started, h3.envArgs, h3.trace, h3.grow, h3.events, h3.points, h3.target, h3.activate, h3.extra, h3.procActivate, huv, h3.queue, h3.gap, h3.gap', h3.stop, h3.stop', h3.fresh, h3.fresh'⟩
  · exact both_pure h2 rfl

theorem both_envAdvance (h : Twin R E E' s s') (k : Mach → Out Mach EnvEvent Unit) : Both R E E' s s' (envAdvance k s) (envAdvance k s') (Ways R) := by
  unfold envAdvance
  rw [← h.w]
  have hw : ∀ w : Mach, Twin R E E' { s with w := w } { s' with w := w } := fun w => (both_w h w).twin
  split
  · rename_i w _ _
    exact ⟨hw w, le_rfl, le_rfl, .ok .done⟩
  · rename_i w _ _
    exact ⟨hw w, le_rfl, le_rfl, .error _⟩
  · rename_i w e k' _
    obtain ⟨h1, h2, h3, h4⟩ := both_bind (both_automaticAll (w.bufs.map Prod.fst) (hw w)) fun s1 s1' _ _ h1 _ _ _ => both_envIter h1 e k'
    exact ⟨h1, h2, h3, h4⟩

theorem both_envProcStart (h : Twin R E E' s s') (e : Ev) : Both R E E' s s' (envProcStart e s) (envProcStart e s') (Ways R) := by
  unfold envProcStart
  rw [← h.now]
  have ht := both_timeout h (e.time - s.now)
  rcases hm : timeout (e.time - s.now) s with ⟨s1, x⟩
  rcases hm' : timeout (e.time - s.now) s' with ⟨s1', y⟩
  rw [hm, hm'] at ht
  obtain ⟨h1, h2, h3, h4⟩ := ht
  dsimp only at h1 h2 h3 h4
  cases h4 with
  | ok hc => exact ⟨h1, h2, h3, .ok (.wait hc (.other (fun _ _ => by simp) (fun _ _ => by simp)))⟩
  | error x =>
    obtain ⟨k1, k2, k3, k4⟩ := both_bind (both_activateProc h1 e) fun s2 s2' _ _ h2 _ _ _ => both_throw (A := Res) (B := Res) (P := Ways R) (x := x) h2
    exact ⟨k1, h2.trans k2, h3.trans k3, k4⟩

theorem both_envProcResume (h : Twin R E E' s s') (e : Ev) (x : Except PyErr SVal) : Both R E E' s s' (envProcResume e x s) (envProcResume e x s') (Ways R) := by
  unfold envProcResume
  split
  · exact both_bind (both_activateProc h e) fun s1 s1' _ _ h1 _ _ _ => both_pure h1 .done
  · exact both_bind (both_activateProc h e) fun s1 s1' _ _ h1 _ _ _ => both_throw h1
  · exact both_bind (both_printEvent h e) fun s1 s1' _ _ h1 _ _ _ => both_bind (both_activateProc h1 e) fun s2 s2' _ _ h2 _ _ _ => both_pure h2 .done

end Verif
