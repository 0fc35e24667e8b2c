import Verif.Lemmas.Docile
import Verif.Lemmas.Awake
/-! # RuntimeErrors come after the failures of modules -/
namespace Verif
open Verif.Spec

variable {C : Cfg} {w0 : Mach} {s s' : Sim} {p : ℕ} {K : Prop}

/-- The invariant of simulations holds after the code of a process, before it waits or ends. -/
theorem inv_code {pt : Pt} {x : Except PyErr SVal} (h : Run s) (hk : Cycling C.ruleFiring s) (hp : s.points p = some pt)
    (hd : ∀ t v, pt.due = some t → x = .ok v → t = s.now) : Inv (code C pt x s).1 := by
  obtain ⟨st, c, hr⟩ := hk
  have hok := h.1.wait p pt hp
  by_cases hpc : p = c
  · subst hpc
    have hleg := hr.child pt hp
    cases pt with
    | localNew name g =>
      have hdo : Doing (code C (.localNew name g) x) s (ChildOk C.ruleFiring st) := by
        rcases x with x | v
        · exact doing_throw h
        · exact doing_bind (doing_get h) fun w s1 h1 _ _ => doing_localRun_child hleg.1.1 h1 (hok w) (hleg.2.2 w)
      exact hdo.1.1
    | localWait name e k =>
      obtain ⟨hname, st', ⟨hst, _⟩, hk⟩ := hleg
      rcases x with x | v
      · have hdo : Doing (code C (.localWait name e k) (.error x)) s (ChildOk C.ruleFiring st) := by
          by_cases hi : x = .interrupt
          · subst hi; exact doing_pure h (by simp [ChildOk])
          · have : code C (.localWait name e k) (.error x) = .throw x := by cases x <;> first | rfl | exact absurd rfl hi
            rw [this]; exact doing_throw h
        exact hdo.1.1
      · obtain ⟨b1, b2⟩ := run_print h (hd e.time v rfl rfl)
        obtain ⟨a1, a2, a3⟩ := doing_afterPrint_child (name := name) (e := e) hname b1 hok.2.2 hk
        have heq : code C (.localWait name e k) (.ok v) s =
            (do activateProc e; envInteraction; let w ← SimM.get Sim.w; localRun name (k w) : SimM Res) (printEvent e s).1 := by
          show SimM.bind (printEvent e) _ s = _
          rcases printEvent_cases e with ⟨_, hpe⟩ | ⟨_, hpe⟩ <;> rw [hpe] <;> rfl
        rw [← heq] at a1
        exact a1.1
    | _ => exact hleg.elim
  · by_cases h2 : p = 2
    · subst h2
      have hmain := hr.main pt hp
      by_cases hb : (pt = .procNew ∨ pt = .procSpin 0) ∧ ∃ v, x = .ok v
      · obtain ⟨hb, v, rfl⟩ := hb
        have hgrid : ∀ s' ev, PtOk s' ev (.localNew procName (genProcedural C s.now)) := fun _ _ w => gridY_procedural C s.now w
        have h1 := (run_process h hgrid rfl).1
        rcases hb with rfl | rfl
        · exact h1.1
        · exact h1.1
      · have hdo : Doing (code C pt x) s (fun s r => RestOk s r ∧ (pt.resting ∨ x = .ok .procs)) := by
          by_cases hs : pt = .procNew ∨ pt = .procSpin 0
          · rcases x with x | v
            · rcases hs with rfl | rfl <;> exact doing_throw h
            · exact absurd ⟨hs, v, rfl⟩ hb
          · rw [not_or] at hs
            refine doing_main C h ?_ hs.2
            rcases hmain with hm | hm
            · exact hm.1.elim .inl fun h => .inr (.inl h)
            · exact .inr (.inr (hm.1.resolve_left hs.1))
        exact hdo.1.1
    · exact (doing_code C h hok (hr.mods p pt hp hpc) hd h2).1.1

/-! ## The failures of modules come first -/

/-- The entry of the end of the process of a module, which has failed with something else. -/
def Felled (s : Sim) (en : Entry) : Prop := en.time ≤ s.now ∧ ∃ n x, (n, en.ev) ∈ s.extra ∧ (s.events en.ev).value = some (.error x) ∧ x ≠ .runtime

/-- The ends of processes of modules are to come, and at this time. -/
def Laid (s : Sim) : Prop := ∀ n q, (n, q) ∈ s.extra → s.triggered q = true → ∃ en ∈ s.queue, en.ev = q ∧ en.time ≤ s.now

/-- What has failed with a RuntimeError is behind the failure of a module. -/
def Fore (s : Sim) : Prop := Fronted (fun en => Shaken s en.ev) (Felled s) s.queue ∧ Laid s

theorem felled_lasts (hl : Lasts s s') (hn : s'.now = s.now) {en : Entry} (h : Felled s en) : Felled s' en := by
  obtain ⟨h0, n, x, h1, h2, h3⟩ := h
  exact ⟨hn ▸ h0, n, x, hl.1 ▸ h1, hl.2 n _ _ h1 h2, h3⟩

theorem laid_kept (h : Laid s) (hn : s'.now = s.now) (he : s'.extra = s.extra) (hk : ∀ en ∈ s.queue, en ∈ s'.queue)
    (ht : ∀ n q, (n, q) ∈ s.extra → s'.triggered q = true → s.triggered q = true) : Laid s' := fun n q hq hv => by
  obtain ⟨en, h1, h2, h3⟩ := h n q (he ▸ hq) (ht n q (he ▸ hq) hv)
  exact ⟨en, hk en h1, h2, hn ▸ h3⟩

theorem fore_quell (h : Fore s) (hq : Quell s s') (hl : Lasts s s') (ht : ∀ n q, (n, q) ∈ s.extra → s'.triggered q = true → s.triggered q = true) : Fore s' :=
  ⟨fronted_mono (fun _ h => h) (fun _ => felled_lasts hl hq.now) (hq.fronted _ h.1), laid_kept h.2 hq.now hl.1 hq.kept ht⟩

theorem fronted_mem {P P' B B' : Entry → Prop} : ∀ {l : List Entry}, (∀ x ∈ l, P' x → P x) → (∀ x, B x → B' x) → Fronted P B l → Fronted P' B' l
  | [], _, _, _ => trivial
  | x :: _, h1, h2, ⟨h, h'⟩ => ⟨fun hx => h (h1 x (.head _) hx), h'.imp (h2 x) (fronted_mem (fun y hy => h1 y (.tail _ hy)) h2)⟩

theorem fronted_some {P B : Entry → Prop} {b : Entry} : ∀ {l : List Entry}, Fronted P B l → b ∈ l → P b → ∃ c ∈ l, B c
  | x :: r, h, hb, hP => by
    rcases List.mem_cons.1 hb with rfl | hb
    · exact absurd hP h.1
    · rcases h.2 with h2 | h2
      · exact ⟨x, .head _, h2⟩
      · obtain ⟨c, hc, hB⟩ := fronted_some h2 hb hP
        exact ⟨c, .tail _ hc, hB⟩

/-- Something is in front if a module has ended. -/
theorem fore_felled (h : Fore s) (hf : Firm K s) (hl : Lapsed s) : ∃ b ∈ s.queue, Felled s b := by
  obtain ⟨n, q, x, h1, h2⟩ := fallen_lapsed hf hl
  obtain ⟨en, h3, h4, h5⟩ := h.2 n q h1 (by rw [Sim.triggered, h2]; rfl)
  by_cases hx : x = .runtime
  · subst hx
    exact fronted_some h.1 h3 (by rw [h4]; exact h2)
  · exact ⟨en, h3, h5, n, x, h4 ▸ h1, h4 ▸ h2, hx⟩

theorem laid_ends {v : Except PyErr SVal} (h : Laid s) : Laid (s.ends p v) := fun n q hq hv => by
  by_cases he : q = p
  · exact ⟨⟨s.now + 0, false, p⟩, (mem_insertEntry _ _ _).2 (.inl rfl), he.symm, (add_zero _).le⟩
  · have hv : s.triggered q = true := by
      have hv : ((fset s.events p _ q).value).isSome = true := hv
      rwa [fset_other _ _ he] at hv
    obtain ⟨en, h1, h2, h3⟩ := h n q hq hv
    exact ⟨en, (mem_insertEntry _ _ _).2 (.inr h1), h2, h3⟩

theorem fore_resume (hC : Civil .runtime C) {x : Except PyErr SVal} (h : Soothed C w0 s) (hf : Firm K s) (hv : Vacant s) (hg : Good C.ruleFiring s)
    (hd : ∀ pt, s.points p = some pt → ∀ t v, pt.due = some t → x = .ok v → t = s.now) (hx : x ≠ .error .runtime) (hF : Fore s) : Fore (s.resume C p x) := by
  cases hp : s.points p with
  | none =>
    have : s.resume C p x = s := by unfold Sim.resume; rw [hp]
    rw [this]; exact hF
  | some pt =>
    have hlt : p < s.next := by
      by_contra hl
      rw [hv p (not_lt.1 hl)] at hp; cases hp
    have hfc := firms_code (C := C) (pt := pt) (x := x) hf
    have hi := inv_code (x := x) hg.1 hg.2 hp (hd pt hp)
    unfold Firms Does at hfc
    rw [resume_eq C hp]
    obtain ⟨h3, h4, h5, h6⟩ := sooths_code (E := False) hC (h.muffled.points p pt hp) (h.points p pt hp) (h.muffled.abides.points p pt hp) (fun h => hx h) h
    have hF1 : Fore (code C pt x s).1 := fore_quell hF h4 (lasts_spared hf hfc.2.1) fun n q hn ht => by
      have := hfc.2.1.evs n q hn (hf.lt n q hn)
      rw [Sim.triggered, ← this]; exact ht
    have hp1 := (hfc.2.1.pts p hlt).trans hp
    have hel : ∀ {v : Except PyErr SVal}, Lasts (code C pt x s).1 ((code C pt x s).1.ends p v) := fun {v} => by
      refine ⟨rfl, fun n q v' hn hv' => ?_⟩
      have hne : q ≠ p := fun he => by
        rw [he] at hn hv'
        rw [(hfc.1.alive n p pt hn hp1).2] at hv'; cases hv'
      have : ((code C pt x s).1.ends p v).events q = (code C pt x s).1.events q := fset_other _ _ hne
      rw [this]; exact hv'
    rcases hcode : code C pt x s with ⟨s1, e | r⟩
    · rw [hcode] at h5 hfc hF1 hel hi hp1
      dsimp only at h5 hfc hF1 hel hi hp1 ⊢
      refine ⟨?_, laid_ends hF1.2⟩
      by_cases hee : e = .runtime
      · subst hee
        obtain ⟨b, hb, hB⟩ := fore_felled hF1 hfc.1 ((h5 rfl).resolve_right id)
        have hno : ∀ en ∈ s1.queue, en.ev ≠ p := fun en hen he => by
          have h7 := hi.queued en hen
          rw [he, hi.live p (by rw [hp1]; rfl)] at h7; cases h7
        refine fronted_behind (e := ⟨s1.now + 0, false, p⟩) (b := b) rfl (by rw [add_zero]; exact hB.1) (felled_lasts hel rfl hB) hb hi.sorted ?_
        refine fronted_mem (fun y hy hsh => ?_) (fun _ => felled_lasts hel rfl) hF1.1
        have : (s1.ends p (.error .runtime)).events y.ev = s1.events y.ev := fset_other _ _ (hno y hy)
        unfold Shaken at hsh ⊢
        rw [← this]; exact hsh
      · have hq : Quell s1 (s1.ends p (.error e)) := quell_trans (b := { s1 with points := fset s1.points p Option.none }) (quell_same rfl rfl rfl) (quell_trigger (ev := p) (v := .error e) fun hh => hee (by cases hh; rfl))
        exact fronted_mono (fun _ h => h) (fun _ => felled_lasts hel rfl) (hq.fronted _ hF1.1)
    · rw [hcode] at hF1 hel
      dsimp only at hF1 hel ⊢
      cases r with
      | wait ev pt' =>
        refine fore_quell hF1 (quell_trans (b := { s1 with points := fset s1.points p (some pt'), target := fset s1.target p ev }) (quell_same rfl rfl rfl) quell_addCallback)
          (lasts_trans (b := { s1 with points := fset s1.points p (some pt'), target := fset s1.target p ev }) (lasts_same rfl rfl) (lasts_fset fun _ h => h)) fun n q _ ht => ?_
        have : ((s1.waits p ev pt').events q).value = (s1.events q).value := fset_value (f := s1.events) (ev := ev) (X := { s1.events ev with callbacks := (s1.events ev).callbacks.map (· ++ [.resume p]) }) rfl q
        rw [Sim.triggered, ← this]; exact ht
      | done v =>
        have hq : Quell s1 (s1.ends p (.ok v)) := quell_trans (b := { s1 with points := fset s1.points p Option.none }) (quell_same rfl rfl rfl) (quell_trigger (ev := p) (v := .ok v) fun hh => by cases hh)
        exact ⟨fronted_mono (fun _ h => h) (fun _ => felled_lasts hel rfl) (hq.fronted _ hF1.1), laid_ends hF1.2⟩

theorem fore_value (h : Fore s) (hv : ∀ q, (s'.events q).value = (s.events q).value) (hn : s'.now = s.now) (hq : s'.queue = s.queue) (he : s'.extra = s.extra) : Fore s' :=
  fore_quell h (quell_of (fun ev hx => by unfold Shaken at hx ⊢; rw [← hv]; exact hx) hn hq) ⟨he, fun n q v _ h => by rw [hv]; exact h⟩ fun n q _ ht => by
    rw [Sim.triggered, ← hv]; exact ht

theorem fore_trigger {d : ℕ} {v : Except PyErr SVal} (h : Fore s) (hn : (s.events d).value = Option.none) (hd : Neutral s d) (hv : v ≠ .error .runtime) : Fore (s.trigger d v) :=
  fore_quell h (quell_trigger hv) (lasts_trigger hn) fun n q hq ht => by
    have hne : q ≠ d := fun he => hd n (he ▸ hq)
    have : (s.trigger d v).events q = s.events q := fset_other _ _ hne
    rw [Sim.triggered, ← this]; exact ht

theorem fore_callback (hC : Civil .runtime C) {ev : ℕ} {v : Except PyErr SVal} {cb : Callback} {l : List Callback} (h : Soothed C w0 s) (hf : Firm K s) (hv : Vacant s) (hev : Neutral s ev)
    (hg : Good C.ruleFiring s) (hp : Pending ev v (cb :: l) s) (hc : ∀ c, cb = .check c → Neutral s c) (hx : v ≠ .error .runtime) (hF : Fore s) : Fore (callback C ev v s cb) := by
  cases cb with
  | resume p =>
    rcases v with x | v
    · exact fore_resume (s := s.defuse ev) hC (soothed_same h rfl rfl) (firm_defuse hf hev).1 hv (good_defuse hg) (fun _ _ _ _ _ h => by cases h) hx (fore_value hF (fset_value rfl) rfl rfl rfl)
    · refine fore_resume hC h hf hv hg (fun pt hpt t _ ht _ => ?_) hx hF
      obtain ⟨_, _, pt', hpt', hd⟩ := hp.res p (.head _)
      rw [hpt] at hpt'
      cases hpt'
      exact hd t ht
  | interrupt p =>
    obtain ⟨rfl, -⟩ := hp.intr p (.head _)
    simp only [callback]
    split
    · exact hF
    · exact fore_resume (s := s.dropCallback (s.target p) (.resume p)) hC (soothed_same h rfl rfl) (firm_drop hf).1 hv (good_drop (by simp) hg) (fun _ _ _ _ _ h => by cases h) (by simp) (fore_value hF (fset_value rfl) rfl rfl rfl)
  | check d =>
    simp only [callback]
    split
    · exact hF
    · rename_i hn
      have hn : (s.events d).value = Option.none := by simpa [Sim.triggered] using hn
      rcases v with x | v
      · exact fore_trigger (s := s.defuse ev) (fore_value hF (fset_value rfl) rfl rfl rfl) ((fset_value (f := s.events) (ev := ev) (X := { s.events ev with defused := true }) rfl d).trans hn) (hc d rfl) hx
      · exact fore_trigger hF hn (hc d rfl) (by simp)
  | build d x y =>
    have hdr : ∀ {s : Sim} {e : ℕ} {c : Callback}, Fore s → Fore (s.dropCallback e c) := fun {s e c} h =>
      fore_value h (fset_value (f := s.events) (ev := e) (X := { s.events e with callbacks := (s.events e).callbacks.map (·.erase c) }) rfl) rfl rfl rfl
    exact hdr (hdr hF)
  | stop => exact hF

theorem fore_foldl (hC : Civil .runtime C) {ev : ℕ} {v : Except PyErr SVal} (hx : v ≠ .error .runtime) (l : List Callback) : ∀ {s : Sim}, Soothed C w0 s → Firm K s → Propped l s → Good C.ruleFiring s → Pending ev v l s →
    (l ≠ [] → Neutral s ev) → (∀ c, .check c ∈ l → Neutral s c) → Fore s → Fore (l.foldl (callback C ev v) s) := by
  induction l with
  | nil => intro s _ _ _ _ _ _ _ h; exact h
  | cons cb l ih =>
    intro s h hf hp hg hpe hev hs hF
    obtain ⟨h1, h2⟩ := firm_callback C (v := v) (cb := cb) hf hp.vacant (hev (by simp)) fun c hc => hs c (by simp [hc])
    have keep : ∀ a, Neutral s a → Neutral (callback C ev v s cb) a := fun a ha n hn => ha n (by rw [← h2]; exact hn)
    have he := eases_callback (K := K) hC (v := v) (cb := cb) h hf hp.vacant (hev (by simp))
    obtain ⟨g1, g2, -⟩ := good_callback C hg hpe
    exact ih he.soothed h1 (propped_callback C hp) g1 g2 (fun _ => keep _ (hev (by simp))) (fun c hc => keep _ (hs c (by simp [hc])))
      (fore_callback hC h hf hp.vacant (hev (by simp)) hg hpe (fun c hc => hs c (by simp [hc])) hx hF)

theorem fore_taken {en : Entry} {q : List Entry} (h : Fore s) (hi : Inv s) (hq : s.queue = en :: q) (hn : Neutral s en.ev) : Fore (s.taken en q) := by
  have hle : s.now ≤ en.time := hi.ahead en (by rw [hq]; exact .head _)
  have hv : ∀ x, ((s.taken en q).events x).value = (s.events x).value := fun x => fset_value (f := s.events) (ev := en.ev) (X := { s.events en.ev with callbacks := Option.none }) rfl x
  have hB : ∀ x, Felled s x → Felled (s.taken en q) x := fun x hx => by
    obtain ⟨h0, n, y, h1, h2, h3⟩ := hx
    exact ⟨h0.trans hle, n, y, h1, (hv _).trans h2, h3⟩
  obtain ⟨h1, h2⟩ := h
  rw [hq] at h1
  refine ⟨fronted_mono (fun x hx => shaken_taken hx) hB (h1.2.resolve_left fun hfe => ?_), fun n p hp ht => ?_⟩
  · obtain ⟨_, n, _, hm, _⟩ := hfe
    exact hn n hm
  · obtain ⟨e, he, h3, h4⟩ := h2 n p hp (by rw [Sim.triggered, ← hv]; exact ht)
    rw [hq] at he
    rcases List.mem_cons.1 he with rfl | he
    · exact absurd (h3 ▸ hp) (hn n)
    · exact ⟨e, he, h3, h4.trans hle⟩

theorem fore_step (hC : Civil .runtime C) (h : Soothed C w0 s) (hF : Fore s) (hf : Firm False s) (hp : Propped [] s) (hi : Fine C.ruleFiring s) (hl : s.step C = .ok s' ∨ s.step C = .stopped s') : Fore s' := by
  have hne : ∀ en q, s.queue = en :: q → Neutral s en.ev := fun en q hq n hn => by
    obtain ⟨x, h1, _⟩ := step_module (C := C) hf hi.1 hq hn
    rw [h1] at hl
    rcases hl with hl | hl <;> cases hl
  rcases step_cases (C := C) (s := s) rfl with ⟨h0, _⟩ | ⟨en, q, hq, ⟨_, h0⟩ | ⟨hst, h0 | ⟨x, h0⟩⟩⟩ <;> rw [h0] at hl <;> rcases hl with hs | hs <;> cases hs
  · exact fore_taken hF hi.1 hq (hne en q hq)
  · have hft := fine_taken hi hq
    have hF' := fore_taken hF hi.1 hq (hne en q hq)
    unfold Sim.called
    rcases hi.1.grid en (by rw [hq]; exact .head _) with hg | hg
    · refine fore_foldl (K := False) hC (fun hv => ?_) _ (soothed_same h rfl rfl) (firm_taken hf hi.1 hq fun hh => hh (hne en q hq)) (propped_taken hp hi.1 hq).1 ⟨⟨hft.1, hg⟩, hft.2⟩ (pending_taken hi.1 hq) (fun _ => hne en q hq) (fun c hc => hf.checks _ _ hc) hF'
      have h1 := hF.1
      rw [hq] at h1
      refine h1.1 ?_
      show (s.events en.ev).value = _
      cases hx : (s.events en.ev).value with
      | none => rw [hx] at hv; cases hv
      | some v => rw [hx] at hv; exact congrArg some hv
    · have : s.cbs en.ev = [] := by
        have := hg.resolve_left hst
        simp [Sim.cbs, this]
      rw [this]; exact hF'

variable {w : Mach} {args : Option EnvArgs} {t : ℚ}

theorem laid_unraised (h : Unraised C w args t s) : Laid s := fun n q hn ht => by
  have hf := firm_unraised h
  cases hp : s.points q with
  | some pt => rw [Sim.triggered, (hf.alive n q pt hn hp).2] at ht; cases ht
  | none =>
    obtain ⟨y, l, h4, rfl | ⟨h5, _⟩⟩ := hf.dead n q hn hp
    · obtain ⟨en, hen, hev⟩ := (awake_reachable (reachable_unraised h)).queued q (by rw [h4]; rfl) (by rw [h4]; simp)
      exact ⟨en, hen, hev, (hf.soon en hen).resolve_right fun h6 => h6 n (hev ▸ hn)⟩
    · exact h5.elim

theorem fore_init (hs : SoundM .runtime w) (he : w.env = Option.none) (h : Unraised C w args t (Sim.init w args t)) : Fore (Sim.init w args t) := by
  refine ⟨?_, laid_unraised h⟩
  have hn := (soothed_init (C := C) (args := args) (t := t) hs he).2
  have : ∀ l : List Entry, Fronted (fun en => Shaken (Sim.init w args t) en.ev) (Felled (Sim.init w args t)) l := fun l => by
    induction l with
    | nil => trivial
    | cons x r ih => exact ⟨hn x.ev, .inr ih⟩
  exact this _

/-- As long as no exception has been raised, what has failed with a RuntimeError is behind the failure of a module. -/
theorem fore_unraised (hC : Civil .runtime C) (hs : SoundM .runtime w) (he : w.env = Option.none) (h : Unraised C w args t s) : Fore s := by
  have key : ∀ {s s' : Sim}, Unraised C w args t s → (s.step C = .ok s' ∨ s.step C = .stopped s') → Fore s → Fore s' := fun hu hl ih =>
    have hr := reachable_unraised hu
    fore_step hC (condoned_reachable hC hs he hr).1 ih (firm_unraised hu) (propped_reachable hr) (fine_reachable hr) hl
  induction h with
  | init => exact fore_init hs he (.init (C := C))
  | @stop s q hu ih =>
    have hnew := (firm_unraised hu).lt
    unfold Sim.setStop
    split
    · exact ih
    · have hev : ∀ n p, (n, p) ∈ s.extra → ((s.alloc ⟨some (.ok .nothing), false, some [.stop]⟩).schedule s.next true (q - s.now)).events p = s.events p := fun n p hn => events_alloc_old (Nat.ne_of_lt (hnew n p hn))
      exact fore_quell ih (quell_timed (X := ⟨some (.ok .nothing), false, some [.stop]⟩) (fun h => by cases h)) ⟨rfl, fun n p v hn hv => by rw [hev n p hn]; exact hv⟩ fun n p hn ht => by
        rw [Sim.triggered, ← hev n p hn]; exact ht
  | step hu hs ih => exact key hu (.inl hs) ih
  | stopped hu hs ih => exact key hu (.inr hs) ih
  | @compile s hu ih =>
    unfold compileAtEnd
    split
    · rcases hci : compileIn C s.w with ⟨w', x | o⟩ <;> exact fore_value ih (fun _ => rfl) rfl rfl rfl
    · exact ih

end Verif
