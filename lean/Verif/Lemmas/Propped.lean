import Verif.Lemmas.Leans
/-! # Nothing waits for something that is not going to happen, except to be activated -/
namespace Verif
open Verif.Spec

variable {L : List Callback} {s s' : Sim} {p : ℕ}

/-- What every process waits for; the callbacks `L` are going to be called. -/
structure Propped (L : List Callback) (s : Sim) : Prop where
  vacant : Vacant s
  live : ∀ p pt, s.points p = some pt → Supports L s (s.target p) pt
  blds : ∀ ev c a b, .build c a b ∈ s.cbs ev → ev = c
  due : ∀ c a b, .build c a b ∈ L → On s c
  known : ∀ c, .check c ∈ L → c < s.next

theorem propped_leans (h : Propped L s) (hl : Leans s s') : Propped L s' := by
  refine ⟨vacant_leans hl h.vacant, fun p pt hp => ?_, fun ev c a b hb => (hl.blds ev c a b hb).elim (h.blds ev c a b) id, fun c a b hc => on_leans hl (h.due c a b hc), fun c hc => (h.known c hc).trans_le hl.next⟩
  by_cases hlt : p < s.next
  · rw [(hl.pts p hlt).1] at hp
    rw [(hl.pts p hlt).2]
    exact supports_leans hl (h.live p pt hp)
  · obtain ⟨_, h2, h3⟩ := hl.new p pt (not_lt.1 hlt) hp
    cases pt <;> first | exact h3 | cases h2

theorem lt_of_live (h : Propped L s) {pt : Pt} (hp : s.points p = some pt) : p < s.next := by
  by_contra hc
  rw [h.vacant p (not_lt.1 hc)] at hp; cases hp

/-- What keeps the supports of processes. -/
theorem supports_mono {L' : List Callback} {ev : ℕ} {pt : Pt} (hn : s'.next = s.next) (ht : ∀ x, s.triggered x = true → s'.triggered x = true)
    (hc : ∀ x c, .check c ∈ s.cbs x → .check c ∈ s'.cbs x ∨ .check c ∈ L' ∨ On s' c ∨ .stop ∈ s.cbs x) (hl : ∀ c, .check c ∈ L → .check c ∈ L' ∨ On s' c) (hs : ∀ x, .stop ∈ s'.cbs x → .stop ∈ s.cbs x)
    (hp : ∀ x, Stands s x → Stands s' x) (hb : Supports L s ev pt) : Supports L' s' ev pt := by
  have ho : ∀ x, On s x → On s' x := fun x hx => ⟨hn ▸ hx.1, ht x hx.2⟩
  cases pt with
  | procIdle | extraIdle => trivial
  | procFirst | procAgain | extraMain | extraCont => exact hp _ hb
  | envWait pro k =>
    rcases hb with hb | ⟨a, b, c, d⟩
    · exact .inl (ho _ hb)
    · have key : (.check ev ∈ s'.cbs pro ∨ .check ev ∈ L') ∨ On s' ev := by
        rcases b with b | b
        · rcases hc _ _ b with b | b | b | b
          · exact .inl (.inl b)
          · exact .inl (.inr b)
          · exact .inr b
          · exact absurd b c
        · rcases hl _ b with b | b
          · exact .inl (.inr b)
          · exact .inr b
      rcases key with key | key
      · exact .inr ⟨hn ▸ a, key, fun h => c (hs _ h), hp _ d⟩
      · exact .inl key
  | procNew | procSpin | extraNew | localNew | localWait | envNew | envProcNew | envProc => exact ho _ hb

/-- Changes of events and callbacks only. -/
theorem propped_move {L' : List Callback} (h : Propped L s) (hn : s'.next = s.next) (hp : s'.points = s.points) (hg : s'.target = s.target) (ht : ∀ x, s.triggered x = true → s'.triggered x = true)
    (hc : ∀ x c, .check c ∈ s.cbs x → .check c ∈ s'.cbs x ∨ .check c ∈ L' ∨ On s' c ∨ .stop ∈ s.cbs x) (hl : ∀ c, .check c ∈ L → .check c ∈ L' ∨ On s' c) (hs : ∀ x, .stop ∈ s'.cbs x → .stop ∈ s.cbs x)
    (hb : ∀ x c a b, .build c a b ∈ s'.cbs x → .build c a b ∈ s.cbs x) (hd : ∀ c a b, .build c a b ∈ L' → On s' c) (hk : ∀ c, .check c ∈ L' → c < s.next) : Propped L' s' := by
  refine ⟨fun p hq => by rw [hp]; exact h.vacant p (hn ▸ hq), fun p pt hq => ?_, fun ev c a b hm => h.blds ev c a b (hb _ _ _ _ hm), hd, fun c hc => hn ▸ hk c hc⟩
  rw [hp] at hq
  rw [hg]
  exact supports_mono hn ht hc hl hs (fun x hx => ⟨hn ▸ hx.1, hx.2.imp (ht x) fun ⟨pt, h1, h2⟩ => ⟨pt, by rw [hp]; exact h1, h2⟩⟩) (h.live p pt hq)

theorem propped_defuse {ev : ℕ} (h : Propped L s) : Propped L (s.defuse ev) := by
  refine propped_leans h ⟨le_rfl, fun x _ hx => isSome_fset (fun h => h) hx, fun x _ cb hm => by rw [cbs_defuse]; exact hm, fun _ _ => ⟨rfl, rfl⟩,
    (fun p pt hp hs => by rw [show (s.defuse ev).points p = _ from h.vacant p hp] at hs; cases hs), fun x c a b hm => by rw [cbs_defuse] at hm; exact .inl hm, fun x _ hm => by rw [cbs_defuse] at hm; exact hm⟩

/-- Dropping a callback, other ones remain. -/
theorem mem_drop_other {ev x : ℕ} {c d : Callback} (h : d ∈ s.cbs x) (hne : d ≠ c) : d ∈ (s.dropCallback ev c).cbs x := by
  unfold Sim.cbs Sim.dropCallback at *
  by_cases he : x = ev
  · subst he
    simp only [fset_same]
    cases hc : (s.events x).callbacks with
    | none => rw [hc] at h; simp at h
    | some l =>
      rw [hc] at h
      exact (List.mem_erase_of_ne hne).2 h
  · simp only [fset_other _ _ he]; exact h

theorem propped_drop {ev : ℕ} {c : Callback} (h : Propped L s) (hc : ∀ d, c = .check d → On s d) : Propped L (s.dropCallback ev c) := by
  have ho : ∀ x, On s x → On (s.dropCallback ev c) x := fun x hx => ⟨hx.1, by rw [triggered_drop]; exact hx.2⟩
  refine propped_move h rfl rfl rfl (fun x hx => by rw [triggered_drop]; exact hx) (fun x d hm => ?_) (fun c hc => .inl hc) (fun x hm => mem_drop hm) (fun x _ _ _ hm => mem_drop hm) (fun d a b hd => ho d (h.due d a b hd)) h.known
  by_cases he : c = .check d
  · exact .inr (.inr (.inl (ho d (hc d he))))
  · exact .inl (mem_drop_other hm fun hh => he hh.symm)

theorem propped_waits {ev : ℕ} {pt pt' : Pt} (h : Propped L s) (hp : s.points p = some pt) (hb : Supports [] s ev pt') (hh : pt.helper = true → pt'.helper = true) : Propped L (s.waits p ev pt') := by
  have hlt := lt_of_live h hp
  have hpts : ∀ x, (s.waits p ev pt').points x = if x = p then some pt' else s.points x := fun x => rfl
  have htg : ∀ x, (s.waits p ev pt').target x = if x = p then ev else s.target x := fun x => rfl
  have ht : ∀ x, s.triggered x = true → (s.waits p ev pt').triggered x = true := fun x hx => by
    unfold Sim.triggered Sim.waits at *
    rw [value_addCallback]; exact hx
  have hc : ∀ x cb, cb ∈ s.cbs x → cb ∈ (s.waits p ev pt').cbs x := fun x cb hm => mem_addCallback_old (s := { s with points := fset s.points p (some pt'), target := fset s.target p ev }) hm
  have hc' : ∀ x cb, cb ∈ (s.waits p ev pt').cbs x → cb ∈ s.cbs x ∨ cb = .resume p := fun x cb hm =>
    (mem_addCallback (s := { s with points := fset s.points p (some pt'), target := fset s.target p ev }) hm).imp_right (·.1)
  have hst : ∀ x, Stands s x → Stands (s.waits p ev pt') x := fun x hx => ⟨hx.1, hx.2.imp (ht x) fun ⟨q, h1, h2⟩ => by
    rw [hpts]
    split
    · rename_i he
      subst he
      rw [hp] at h1; cases h1
      exact ⟨_, rfl, hh h2⟩
    · exact ⟨q, h1, h2⟩⟩
  have hmono : ∀ {M : List Callback} {ev' : ℕ} {q : Pt}, (∀ c, .check c ∈ M → .check c ∈ L) → Supports M s ev' q → Supports L (s.waits p ev pt') ev' q := fun hM hq =>
    supports_mono (s := s) (s' := s.waits p ev pt') rfl ht (fun x c hm => .inl (hc x _ hm)) (fun c hm => .inl (hM c hm)) (fun x hm => (hc' x _ hm).elim id fun h => by cases h) hst hq
  refine ⟨fun x hx => ?_, fun x q hq => ?_, fun x c a b hm => ?_, fun c a b hm => ⟨(h.due c a b hm).1, ht _ (h.due c a b hm).2⟩, h.known⟩
  · have hx : s.next ≤ x := hx
    rw [hpts, if_neg (by omega)]; exact h.vacant x hx
  · rw [hpts] at hq
    rw [htg]
    by_cases he : x = p
    · rw [if_pos he] at hq ⊢; cases hq
      exact hmono (fun c hm => by cases hm) hb
    · rw [if_neg he] at hq ⊢
      exact hmono (fun c hm => hm) (h.live x q hq)
  · rcases hc' x _ hm with hm | hm
    · exact h.blds x c a b hm
    · cases hm

theorem propped_ends {v : Except PyErr SVal} (h : Propped L s) : Propped L (s.ends p v) := by
  have hpts : ∀ x, (s.ends p v).points x = if x = p then Option.none else s.points x := fun x => rfl
  have ht : ∀ x, s.triggered x = true → (s.ends p v).triggered x = true := fun x hx => isSome_fset (fun _ => rfl) hx
  have hc : ∀ x, (s.ends p v).cbs x = s.cbs x := fun x => cbs_trigger { s with points := fset s.points p Option.none } p v x
  have hst : ∀ x, Stands s x → Stands (s.ends p v) x := fun x hx => ⟨hx.1, by
    by_cases he : x = p
    · subst he
      refine .inl ?_
      show (fset s.events x _ x).value.isSome = true
      rw [fset_same]; rfl
    · exact hx.2.imp (ht x) fun ⟨q, h1, h2⟩ => ⟨q, by rw [hpts, if_neg he]; exact h1, h2⟩⟩
  refine ⟨fun x hx => ?_, fun x q hq => ?_, fun x c a b hm => h.blds x c a b (by rwa [hc] at hm), fun c a b hm => ⟨(h.due c a b hm).1, ht _ (h.due c a b hm).2⟩, h.known⟩
  · rw [hpts]
    split
    · rfl
    · exact h.vacant x hx
  · rw [hpts] at hq
    split at hq
    · cases hq
    · exact supports_mono (s := s) (s' := s.ends p v) rfl ht (fun x c hm => .inl (by rw [hc]; exact hm)) (fun c hm => .inl hm) (fun x hm => by rw [hc] at hm; exact hm) hst (h.live x q hq)

theorem propped_resume (C : Cfg) {x : Except PyErr SVal} (h : Propped L s) : Propped L (s.resume C p x) := by
  unfold Sim.resume
  cases hpt : s.points p with
  | none => exact h
  | some pt =>
    obtain ⟨hl, hr⟩ := leaning_code C (pt := pt) (x := x) h.vacant
    have hp1 := (hl.pts p (lt_of_live h hpt)).1.trans hpt
    dsimp only
    rcases hc : code C pt x s with ⟨s1, e | r⟩
    · rw [hc] at hl
      exact propped_ends (propped_leans h hl)
    · rw [hc] at hl hr hp1
      have h1 := propped_leans h hl
      cases r with
      | done v => exact propped_ends h1
      | wait ev pt' =>
        obtain ⟨a, b⟩ := hr _ rfl ev pt' rfl
        exact propped_waits h1 hp1 a b

theorem propped_callback (C : Cfg) {ev : ℕ} {v : Except PyErr SVal} {cb : Callback} (h : Propped (cb :: L) s) : Propped L (callback C ev v s cb) := by
  have hdue : ∀ c a b, .build c a b ∈ L → On s c := fun c a b hm => h.due c a b (.tail _ hm)
  have hkn : ∀ c, .check c ∈ L → c < s.next := fun c hm => h.known c (.tail _ hm)
  have hkeep : (∀ c, cb ≠ .check c) → Propped L s := fun hn => propped_move h rfl rfl rfl (fun _ h => h) (fun _ _ h => .inl h)
    (fun c hm => .inl (by rcases List.mem_cons.1 hm with hm | hm; exacts [absurd hm.symm (hn c), hm])) (fun _ h => h) (fun _ _ _ _ h => h) hdue hkn
  cases cb with
  | resume p =>
    unfold callback
    rcases v with x | v
    · exact propped_resume C (propped_defuse (hkeep (by simp)))
    · exact propped_resume C (hkeep (by simp))
  | interrupt p =>
    unfold callback
    dsimp only
    split
    · exact hkeep (by simp)
    · exact propped_resume C (propped_drop (hkeep (by simp)) (by simp))
  | check c =>
    have hon : s.triggered c = true → Propped L s := fun hc => propped_move h rfl rfl rfl (fun _ h => h) (fun _ _ h => .inl h)
      (fun d hm => by rcases List.mem_cons.1 hm with hm | hm; exacts [by cases hm; exact .inr ⟨h.known _ (.head _), hc⟩, .inl hm]) (fun _ h => h) (fun _ _ _ _ h => h) hdue hkn
    have htrig : ∀ {s : Sim} (u : Except PyErr SVal), Propped (.check c :: L) s → Propped L (s.trigger c u) := fun {s} u h => by
      refine propped_move (s' := s.trigger c u) h rfl rfl rfl (fun x hx => isSome_fset (fun _ => rfl) hx) (fun x d hm => .inl (by rw [cbs_trigger]; exact hm)) (fun d hm => ?_) (fun x hm => by rw [cbs_trigger] at hm; exact hm)
        (fun x _ _ _ hm => by rw [cbs_trigger] at hm; exact hm) (fun d a b hm => ?_) fun c hm => h.known c (.tail _ hm)
      · rcases List.mem_cons.1 hm with hm | hm
        · cases hm
          refine .inr ⟨h.known c (.head _), ?_⟩
          show (fset s.events c _ c).value.isSome = true
          rw [fset_same]; rfl
        · exact .inl hm
      · have := h.due d a b (.tail _ hm)
        exact ⟨this.1, isSome_fset (fun _ => rfl) this.2⟩
    unfold callback
    dsimp only
    split
    · rename_i hc; exact hon hc
    · rcases v with x | v
      · exact htrig _ (propped_defuse h)
      · exact htrig _ h
  | build c a b =>
    have hc : On s c := h.due c a b (.head _)
    have h1 := propped_drop (ev := a) (c := .check c) (hkeep (by simp)) fun d hd => by cases hd; exact hc
    exact propped_drop h1 fun d hd => by cases hd; exact ⟨hc.1, by rw [triggered_drop]; exact hc.2⟩
  | stop => exact hkeep (by simp)

theorem propped_callbacks (C : Cfg) {ev : ℕ} {v : Except PyErr SVal} (l : List Callback) : ∀ {s : Sim}, Propped l s → Propped [] (l.foldl (callback C ev v) s) := by
  induction l with
  | nil => intro s h; exact h
  | cons cb l ih => intro s h; exact ih (propped_callback C h)

theorem propped_taken {en : Entry} {q : List Entry} (h : Propped [] s) (hi : Inv s) (hq : s.queue = en :: q) :
    Propped (s.cbs en.ev) (s.taken en q) ∧ (.stop ∈ s.cbs en.ev → Propped [] (s.taken en q)) := by
  have hcb : ∀ x, x ≠ en.ev → (s.taken en q).cbs x = s.cbs x := fun x hx => by simp [Sim.cbs, Sim.taken, fset, hx]
  have hno : (s.taken en q).cbs en.ev = [] := by simp [Sim.cbs, Sim.taken, fset]
  have hsub : ∀ x cb, cb ∈ (s.taken en q).cbs x → cb ∈ s.cbs x := fun x cb hm => by
    by_cases he : x = en.ev
    · subst he; rw [hno] at hm; cases hm
    · rw [hcb x he] at hm; exact hm
  have ht : ∀ x, s.triggered x = true → (s.taken en q).triggered x = true := fun x hx => isSome_fset (fun h => h) hx
  have hon : On (s.taken en q) en.ev := ⟨hi.known en (by rw [hq]; exact .head _), ht _ (hi.queued en (by rw [hq]; exact .head _))⟩
  refine ⟨propped_move h rfl rfl rfl ht (fun x c hm => ?_) (fun c hm => by cases hm) (fun x hm => hsub x _ hm) (fun x _ _ _ hm => hsub x _ hm) (fun c a b hm => ?_) fun c hm => (hi.chk _ c hm).1,
    fun hst => propped_move h rfl rfl rfl ht (fun x c hm => ?_) (fun c hm => by cases hm) (fun x hm => hsub x _ hm) (fun x _ _ _ hm => hsub x _ hm) (fun c a b hm => by cases hm) fun c hm => by cases hm⟩
  · by_cases he : x = en.ev
    · subst he; exact .inr (.inl hm)
    · rw [hcb x he]; exact .inl hm
  · rw [← h.blds _ c a b hm]; exact hon
  · by_cases he : x = en.ev
    · subst he; exact .inr (.inr (.inr hst))
    · rw [hcb x he]; exact .inl hm

theorem propped_step {C : Cfg} {r : Stepped} (h : Propped [] s) (hi : Inv s) (hs : s.step C = r) :
    match r with | .ok s' => Propped [] s' | .stopped s' => Propped [] s' | .raised s' _ => Propped [] s' | .empty => True := by
  rcases step_cases hs with ⟨rfl, _⟩ | ⟨en, q, hq, ⟨hst, rfl⟩ | ⟨_, rfl | ⟨x, rfl⟩⟩⟩
  · trivial
  · exact (propped_taken h hi hq).2 hst
  · exact propped_callbacks C _ (propped_taken h hi hq).1
  · exact propped_callbacks C _ (propped_taken h hi hq).1

theorem propped_blank (w : Mach) (args : Option EnvArgs) (t : ℚ) : Propped [] (Sim.blank w args t) := by
  have hcb : ∀ x, (Sim.blank w args t).cbs x = [] := fun x => by
    simp only [Sim.cbs, Sim.blank]
    split <;> rfl
  exact ⟨fun _ _ => rfl, by simp [Sim.blank], by simp [hcb], by simp, by simp⟩

theorem tilts_initExtra : ∀ l : List String, Tilts (initExtra l)
  | [] => tilts_pure
  | n :: r => by
    unfold initExtra
    have := tilts_initExtra r
    split
    · exact this
    · tilts

theorem propped_init (w : Mach) (args : Option EnvArgs) (t : ℚ) : Propped [] (Sim.init w args t) := by
  have : Tilts (do
    let _ ← process .procNew
    initExtra (w.bufs.map Prod.fst)
    if w.env.isSome then do
      let _ ← process .envNew
      pure ()
    else pure () : SimM Unit) := tilts_bind (tilts_process rfl) fun _ => tilts_bind (tilts_initExtra _) fun _ => tilts_ite (tilts_bind (tilts_process rfl) fun _ => tilts_pure) tilts_pure
  have hb := propped_blank w args t
  exact propped_leans hb (this _ hb.vacant).1

theorem propped_setStop {q : ℚ} (h : Propped L s) : Propped L (s.setStop q).1 := by
  unfold Sim.setStop
  split
  · exact h
  · exact propped_leans h (leans_timer h.vacant _ _ (by simp))

theorem propped_reachable {C : Cfg} {w : Mach} {args : Option EnvArgs} {t : ℚ} (h : Reachable C w args t s) : Propped [] s := by
  induction h with
  | init => exact propped_init w args t
  | @stop _ _ q _ _ hs ih => have := propped_setStop (q := q) ih; rw [hs] at this; exact this
  | step hr hs ih => exact propped_step ih (fine_reachable hr).1 hs
  | stopped hr hs ih => exact propped_step ih (fine_reachable hr).1 hs
  | raised hr hs ih => exact propped_step ih (fine_reachable hr).1 hs
  | @compile s1 _ _ _ hs ih =>
    have : Propped [] (compileAtEnd C s1).1 := by
      unfold compileAtEnd
      split
      · split <;> exact propped_leans ih (leans_same ih.vacant rfl rfl rfl rfl)
      · exact ih
    rw [hs] at this; exact this

/-- When nothing is scheduled, every process waits to be activated. -/
theorem idle_of_empty {C : Cfg} {w : Mach} {args : Option EnvArgs} {t : ℚ} (h : Reachable C w args t s) (hq : s.queue = []) {pt : Pt} (hp : s.points p = some pt) :
    (pt = .procIdle ∨ ∃ n, pt = .extraIdle n) ∧ s.triggered (s.target p) = false := by
  have ha := awake_reachable h
  have hr := propped_reachable h
  have hoff : ∀ x cb, cb ∈ s.cbs x → s.triggered x = false := fun x cb hm => by
    rcases ht : s.triggered x with _ | _
    · rfl
    · obtain ⟨en, hen, _⟩ := ha.queued x ht (open_of_mem hm)
      rw [hq] at hen; cases hen
  have htgt : ∀ p pt, s.points p = some pt → s.triggered (s.target p) = false := fun p pt hp => hoff _ _ (ha.woken p pt hp id)
  have hon : ∀ p pt, s.points p = some pt → ¬ On s (s.target p) := fun p pt hp ho => by have := ho.2; rw [htgt p pt hp] at this; cases this
  have hhelp : ∀ p pt, s.points p = some pt → pt.helper = false := fun p pt hp => by
    have hl := hr.live p pt hp
    cases pt with
    | localNew | localWait | envProcNew | envProc => exact absurd hl (hon p _ hp)
    | _ => rfl
  have hstand : ∀ x, Stands s x → s.triggered x = true := fun x hx => hx.2.elim id fun ⟨pt, h1, h2⟩ => by rw [hhelp x pt h1] at h2; cases h2
  refine ⟨?_, htgt p pt hp⟩
  have hl := hr.live p pt hp
  cases pt with
  | procIdle => exact .inl rfl
  | extraIdle n => exact .inr ⟨n, rfl⟩
  | procFirst | procAgain | extraMain | extraCont => have := hstand _ hl; rw [htgt p _ hp] at this; cases this
  | envWait pro k =>
    rcases hl with hl | ⟨_, hc | hc, _, hst⟩
    · exact absurd hl (hon p _ hp)
    · have := hstand _ hst; rw [hoff _ _ hc] at this; cases this
    · cases hc
  | procNew | procSpin | extraNew | localNew | localWait | envNew | envProcNew | envProc => exact absurd hl (hon p _ hp)

end Verif
