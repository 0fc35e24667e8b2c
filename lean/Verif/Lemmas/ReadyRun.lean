import Verif.Lemmas.ReadyStep
/-! # Modules and their interruptions: all states of simulations -/
namespace Verif
open Verif.Spec

variable {D : String → ℕ} {X : ℕ → Prop} {s s' : Sim} {p e : ℕ} {A B : Type}

theorem alook_append_some {α : Type} {n m : String} {a b : α} {l : List (String × α)} (h : alook n l = some a) : alook n (l ++ [(m, b)]) = some a := by
  induction l with
  | nil => cases h
  | cons x r ih =>
    obtain ⟨k, c⟩ := x
    simp only [List.cons_append, alook] at h ⊢
    split
    · rw [if_pos ‹_›] at h; exact h
    · rw [if_neg ‹_›] at h; exact ih h

theorem alook_append_none {α : Type} {n : String} {b : α} {l : List (String × α)} (h : alook n l = Option.none) : alook n (l ++ [(n, b)]) = some b := by
  induction l with
  | nil => simp [alook]
  | cons x r ih =>
    obtain ⟨k, c⟩ := x
    simp only [List.cons_append, alook] at h ⊢
    split
    · rw [if_pos ‹_›] at h; cases h
    · rw [if_neg ‹_›] at h; exact ih h

theorem alook_append_other {α : Type} {n m : String} {b : α} {l : List (String × α)} (hn : m ≠ n) (h : alook m l = Option.none) : alook m (l ++ [(n, b)]) = Option.none := by
  induction l with
  | nil => simp [alook, hn.symm]
  | cons x r ih =>
    obtain ⟨k, c⟩ := x
    simp only [List.cons_append, alook] at h ⊢
    split
    · rw [if_pos ‹_›] at h; cases h
    · rw [if_neg ‹_›] at h; exact ih h

/-- The state with one more module. -/
def Sim.withModule (s : Sim) (n : String) : Sim :=
  let s1 := (s.alloc ⟨Option.none, false, some []⟩).alloc ⟨some (.ok .nothing), false, some [.resume s.next]⟩
  let s2 := (s1.schedule (s.next + 1) true 0).alloc ⟨Option.none, false, some []⟩
  { s2 with extra := s2.extra ++ [(n, s.next)], activate := s2.activate ++ [(n, s.next + 2)], points := fset s2.points s.next (some (.extraNew n)), target := fset s2.target s.next (s.next + 1) }

theorem initExtra_cons (n : String) (r : List String) (s : Sim) : initExtra (n :: r) s = initExtra r (if n = procName then s else s.withModule n) := by
  conv_lhs => unfold initExtra
  by_cases h : n = procName
  · simp only [if_pos h]
    try rfl
  · simp only [if_neg h]; rfl

theorem ready_module_new {n : String} (h : Ready D (fun _ => False) s) (hn : alook n s.extra = Option.none) : Ready D (fun _ => False) (s.withModule n) := by
  have hb := h.blank s.next le_rfl
  set s1 := s.alloc ⟨Option.none, false, some []⟩ with hs1
  have h1 : Ready D (fun _ => False) s1 := ready_alloc h (by simp) (by simp) (by simp)
  set sa := s1.alloc ⟨some (.ok .nothing), false, some [.resume s.next]⟩ with hsa
  have ha : Ready D (fun _ => False) sa := ready_alloc h1 (by simp) (by simp) (by simp)
  have hcb : ∀ ev cb, cb ∈ sa.cbs ev → cb ∈ s.cbs ev ∨ (cb = .resume s.next ∧ ev = s.next + 1) := fun ev cb hm => by
    by_cases he : ev = s1.next
    · subst he; rw [hsa, cbs_alloc_new] at hm; exact .inr ⟨by simpa using hm, rfl⟩
    · rw [hsa, cbs_alloc_old he, hs1] at hm
      by_cases he' : ev = s.next
      · subst he'; rw [cbs_alloc_new] at hm; simp at hm
      · rw [cbs_alloc_old he'] at hm; exact .inl hm
  have hnotint : ∀ q, .interrupt q ∉ sa.cbs (s.next + 1) := fun q hq => by
    rcases hcb _ _ hq with hq | ⟨hq, _⟩
    · exact absurd (lt_of_mem h.poised hq) (by omega)
    · cases hq
  set sb := sa.schedule (s.next + 1) true 0 with hsb
  have pb : Pace s sb := pace_schedule (pace_trans _ _ _ (pace_alloc s _ hb.1) (pace_alloc s1 _ (h1.blank _ le_rfl).1)) (fun _ => by omega)
  have hbp : Ready D (fun _ => False) sb := by
    refine ⟨poised_insert ha.poised (Nat.lt_succ_self _) (fun _ x hx => h1.poised.known x hx) (fun p hm => absurd hm (hnotint p)) (fun _ p hm pt hp => ?_) (fun p hm => absurd hm (hnotint p)),
      placed_pace pb h.placed (fun _ _ h => .inl h) (.inl rfl) (.inl rfl), ha.blank⟩
    rcases hcb _ _ hm with hm | ⟨hm, _⟩
    · exact absurd (lt_of_mem h.poised hm) (by omega)
    · cases hm
      have hp : s.points s.next = some pt := hp
      rw [hb.2] at hp; cases hp
  set sc := sb.alloc ⟨Option.none, false, some []⟩ with hsc
  have hc : Ready D (fun _ => False) sc := ready_alloc hbp (by simp) (by simp) (by simp)
  have pc : Pace s sc := pace_trans _ _ _ pb (pace_alloc sb _ (hbp.blank _ le_rfl).1)
  have hcc : ∀ ev cb, cb ∈ sc.cbs ev → cb ∈ s.cbs ev ∨ (cb = .resume s.next ∧ ev = s.next + 1) := fun ev cb hm => by
    by_cases he : ev = sb.next
    · subst he; rw [hsc, cbs_alloc_new] at hm; simp at hm
    · rw [hsc, cbs_alloc_old he] at hm; exact hcb ev cb hm
  have hnext : sc.next = s.next + 3 := rfl
  have hpts : sc.points = s.points := rfl
  have hun : ∀ ev cb, s.next ≤ ev → cb ∉ s.cbs ev := fun ev cb hev hm => absurd (lt_of_mem h.poised hm) (by omega)
  have hm2 : Mellow sc (s.next + 2) := by
    refine ⟨by omega, fun q hq => ?_, fun x hx he => ?_⟩
    · rcases hcc _ _ hq with hq | ⟨hq, _⟩
      · exact hun _ _ (by omega) hq
      · cases hq
    · rcases (mem_insertEntry _ _ _).1 hx with rfl | hx
      · exact absurd (show s.next + 1 = s.next + 2 from he) (by omega)
      · exact absurd (h.poised.known x hx) (by omega)
  set sd : Sim := { sc with extra := sc.extra ++ [(n, s.next)], activate := sc.activate ++ [(n, s.next + 2)] } with hsd
  have hact : ∀ m b, (m, b) ∈ sd.activate → (m = n ∧ b = s.next + 2) ∨ (m, b) ∈ s.activate := fun m b hm => by
    rcases List.mem_append.1 hm with hm | hm
    · exact .inr hm
    · simp only [List.mem_singleton, Prod.mk.injEq] at hm; exact .inl hm
  have hd : Poised D (fun _ => False) sd := by
    have hp := hc.poised
    constructor
    · exact hp.sorted
    · exact hp.ord
    · exact hp.known
    · exact hp.born
    · exact hp.unborn
    · exact hp.run
    · exact hp.intr
    · exact hp.now
    · intro m q hm
      rcases List.mem_append.1 hm with hm | hm
      · exact hp.extra m q hm
      · simp only [List.mem_singleton, Prod.mk.injEq] at hm
        obtain ⟨rfl, rfl⟩ := hm
        refine ⟨by show _ < s.next + 3; omega, fun pt hpt => ?_⟩
        have hpt : s.points s.next = some pt := hpt
        rw [hb.2] at hpt; cases hpt
    · exact hp.refs
    · exact fun q pt m h1 h2 h3 => alook_append_some (hp.kind q pt m h1 h2 h3)
    · exact hp.init
    · exact hp.urg
    · exact hp.one
    · intro m b hm
      rcases hact m b hm with ⟨rfl, rfl⟩ | hm
      · refine ⟨by show _ < s.next + 3; omega, fun he => ?_, fun q hq => ?_⟩
        · have := h.placed.proc.1
          have he : s.next + 2 = s.procActivate := he
          omega
        · rcases hcc _ _ hq with hq | ⟨_, hq⟩
          · exact absurd hq (hun _ _ (by omega))
          · omega
      · exact hp.act m b hm
    · intro m k b h1 h2
      rcases hact m b h1 with ⟨rfl, h3⟩ | h3 <;> rcases hact k b h2 with ⟨rfl, h4⟩ | h4
      · rfl
      · exact absurd (h.placed.act k b h4).1 (by omega)
      · exact absurd (h.placed.act m b h3).1 (by omega)
      · exact hp.dist m k b h3 h4
    · exact hp.proc
    · exact fun q m h1 h2 => (hp.idle q m h1 h2).imp_left alook_append_some
    · exact fun q pt m h1 h2 h3 => ⟨(hp.busy q pt m h1 h2 h3).1.imp fun a y => y.imp_left alook_append_some, (hp.busy q pt m h1 h2 h3).2⟩
    · exact hp.newb
    · exact hp.gens
  have hpt : Poised D (fun _ => False) (s.withModule n) := by
    refine poised_point (s := sd) (p := s.next) (pt := .extraNew n) hd hb.2 id (by show _ < s.next + 3; omega) rfl rfl ⟨⟨sa.now + 0, true, s.next + 1⟩, (mem_insertEntry _ _ _).2 (.inl rfl), rfl, rfl, (add_zero _).le⟩ (fun ev hm => ?_) (fun m hm => ?_) (fun q pt' hq he => ?_) (fun m hm => ?_) trivial (fun m a ha hm => ?_)
    · rcases hcc ev _ hm with hm | ⟨hm, _⟩
      · exact absurd (h.poised.intr ev _ hm).2.2.2.1 (by omega)
      · cases hm
    · rcases List.mem_append.1 hm with hm | hm
      · exact absurd (h.poised.extra m _ hm).1 (by omega)
      · simp only [List.mem_singleton, Prod.mk.injEq] at hm
        rw [hm.1]; rfl
    · exact absurd (h.poised.refs q pt' _ hq he).1 (by omega)
    · cases hm; exact alook_append_none hn
    · rcases hact m a ha with ⟨_, rfl⟩ | ha
      · rcases hcc _ _ hm with hm | ⟨_, hm⟩
        · exact hun _ _ (by omega) hm
        · omega
      · have := (h.placed.act m a ha).1
        rcases hcc a _ hm with hm | ⟨_, hm⟩
        · have := (h.poised.act m a ha).2.2 _ hm
          rw [hb.2] at this; cases this
        · omega
  have hmel : ∀ a, Mellow sc a → Mellow (s.withModule n) a := fun a h => h
  have hpl : ∀ a, Mellow s a → Mellow (s.withModule n) a := fun a h => hmel a (mellow_pace pc h)
  refine ⟨hpt, ⟨fun m b hm => ?_, hpl _ h.placed.proc, hpl _ h.placed.env⟩, fun x hx => ?_⟩
  · rcases hact m b hm with ⟨_, rfl⟩ | hm
    · exact hmel _ hm2
    · exact hpl _ (h.placed.act m b hm)
  · have hx : s.next + 3 ≤ x := hx
    exact ⟨(hc.blank x hx).1, (fset_other _ _ (by omega)).trans (h.blank x (by omega)).2⟩

theorem ready_initExtra : ∀ (l : List String) {s : Sim}, Ready D (fun _ => False) s → l.Nodup → (∀ n ∈ l, alook n s.extra = Option.none) → Ready D (fun _ => False) (initExtra l s).1 ∧ (initExtra l s).2 = .ok ()
  | [], _, h, _, _ => ⟨h, rfl⟩
  | n :: r, s, h, hd, hn => by
    obtain ⟨h1, h2⟩ := List.nodup_cons.1 hd
    rw [initExtra_cons]
    split
    · exact ready_initExtra r h h2 fun m hm => hn m (.tail _ hm)
    · refine ready_initExtra r (ready_module_new h (hn n (.head _))) h2 fun m hm => ?_
      exact alook_append_other (fun he => h1 (he ▸ hm)) (hn m (.tail _ hm))

theorem ready_blank (w : Mach) (args : Option EnvArgs) (t : ℚ) : Ready D (fun _ => False) (Sim.blank w args t) := by
  have hcb : ∀ x, (Sim.blank w args t).cbs x = [] := fun x => by
    simp only [Sim.cbs, Sim.blank]
    split <;> rfl
  have hno : ∀ x cb, cb ∉ (Sim.blank w args t).cbs x := fun x cb hm => by rw [hcb] at hm; cases hm
  have hpts : ∀ q pt, (Sim.blank w args t).points q ≠ some pt := fun q pt h => by cases h
  refine ⟨⟨.nil, .nil, (fun en h => by cases h), (fun q pt h => absurd h (hpts q pt)), fun ev _ => hcb ev, fun _ h => h.elim, fun ev q h => absurd h (hno _ _), (fun en h => by cases h), (fun n q h => by cases h),
    fun q pt r h => absurd h (hpts q pt), fun q pt n h => absurd h (hpts q pt), fun q pt h => absurd h (hpts q pt), (fun en h => by cases h), fun ev q r h => absurd h (hno _ _), (fun n a h => by cases h), (fun n m a h => by cases h),
    ⟨by show 0 < 2; omega, fun q h => absurd h (hno _ _)⟩, fun q n h => absurd h (hpts q _), fun q pt n h => absurd h (hpts q pt), fun q n h => absurd h (hpts q _), fun q pt h => absurd h (hpts q pt)⟩,
    ⟨(fun n a h => by cases h), ⟨by show 0 < 2; omega, fun q h => hno _ _ h, fun en h => by cases h⟩, ⟨by show 1 < 2; omega, fun q h => hno _ _ h, fun en h => by cases h⟩⟩, fun x _ => ⟨rfl, rfl⟩⟩

theorem ready_init (w : Mach) (args : Option EnvArgs) (t : ℚ) (hw : (w.bufs.map Prod.fst).Nodup) : Ready (fun _ => 0) (fun _ => False) (Sim.init w args t) := by
  have h1 : Readies (fun _ => False) (process .procNew) (Sim.blank w args t) (fun _ _ => True) := does_mono (readies_process (ready_blank w args t) (fun _ h => h.elim) rfl rfl rfl trivial) fun _ _ _ _ _ => trivial
  have h2 := ready_initExtra (w.bufs.map Prod.fst) (s := (process .procNew (Sim.blank w args t)).1) h1.1 hw fun n _ => rfl
  have h3 : Readies (fun _ => False) (if w.env.isSome then do
      let _ ← process .envNew
      pure ()
    else pure () : SimM Unit) (initExtra (w.bufs.map Prod.fst) (process .procNew (Sim.blank w args t)).1).1 (fun _ _ => True) := by
    split
    · exact readies_bind (readies_process h2.1 (fun _ h => h.elim) rfl rfl rfl trivial) fun _ s3 h3 _ _ => readies_pure h3 trivial
    · exact readies_pure h2.1 trivial
  unfold Sim.init
  show Ready _ _ (SimM.bind (initExtra (w.bufs.map Prod.fst)) _ (process .procNew (Sim.blank w args t)).1).1
  unfold SimM.bind
  rcases hr : initExtra (w.bufs.map Prod.fst) (process .procNew (Sim.blank w args t)).1 with ⟨s1, r⟩
  rw [hr] at h2 h3
  have h22 : r = .ok () := h2.2
  subst h22
  exact h3.1

theorem ready_setStop {q : ℚ} (h : Ready (fun _ => 0) (fun _ => False) s) : Ready (fun _ => 0) (fun _ => False) (s.setStop q).1 := by
  unfold Sim.setStop
  split
  · exact h
  · have h1 : Ready (fun _ => 0) (fun _ => False) (s.alloc ⟨some (.ok .nothing), false, some [.stop]⟩) := ready_alloc h (by simp) (by simp) (by simp)
    have hc : (s.alloc ⟨some (.ok .nothing), false, some [.stop]⟩).cbs s.next = [.stop] := cbs_alloc_new
    have hp : Pace s ((s.alloc ⟨some (.ok .nothing), false, some [.stop]⟩).schedule s.next true (q - s.now)) := pace_schedule (pace_alloc _ _ (h.blank _ le_rfl).1) (fun _ => le_rfl)
    refine ⟨poised_insert h1.poised (Nat.lt_succ_self _) (fun _ x hx => h.poised.known x hx) (fun p hm => ?_) (fun _ p hm => ?_) (fun p hm => ?_), placed_pace hp h.placed (fun _ _ h => .inl h) (.inl rfl) (.inl rfl), h1.blank⟩ <;>
    · rw [hc] at hm; simp at hm

theorem ready_reachable {C : Cfg} {w : Mach} {args : Option EnvArgs} {t : ℚ} (hw : (w.bufs.map Prod.fst).Nodup) (h : Reachable C w args t s) : Ready (fun _ => 0) (fun _ => False) s := by
  induction h with
  | init => exact ready_init w args t hw
  | @stop _ _ q _ _ hs ih => have := ready_setStop (q := q) ih; rw [hs] at this; exact this
  | step hr hs ih => exact ready_step ih (fine_reachable hr) (awake_reachable hr) hs
  | stopped hr hs ih => exact ready_step ih (fine_reachable hr) (awake_reachable hr) hs
  | raised hr hs ih => exact ready_step ih (fine_reachable hr) (awake_reachable hr) hs
  | @compile s1 _ _ _ hs ih =>
    have hw : ∀ w', w'.procs = s1.w.procs → Ready (fun _ => 0) (fun _ => False) { s1 with w := w' } := fun w' hp => ready_w (a := s1.envArgs) ih (gains_procs hp)
    have : Ready (fun _ => 0) (fun _ => False) (compileAtEnd C s1).1 := by
      have hp := procs_compileIn C s1.w
      unfold compileAtEnd
      split
      · rcases hc : compileIn C s1.w with ⟨w', x | v⟩ <;> rw [hc] at hp <;> exact hw w' hp
      · exact ih
    rw [hs] at this; exact this

end Verif
