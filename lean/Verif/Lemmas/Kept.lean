import Verif.Lemmas.SimReports
import Verif.Lemmas.Awake
import Verif.Spec.Waiting
/-! # Announced events are reported -/
namespace Verif
open Verif.Spec

variable {s s' : Sim} {p : ℕ} {e : Ev} {pt : Pt}

/-- The event a process waits to report. -/
def Pt.event : Pt → Option Ev
  | .localWait _ e _ => some e
  | .envProc e => some e
  | _ => Option.none

theorem announced_iff : Announced s p e ↔ ∃ pt, s.points p = some pt ∧ pt.event = some e := by
  constructor
  · rintro (⟨n, k, h⟩ | h)
    · exact ⟨_, h, rfl⟩
    · exact ⟨_, h, rfl⟩
  · rintro ⟨pt, h, he⟩
    cases pt with
    | localWait n e' k => cases he; exact .inl ⟨n, k, h⟩
    | envProc e' => cases he; exact .inr h
    | _ => cases he

theorem due_of_event (h : pt.event = some e) : pt.due = some e.time := by
  cases pt with
  | localWait n e' k => cases h; rfl
  | envProc e' => cases h; rfl
  | _ => cases h

/-- An announced event is scheduled at its time. -/
theorem waits_for (hi : Inv s) (ha : Awake (fun _ => False) s) (hp : s.points p = some pt) (he : pt.event = some e) :
    .resume p ∈ s.cbs (s.target p) ∧ (s.events (s.target p)).value = some (.ok .nothing) ∧ (∀ en ∈ s.queue, en.ev = s.target p → en.time = e.time) ∧
    ∃ en ∈ s.queue, en.ev = s.target p ∧ s.now ≤ en.time ∧ en.time = e.time := by
  have ht := ptOk_due (hi.wait p pt hp) (due_of_event he)
  have hw := ha.woken p pt hp id
  obtain ⟨en, h1, h2⟩ := ha.queued _ (by rw [ht.1]; rfl) (open_of_mem hw)
  exact ⟨hw, ht.1, fun en h h' => (ht.2 en h h').1, en, h1, h2, hi.ahead en h1, (ht.2 en h1 h2).1⟩

/-- Reporting it. -/
theorem code_reports (C : Cfg) {v : SVal} (he : pt.event = some e) (s : Sim) :
    e.act = .unknown ∨ (code C pt (.ok v) s).1.trace = s.trace ++ [(s.now, e)] := by
  have key : ∀ f : Unit → SimM Res, (∀ a, HushedRes (f a)) → e.act = .unknown ∨ ((printEvent e >>= f) s).1.trace = s.trace ++ [(s.now, e)] := fun f hf => by
    rcases printEvent_cases e with ⟨h, _⟩ | ⟨_, hp⟩
    · exact .inl h
    · right
      show (SimM.bind (printEvent e) f s).1.trace = _
      rw [hp]
      exact (hf () _).1.trace
  cases pt with
  | localWait name e' k =>
    cases he
    exact key _ fun _ => hushed_bindRes hushed_activateProc fun _ => hushed_bindRes hushed_envInteraction fun _ => hushed_bindRes hushed_get fun w => hushed_localRun
  | envProc e' => cases he; exact key _ fun _ => hushed_bindRes hushed_activateProc fun _ => hushed_done
  | _ => cases he

theorem resume_reports (C : Cfg) {v : SVal} (hp : s.points p = some pt) (he : pt.event = some e) :
    e.act = .unknown ∨ (s.resume C p (.ok v)).trace = s.trace ++ [(s.now, e)] := by
  have h := code_reports C (v := v) he s
  unfold Sim.resume
  rw [hp]
  dsimp only
  rcases hr : code C pt (.ok v) s with ⟨s1, x | r⟩
  · rw [hr] at h; exact h
  · rw [hr] at h
    cases r <;> exact h

theorem kept_callbacks (C : Cfg) {ev : ℕ} {v : Except PyErr SVal} (hpt : pt.event = some e) : ∀ (l : List Callback) {s : Sim}, Good C.ruleFiring s → Apart s → Pending ev v l s →
    s.points p = some pt → .interrupt p ∉ l →
    s.trace <+: (l.foldl (callback C ev v) s).trace ∧
    (.resume p ∉ l → (l.foldl (callback C ev v) s).points p = some pt ∧ (l.foldl (callback C ev v) s).target p = s.target p) ∧
    (.resume p ∈ l → v = .ok .nothing → e.act = .unknown ∨ s.trace ++ [(s.now, e)] <+: (l.foldl (callback C ev v) s).trace)
  | [], s, _, _, _, hp, _ => ⟨List.prefix_rfl, fun _ => ⟨hp, rfl⟩, fun h => by cases h⟩
  | cb :: l, s, h, ha, hpd, hp, hi => by
    obtain ⟨g1, g2, r, ho, hr⟩ := good_callback C h hpd
    obtain ⟨a1, a2, _⟩ := apart_callback C h ha hpd
    have hlt := points_lt h.1.1 hp
    have hpre : s.trace <+: (callback C ev v s cb).trace := by
      rcases a2 with a2 | ⟨x, _, a2⟩
      · rw [a2]
      · rw [a2]; exact List.prefix_append _ _
    have hrest : ∀ l' : List Callback, ∀ s1 : Sim, Good C.ruleFiring s1 → Apart s1 → Pending ev v l' s1 → s1.trace <+: (l'.foldl (callback C ev v) s1).trace := by
      intro l'
      induction l' with
      | nil => intro s1 _ _ _; exact List.prefix_rfl
      | cons cb' l' ih =>
        intro s1 h1 h2 h3
        obtain ⟨g1, g2, _⟩ := good_callback C h1 h3
        obtain ⟨a1, a2, _⟩ := apart_callback C h1 h2 h3
        refine List.IsPrefix.trans ?_ (ih _ g1 a1 g2)
        rcases a2 with a2 | ⟨x, _, a2⟩
        · rw [a2]
        · rw [a2]; exact List.prefix_append _ _
    by_cases hcb : cb = .resume p
    · subst hcb
      refine ⟨hpre.trans (hrest l _ g1 a1 g2), fun hn => absurd (List.mem_cons_self ..) hn, fun _ hv => ?_⟩
      subst hv
      rcases resume_reports C (v := .nothing) hp hpt with h1 | h1
      · exact .inl h1
      · right
        have := hrest l _ g1 a1 g2
        rw [List.foldl_cons]
        rwa [show (callback C ev (.ok .nothing) s (.resume p)).trace = s.trace ++ [(s.now, e)] from h1] at this
    · have hci : cb ≠ .interrupt p := fun hc => hi (hc ▸ List.mem_cons_self ..)
      have hne : p ≠ r := by
        rintro rfl
        rcases hr with hr | ⟨hr | hr, _⟩
        · omega
        · exact hcb hr
        · exact hci hr
      have hp1 : (callback C ev v s cb).points p = some pt := by rw [ho.points p hlt hne]; exact hp
      obtain ⟨k1, k2, k3⟩ := kept_callbacks C hpt l g1 a1 g2 hp1 (fun hm => hi (List.mem_cons_of_mem _ hm))
      rw [ho.now] at k3
      refine ⟨hpre.trans k1, fun hn => ?_, fun hm hv => ?_⟩
      · obtain ⟨k4, k5⟩ := k2 fun hm => hn (List.mem_cons_of_mem _ hm)
        exact ⟨k4, k5.trans (ho.target p hlt hne)⟩
      · rcases List.mem_cons.1 hm with hm | hm
        · exact absurd hm.symm hcb
        · rcases k3 hm hv with k3 | k3
          · exact .inl k3
          · right
            rw [List.foldl_cons]
            rcases a2 with a2 | ⟨x, _, a2⟩
            · rwa [a2] at k3
            · -- two reports in one step: impossible
              exfalso
              obtain ⟨_, b2, _⟩ := apart_callbacks C (cb :: l) h ha hpd
              rw [List.foldl_cons] at b2
              rw [a2] at k3
              have hlen := k3.length_le
              rcases b2 with b2 | ⟨y, _, b2⟩ <;> rw [b2] at hlen <;> simp at hlen

/-- One step. -/
theorem kept_step {C : Cfg} (hf : Fine C.ruleFiring s) (hap : Apart s) (haw : Awake (fun _ => False) s) (hp : s.points p = some pt) (he : pt.event = some e)
    (hs : Stepped.leads (s.step C) s') : s.trace <+: s'.trace ∧ (Interrupts s p ∨ s'.points p = some pt ∨
      (s'.now = e.time ∧ (e.act = .unknown ∨ s'.trace = s.trace ++ [(e.time, e)]))) := by
  obtain ⟨hw, hv, hall, _⟩ := waits_for hf.1 haw hp he
  have key : ∀ en q, s.queue = en :: q → .stop ∉ s.cbs en.ev → s.trace <+: (s.called C en q).trace ∧ (Interrupts s p ∨ (s.called C en q).points p = some pt ∨
      ((s.called C en q).now = e.time ∧ (e.act = .unknown ∨ (s.called C en q).trace = s.trace ++ [(e.time, e)]))) := by
    intro en q hq hst
    have hnow := (fine_called C hf hq hst).2.now
    obtain ⟨_, hone⟩ := apart_called C hf hap hq hst
    refine ⟨?_, ?_⟩
    · rcases hone with h | ⟨x, _, h⟩
      · rw [h]
      · rw [h]; exact List.prefix_append _ _
    by_cases hin : .interrupt p ∈ s.cbs en.ev
    · left
      obtain ⟨l, hl⟩ := Option.isSome_iff_exists.1 (open_of_mem hin)
      refine ⟨en, q, hq, l, hl, ?_⟩
      unfold Sim.cbs at hin
      rwa [hl] at hin
    right
    have hft := fine_taken hf hq
    rcases hf.1.grid en (by rw [hq]; exact .head _) with hg | hg
    · obtain ⟨_, k2, k3⟩ := kept_callbacks C he (s.cbs en.ev) (s := s.taken en q) ⟨⟨hft.1, hg⟩, hft.2⟩ hap (pending_taken hf.1 hq) hp hin
      by_cases hr : .resume p ∈ s.cbs en.ev
      · right
        have htg : s.target p = en.ev := (hf.1.res _ _ hr).1
        have htime : en.time = e.time := hall en (by rw [hq]; exact .head _) htg.symm
        refine ⟨hnow.trans htime, ?_⟩
        rw [htg] at hv
        rcases k3 hr (by rw [hv]; rfl) with k3 | k3
        · exact .inl k3
        · right
          change s.trace ++ [(en.time, e)] <+: (s.called C en q).trace at k3
          rw [← htime]
          refine (k3.eq_of_length_le ?_).symm
          rcases hone with h | ⟨x, _, h⟩ <;> rw [h] <;> simp
      · exact .inl (k2 hr).1
    · have hnil : s.cbs en.ev = [] := by
        have := hg.resolve_left hst
        simp [Sim.cbs, this]
      left
      unfold Sim.called
      rw [hnil]; exact hp
  have hc : ∀ r, s.step C = r → (r = .ok s' ∨ r = .stopped s' ∨ ∃ x, r = .raised s' x) → s.trace <+: s'.trace ∧ (Interrupts s p ∨ s'.points p = some pt ∨
      (s'.now = e.time ∧ (e.act = .unknown ∨ s'.trace = s.trace ++ [(e.time, e)]))) := by
    intro r hr hl
    rcases step_cases hr with ⟨rfl, _⟩ | ⟨en, q, hq, ⟨_, rfl⟩ | ⟨hst, rfl | ⟨x, rfl⟩⟩⟩
    · rcases hl with hl | hl | ⟨x, hl⟩ <;> cases hl
    · rcases hl with hl | hl | ⟨x, hl⟩ <;> cases hl
      exact ⟨List.prefix_rfl, .inr (.inl hp)⟩
    · rcases hl with hl | hl | ⟨x, hl⟩ <;> cases hl
      exact key en q hq hst
    · rcases hl with hl | hl | ⟨x, hl⟩ <;> cases hl
      exact key en q hq hst
  exact hc _ rfl hs

end Verif
