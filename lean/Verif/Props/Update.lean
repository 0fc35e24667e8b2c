import Verif.Props.Cycle
import Verif.Spec.Update
import Verif.Lemmas.Confined
import Mathlib.Tactic.IntervalCases
/-! # Properties C31 and C32: the right-hand side of rules -/
namespace Verif.Props
open Verif Verif.Spec

/-! ## Sorting -/

theorem codeRank_iff (c : Char) (r : ℕ) : codeRank c = some r ↔ ∃ s, stages[r]? = some s ∧ c ∈ s := by
  have h6 : 6 ≤ r → stages[r]? = Option.none := fun h => by simp [stages]; omega
  unfold codeRank
  constructor
  · intro h
    split_ifs at h with h1 h2 h3 h4 h5 h6 h7 <;> cases h <;> subst_vars <;> exact ⟨_, rfl, by decide⟩
  · rintro ⟨s, hs, hc⟩
    rcases Nat.lt_or_ge r 6 with h | h
    · interval_cases r <;> simp only [stages, List.getElem?_cons_zero, List.getElem?_cons_succ, Option.some.injEq] at hs <;> subst hs <;>
        simp only [List.mem_cons, List.not_mem_nil, or_false] at hc <;> first | (subst hc; decide) | (rcases hc with rfl | rfl <;> decide)
    · rw [h6 h] at hs; cases hs

theorem before_iff (c d : Char) : Before c d ↔ ∃ i j, i < j ∧ codeRank c = some i ∧ codeRank d = some j := by
  constructor
  · rintro ⟨i, j, a, b, h, ha, hb, hc, hd⟩
    exact ⟨i, j, h, (codeRank_iff c i).2 ⟨a, ha, hc⟩, (codeRank_iff d j).2 ⟨b, hb, hd⟩⟩
  · rintro ⟨i, j, h, hc, hd⟩
    obtain ⟨a, ha, hc⟩ := (codeRank_iff c i).1 hc
    obtain ⟨b, hb, hd⟩ := (codeRank_iff d j).1 hd
    exact ⟨i, j, a, b, h, ha, hb, hc, hd⟩

theorem flatMap_rank_perm {A : Type} (f : A → Option ℕ) (l : List A) : ∀ n, ((List.range n).flatMap (fun r => l.filter (fun a => f a = some r))).Perm
    (l.filter (fun a => ∃ r < n, f a = some r))
  | 0 => by simp
  | n + 1 => by
    rw [List.range_succ, List.flatMap_append]
    simp only [List.flatMap_cons, List.flatMap_nil, List.append_nil]
    have h1 := (flatMap_rank_perm f l n).append_right (l.filter (fun a => f a = some n))
    refine h1.trans ?_
    have h2 := List.filter_append_perm (fun a => decide (f a ≠ some n)) (l.filter (fun a => decide (∃ r < n + 1, f a = some r)))
    refine List.Perm.trans (List.Perm.of_eq ?_) h2
    rw [List.filter_filter, List.filter_filter]
    congr 1 <;> apply List.filter_congr <;> intro a _ <;> cases hf : f a with
    | none => simp
    | some r => by_cases hr : r = n <;> simp [hr] <;> omega

theorem flatMap_rank_filter {A : Type} (f : A → Option ℕ) (l : List A) (i : ℕ) : ∀ n,
    ((List.range n).flatMap (fun r => l.filter (fun a => f a = some r))).filter (fun a => f a = some i) =
      if i < n then l.filter (fun a => f a = some i) else []
  | 0 => by simp
  | n + 1 => by
    rw [List.range_succ, List.flatMap_append, List.filter_append, flatMap_rank_filter f l i n]
    simp only [List.flatMap_cons, List.flatMap_nil, List.append_nil, List.filter_filter]
    by_cases hi : i = n
    · subst hi; simp
    · have : l.filter (fun a => decide (f a = some i) && decide (f a = some n)) = [] := by
        rw [List.filter_eq_nil_iff]
        intro a _
        simp only [Bool.and_eq_true, decide_eq_true_eq, not_and]
        intro h1 h2
        rw [h1] at h2; cases h2; exact hi rfl
      rw [this, List.append_nil]
      by_cases hlt : i < n
      · simp [hlt, Nat.lt_succ_of_lt hlt]
      · rw [if_neg hlt, if_neg (by omega)]

theorem sortRhs_ok {rhs sorted : List (Key × RVal)} (h : sortRhs rhs = .ok sorted) :
    Arranged rhs sorted ∧ ∀ a ∈ rhs, ∃ s ∈ stages, a.1.code ∈ s := by
  unfold sortRhs at h
  split at h
  · rename_i hall
    cases h
    have hk : ∀ a ∈ rhs, ∃ r < 6, codeRank a.1.code = some r := by
      intro a ha
      have := List.all_eq_true.1 hall a ha
      obtain ⟨r, hr⟩ := Option.isSome_iff_exists.1 this
      refine ⟨r, ?_, hr⟩
      obtain ⟨s, hs, _⟩ := (codeRank_iff _ _).1 hr
      exact (List.getElem?_eq_some_iff.1 hs).1
    refine ⟨⟨?_, ?_, ?_⟩, fun a ha => ?_⟩
    · refine (flatMap_rank_perm (fun a : Key × RVal => codeRank a.1.code) rhs 6).trans (List.Perm.of_eq (List.filter_eq_self.2 fun a ha => ?_))
      simpa using hk a ha
    · rw [List.pairwise_flatMap]
      refine ⟨fun r _ => ?_, ?_⟩
      · refine List.pairwise_of_forall_mem_list fun a ha b hb hbe => ?_
        obtain ⟨i, j, hij, hi, hj⟩ := (before_iff _ _).1 hbe
        have ha := (List.mem_filter.1 ha).2
        have hb := (List.mem_filter.1 hb).2
        simp only [decide_eq_true_eq] at ha hb
        rw [hb] at hi; rw [ha] at hj
        cases hi; cases hj; omega
      · refine List.Pairwise.imp_of_mem (fun {r r'} _ _ hr a ha b hb hbe => ?_) List.pairwise_lt_range
        obtain ⟨i, j, hij, hi, hj⟩ := (before_iff _ _).1 hbe
        have ha := (List.mem_filter.1 ha).2
        have hb := (List.mem_filter.1 hb).2
        simp only [decide_eq_true_eq] at ha hb
        rw [hb] at hi; rw [ha] at hj
        cases hi; cases hj; omega
    · intro s hs
      obtain ⟨i, hi⟩ := List.getElem?_of_mem hs
      have hi6 : i < 6 := (List.getElem?_eq_some_iff.1 hi).1
      have hiff : ∀ c, (c ∈ s) ↔ codeRank c = some i := fun c => by
        rw [codeRank_iff, hi]; simp
      simp only [hiff]
      rw [flatMap_rank_filter (fun a : Key × RVal => codeRank a.1.code) rhs i 6, if_pos hi6]
    · obtain ⟨r, _, hr⟩ := hk a ha
      obtain ⟨s, hs, hc⟩ := (codeRank_iff _ _).1 hr
      exact ⟨s, List.mem_of_getElem? hs, hc⟩
  · cases h

/-! ## Performing single actions -/

/-- A step that is not reported. -/
def Hidden (y : YV) : Prop := ∃ e, y = .ev e ∧ e.act = .unknown

/-- The generator reports the action as its last event, unless it raises before. -/
def DoesKey (k : Key) : Out Mach YV Unit → Prop
  | .raise _ _ => True
  | .ret _ _ => False
  | .yield _ y f => (Hidden y ∧ ∀ w, DoesKey k (f w)) ∨ ((∃ e, y = .ev e ∧ DoneBy k e) ∧ ∀ w, ∃ w', f w = .ret w' ())

theorem doesKey_bind {A : Type} {k : Key} {f : A → GenM Unit} {o : Out Mach YV A} (ho : o.Yields Hidden) (hf : ∀ a w, DoesKey k (f a w)) :
    DoesKey k (o.bind f) := by
  induction o with
  | yield w y g ih => exact .inl ⟨ho.1, fun w' => ih w' (ho.2 w')⟩
  | ret w a => exact hf a w
  | raise w e => trivial

theorem doesKey_event {k : Key} {t : ℚ} {a : Act} (h : DoneBy k ⟨round4 t, k.name, a⟩) (w : Mach) : DoesKey k (GenM.event t k.name a w) :=
  .inr ⟨⟨_, rfl, h⟩, fun w => ⟨w, rfl⟩⟩

theorem doesKey_event_set {k : Key} {t : ℚ} {a : Act} (h : DoneBy k ⟨round4 t, k.name, a⟩) (f : Mach → Mach) (w : Mach) :
    DoesKey k ((GenM.event t k.name a w).bind (fun _ => GenM.set f)) :=
  .inr ⟨⟨_, rfl, h⟩, fun w => ⟨f w, rfl⟩⟩

theorem doesKey_immediate (C : Cfg) (k : Key) (v : RVal) (bv : BV) (t : ℚ) (w : Mach) (hk : ∃ s ∈ stages, k.code ∈ s)
    (hi : interruptible k.code = false) : DoesKey k (immediate C k v bv t w) := by
  unfold immediate
  split_ifs with h1 h2 h3 h4
  · unfold genExtraTest
    exact doesKey_bind (yields_set _ _) fun _ _ => doesKey_bind (yields_set _ _) fun _ _ => doesKey_bind (yields_set _ _) fun _ _ =>
      doesKey_event ⟨rfl, .inl ⟨h1, rfl⟩⟩ _
  · unfold genExecute
    exact doesKey_bind (yields_set _ _) fun _ _ => doesKey_bind (yields_act _ _) fun _ _ => doesKey_bind (yields_set _ _) fun _ _ =>
      doesKey_event ⟨rfl, .inr (.inl ⟨h2, rfl⟩)⟩ _
  · unfold genModify recordModify
    exact doesKey_bind (yields_set _ _) fun _ _ => doesKey_bind (yields_lift _ _) fun _ _ => doesKey_bind (yields_act _ _) fun _ _ =>
      doesKey_bind (yields_act _ _) fun _ _ => doesKey_bind (yields_set _ _) fun _ _ => doesKey_event ⟨rfl, .inr (.inr (.inl ⟨h3, rfl⟩))⟩ _
  · unfold genOverwrite recordSet
    exact doesKey_bind (yields_set _ _) fun _ _ => doesKey_bind (yields_get _ _) fun _ _ => doesKey_bind (yields_event ⟨_, rfl, rfl⟩ _) fun _ _ =>
      doesKey_bind (yields_lift _ _) fun _ _ => doesKey_bind (yields_set _ _) fun _ _ => doesKey_bind (yields_act _ _) fun _ _ =>
      doesKey_bind (yields_act _ _) fun _ _ => doesKey_bind (yields_set _ _) fun _ _ => doesKey_event ⟨rfl, .inr (.inr (.inr (.inl ⟨h4, _, rfl⟩)))⟩ _
  · have h5 : k.code = '~' := by
      obtain ⟨s, hs, hc⟩ := hk
      simp only [interruptible, Bool.or_eq_false_iff, beq_eq_false_iff_ne] at hi
      simp only [stages, List.mem_cons, List.not_mem_nil, or_false] at hs
      rcases hs with rfl | rfl | rfl | rfl | rfl | rfl <;> simp only [List.mem_cons, List.not_mem_nil, or_false] at hc
      · rcases hc with hc | hc
        · exact absurd hc h1
        · exact absurd hc h2
      · exact absurd hc h3
      · exact absurd hc h4
      · exact absurd hc hi.2
      · exact absurd hc hi.1
      · exact hc
    unfold genClear
    exact doesKey_bind (yields_set _ _) fun _ _ => doesKey_bind (yields_act _ _) fun _ _ =>
      doesKey_event_set ⟨rfl, .inr (.inr (.inr (.inr ⟨h5, rfl⟩)))⟩ _ _

theorem performs_append {a b : List Key} {l m : List YV} (h : Performs a l) (h' : Performs b m) : Performs (a ++ b) (l ++ m) := by
  induction h with
  | nil => exact h'
  | silent h _ ih => exact .silent h ih
  | done h _ ih => exact .done h ih

theorem runs_doesKey {Rel : Mach → Mach → Prop} {k : Key} {o : Out Mach YV Unit} {l : List (Mach × YV)} {e : GEnd Mach Unit} (hr : Runs Rel o l e) (ho : DoesKey k o) :
    (Performs [] (l.map Prod.snd) ∧ ∀ w, e ≠ .ret w ()) ∨ Performs [k] (l.map Prod.snd) := by
  induction hr with
  | ret => exact ho.elim
  | raise => exact .inl ⟨.nil, by simp⟩
  | cut =>
    rcases ho with ⟨⟨e, rfl, he⟩, _⟩ | ⟨⟨e, rfl, he⟩, _⟩
    · exact .inl ⟨.silent he .nil, by simp⟩
    · exact .inr (.done he .nil)
  | yield hw hr ih =>
    rcases ho with ⟨⟨e, rfl, he⟩, hk⟩ | ⟨⟨e, rfl, he⟩, hk⟩
    · rcases ih (hk _) with ⟨h1, h2⟩ | h
      · exact .inl ⟨.silent he h1, h2⟩
      · exact .inr (.silent he h)
    · obtain ⟨w', hk⟩ := hk _
      rw [hk] at hr
      cases hr
      exact .inr (.done he .nil)

/-! ## What single actions leave alone -/

theorem calm_refl (w : Mach) : Calm w w := ⟨rfl, rfl, rfl⟩
theorem calm_trans (a b c : Mach) (h1 : Calm a b) (h2 : Calm b c) : Calm a c := ⟨h2.procs.trans h1.procs, h2.bv.trans h1.bv, h2.names.trans h1.names⟩

theorem calm_of_confined {n : String} {w w' : Mach} (h : Confined n w w') : Calm w w' := by
  refine ⟨h.procs, h.bv, ?_⟩
  have := congrArg (List.map Prod.fst) h.shape
  simpa [List.map_map, Function.comp_def] using this

theorem calm_upd (w : Mach) (n : String) (f : Buf → Buf) : Calm w (w.upd n f) := ⟨by simp, by simp, names_upd w n f⟩

theorem calm_immediate (C : Cfg) (k : Key) (v : RVal) (bv : BV) (t : ℚ) (w : Mach) : (immediate C k v bv t w).Moves Calm w :=
  moves_mono (fun _ _ => calm_of_confined) ((confined_immediate C k v bv t).moves w)

/-! ## The loop -/

theorem interruptible_iff (c : Char) : decide (c = '+' ∨ c = '*') = interruptible c := by
  rw [Bool.decide_or]
  rfl

theorem atOnce_eq (l : List (Key × RVal)) : atOnce l = l.filter (fun a => !interruptible a.1.code) := by
  unfold atOnce
  congr 1
  funext a
  rw [← interruptible_iff, decide_not]

theorem queued_eq (l : List (Key × RVal)) : queued l = l.filter (fun a => interruptible a.1.code) := by
  unfold queued
  congr 1
  funext a
  rw [← interruptible_iff]

theorem updateLoop_runs (C : Cfg) (t : ℚ) (w0 : Mach) : ∀ (acts : List (Key × RVal)) (temp : BV) (w : Mach) (l : List (Mach × YV)) (e : GEnd Mach BV),
    (∀ a ∈ acts, ∃ s ∈ stages, a.1.code ∈ s) → w.bv = w0.bv → Runs Calm (updateLoop C t acts temp w) l e →
    ∃ done rest, acts = done ++ rest ∧ Performs ((atOnce done).map Prod.fst) (l.map Prod.snd) ∧
      ∀ w' bv', e = .ret w' bv' → rest = [] ∧ bv' = acts.foldl (fun bv a => bv.popVar a.1.name) temp ∧ w'.bv = w.bv ∧
        w'.bufs.map Prod.fst = w.bufs.map Prod.fst ∧ ∃ reqs, w'.procs = w.procs ++ reqs ∧ List.Forall₂ (Requested w0.bv t) (queued acts) reqs
  | [], temp, w, l, e, _, _, hr => by
    simp only [updateLoop, genM_pure'_apply] at hr
    cases hr
    refine ⟨[], [], rfl, .nil, fun w' bv' h => ?_⟩
    cases h
    exact ⟨rfl, rfl, rfl, rfl, [], by simp, .nil⟩
  | (k, v) :: acts, temp, w, l, e, hk, hbv, hr => by
    simp only [updateLoop, genM_bind_apply, genM_get_apply, genM_set_apply, out_bind_ret] at hr
    cases hb : w.buf k.name with
    | none =>
      rw [genM_act_error (w' := w) (e := .key) (by simp [hb])] at hr
      cases hr
      exact ⟨[], _, rfl, .nil, by simp⟩
    | some b =>
    rw [genM_act_ok (w' := w) (a := ()) (by simp [hb])] at hr
    simp only [out_bind_ret] at hr
    have hk' : ∀ a ∈ acts, ∃ s ∈ stages, a.1.code ∈ s := fun a ha => hk a (.tail _ ha)
    have hs := calm_upd w k.name (fun b => { b with state := .busy })
    cases hi : interruptible k.code with
    | true =>
      simp only [hi, if_true, genM_bind_apply, genM_get_apply, genM_set_apply, out_bind_ret] at hr
      obtain ⟨done, rest, rfl, hp, he⟩ := updateLoop_runs C t w0 acts _ ((w.setState k.name .busy).queue k.name (queuedDesc k v w.bv t)) l e hk'
        (hs.bv.trans hbv) hr
      refine ⟨(k, v) :: done, rest, rfl, by simpa [atOnce_eq, hi] using hp, fun w' bv' h => ?_⟩
      obtain ⟨h1, h2, h3, h4, reqs, h5, h6⟩ := he w' bv' h
      refine ⟨h1, h2, h3.trans hs.bv, h4.trans hs.names, .gen k.name w.nextId (queuedDesc k v w.bv t) :: reqs, ?_, ?_⟩
      · rw [h5]
        simp [Mach.queue, Mach.setState]
      · have : queued ((k, v) :: (done ++ rest)) = (k, v) :: queued (done ++ rest) := by simp [queued_eq, hi]
        rw [this]
        refine .cons ⟨w.nextId, ?_⟩ h6
        unfold queuedDesc
        simp only [interruptible, Bool.or_eq_true, beq_iff_eq] at hi
        rcases hi with hi | hi
        · exact .inl ⟨hi, by simp [hi, hbv]⟩
        · exact .inr ⟨hi, by simp [hi, hbv]⟩
    | false =>
      simp only [hi, Bool.false_eq_true, if_false, genM_bind_apply, genM_get_apply, genM_set_apply, out_bind_ret] at hr
      have hat : ∀ l, atOnce ((k, v) :: l) = (k, v) :: atOnce l := fun l => by simp [atOnce_eq, hi]
      have hdo : ∀ w, DoesKey k (immediate C k v w0.bv t w) := fun w => doesKey_immediate C k v _ t w (hk _ (.head _)) hi
      have hbv' : (w.setState k.name .busy).bv = w0.bv := hs.bv.trans hbv
      rw [hbv] at hr
      rcases runs_bind hr with ⟨w1, _, l1, l2, h1, h2, rfl⟩ | ⟨w1, x, h1, rfl⟩ | ⟨h1, rfl⟩
      · have hc := ((runs_moves calm_trans (fun _ _ h => h) h1 (calm_immediate C k v w0.bv t _)).2.1 w1 () rfl)
        have hp1 := (runs_doesKey h1 (hdo _)).resolve_left (fun h => h.2 w1 rfl)
        obtain ⟨done, rest, rfl, hp, he⟩ := updateLoop_runs C t w0 acts _ _ l2 e hk' (hc.bv.trans hbv') h2
        refine ⟨(k, v) :: done, rest, rfl, ?_, fun w' bv' h => ?_⟩
        · rw [hat, List.map_cons, List.map_append]
          exact performs_append hp1 hp
        · obtain ⟨g1, g2, g3, g4, reqs, g5, g6⟩ := he w' bv' h
          refine ⟨g1, g2, g3.trans (hc.bv.trans hs.bv), g4.trans (hc.names.trans hs.names), reqs, ?_, ?_⟩
          · rw [g5, hc.procs]; exact congrArg (· ++ reqs) hs.procs
          · have : queued ((k, v) :: (done ++ rest)) = queued (done ++ rest) := by simp [queued_eq, hi]
            rw [this]; exact g6
      · rcases runs_doesKey h1 (hdo _) with ⟨hp, _⟩ | hp
        · exact ⟨[], _, rfl, hp, by simp⟩
        · exact ⟨[(k, v)], acts, rfl, by rw [hat]; exact hp, by simp⟩
      · rcases runs_doesKey h1 (hdo _) with ⟨hp, _⟩ | hp
        · exact ⟨[], _, rfl, hp, by simp⟩
        · exact ⟨[(k, v)], acts, rfl, by rw [hat]; exact hp, by simp⟩

/-- The harvesting at the end. -/
theorem harvestAll_procs (t : ℚ) : ∀ (ns : List String) (w : Mach), (harvestAll t ns w).bufs = w.bufs ∧ (harvestAll t ns w).bv = w.bv ∧
    ∃ ps, (harvestAll t ns w).procs = w.procs ++ ps ∧ List.Forall₂ (Clears w.bv t) (ns.filter (fun n => (w.buf n).isSome)) ps
  | [], w => ⟨rfl, rfl, [], by simp [harvestAll], .nil⟩
  | n :: ns, w => by
    simp only [harvestAll]
    cases hb : w.buf n with
    | none =>
      obtain ⟨h1, h2, ps, h3, h4⟩ := harvestAll_procs t ns w
      exact ⟨h1, h2, ps, h3, by simpa [hb] using h4⟩
    | some b =>
      obtain ⟨h1, h2, ps, h3, h4⟩ := harvestAll_procs t ns (w.queue n (.clear n w.bv t))
      refine ⟨h1, h2, _ :: ps, h3.trans (by simp only [Mach.queue, List.append_assoc]; rfl), ?_⟩
      rw [List.filter_cons_of_pos (by simp [hb])]
      exact .cons ⟨w.nextId, rfl⟩ h4

theorem forall2_names {A B : Type} {R : A → B → Prop} {l : List A} {m : List B} (h : List.Forall₂ R l m) : ∀ b ∈ m, ∃ a ∈ l, R a b := by
  induction h with
  | nil => simp
  | cons h _ ih =>
    intro b hb
    rcases List.mem_cons.1 hb with rfl | hb
    · exact ⟨_, .head _, h⟩
    · obtain ⟨a, ha, hr⟩ := ih b hb
      exact ⟨a, .tail _ ha, hr⟩

theorem sortRhs_cases (rhs : List (Key × RVal)) : (∃ sorted, sortRhs rhs = .ok sorted) ∨
    (sortRhs rhs = .error .actr ∧ ∃ a ∈ rhs, ∀ s ∈ stages, a.1.code ∉ s) := by
  unfold sortRhs
  split
  · exact .inl ⟨_, rfl⟩
  · rename_i h
    refine .inr ⟨rfl, ?_⟩
    simp only [List.all_eq_true, not_forall] at h
    obtain ⟨a, ha, hc⟩ := h
    refine ⟨a, ha, fun s hs hm => hc ?_⟩
    obtain ⟨i, hi⟩ := List.getElem?_of_mem hs
    rw [(codeRank_iff _ i).2 ⟨s, hi, hm⟩]; rfl

/-- The actions of a rule, in all runs. -/
theorem update_runs (C : Cfg) (rhs : List (Key × RVal)) (t : ℚ) (w : Mach) (l : List (Mach × YV)) (e : GEnd Mach Unit)
    (hr : Runs Calm (genUpdate C rhs t w) l e) :
    ((∃ a ∈ rhs, ∀ s ∈ stages, a.1.code ∉ s) ∧ l = [] ∧ e = .raise w .actr) ∨
    ∃ done rest, Arranged rhs (done ++ rest) ∧ Performs ((atOnce done).map Prod.fst) (l.map Prod.snd) ∧
      ∀ w', e = .ret w' () → rest = [] ∧ w'.bufs.map Prod.fst = w.bufs.map Prod.fst ∧
        ∃ reqs harv, w'.procs = w.procs ++ reqs ++ harv ∧ List.Forall₂ (Requested w.bv t) (queued done) reqs ∧
          List.Forall₂ (Clears w.bv t) (if C.strict then
            ((done.foldl (fun bv a => bv.popVar a.1.name) w.bv).keyNames.filter (fun n => n ∈ w.bufs.map Prod.fst)) else []) harv := by
  unfold genUpdate at hr
  simp only [genM_bind_apply, genM_get_apply, out_bind_ret] at hr
  rcases sortRhs_cases rhs with ⟨sorted, hs⟩ | ⟨hs, ha⟩
  · right
    obtain ⟨harr, hk⟩ := sortRhs_ok hs
    rw [hs] at hr
    simp only [genM_lift_ok, out_bind_ret] at hr
    have hk' : ∀ a ∈ sorted, ∃ s ∈ stages, a.1.code ∈ s := fun a ha => hk a (harr.perm.mem_iff.1 ha)
    rcases runs_bind hr with ⟨w1, left, l1, l2, h1, h2, rfl⟩ | ⟨w1, x, h1, rfl⟩ | ⟨h1, rfl⟩
    · obtain ⟨done, rest, rfl, hp, he⟩ := updateLoop_runs C t w sorted _ _ l1 _ hk' rfl h1
      obtain ⟨rfl, hl, hb, hn, reqs, h5, h6⟩ := he w1 left rfl
      cases h2
      refine ⟨done, [], harr, by simpa using hp, fun w' h => ⟨rfl, ?_⟩⟩
      simp only [List.append_nil] at hl h6
      cases h
      cases hst : C.strict with
      | false => exact ⟨hn, reqs, [], by simpa using h5, h6, .nil⟩
      | true =>
        obtain ⟨g1, g2, ps, g3, g4⟩ := harvestAll_procs t left.keyNames w1
        refine ⟨?_, reqs, ps, ?_, h6, ?_⟩
        · simp only [if_true, g1, hn]
        · simp only [if_true, g3, h5]
        · rw [hb, hl] at g4
          simp only [if_true]
          convert g4 using 2
          funext n
          rw [Bool.eq_iff_iff]
          simp only [decide_eq_true_eq]
          rw [← hn, mem_keys_iff]
          simp [Mach.buf, Option.isSome_iff_exists]
    · obtain ⟨done, rest, rfl, hp, _⟩ := updateLoop_runs C t w sorted _ _ l _ hk' rfl h1
      exact ⟨done, rest, harr, hp, by simp⟩
    · obtain ⟨done, rest, rfl, hp, _⟩ := updateLoop_runs C t w sorted _ _ l _ hk' rfl h1
      exact ⟨done, rest, harr, hp, by simp⟩
  · rw [hs] at hr
    cases hr
    exact .inl ⟨ha, rfl, rfl⟩

/-! ## C31 -/

/-- The whole of C31, for a rule whose actions raise no exception: the actions are performed once each and in the right order, first
those that are reported while the rule is being carried out, then those that are left to processes that start afterwards. -/
def C31_full : Prop := ∀ (C : Cfg) (rhs : List (Key × RVal)) (t : ℚ) (w : Mach) (l : List (Mach × YV)) (w' : Mach),
  Runs Calm (genUpdate C rhs t w) l (.ret w' ()) → ∃ now later reqs harv, Arranged rhs (now ++ later) ∧ Performs (now.map Prod.fst) (l.map Prod.snd) ∧
    w'.procs = w.procs ++ reqs ++ harv ∧ List.Forall₂ (Requested w.bv t) later reqs ∧ ∀ p ∈ harv, ∃ n, Clears w.bv t n p

/-- C31 in all runs: if all signs are known, the actions are arranged in the right order; those carried out at once are reported once
each in this order, as far as the run goes, and requests are put into the list of processes in this order. Missing: requests are only
started when the rule is done, and that is after clearings, which are carried out at once (`C31_refuted`). -/
theorem C31_partial (C : Cfg) (rhs : List (Key × RVal)) (t : ℚ) (w : Mach) (l : List (Mach × YV)) (e : GEnd Mach Unit)
    (hr : Runs Calm (genUpdate C rhs t w) l e) :
    ((∃ a ∈ rhs, ∀ s ∈ stages, a.1.code ∉ s) ∧ l = [] ∧ e = .raise w .actr) ∨
    ∃ done rest, Arranged rhs (done ++ rest) ∧ Performs ((atOnce done).map Prod.fst) (l.map Prod.snd) ∧
      ∀ w', e = .ret w' () → rest = [] ∧
        ∃ reqs harv, w'.procs = w.procs ++ reqs ++ harv ∧ List.Forall₂ (Requested w.bv t) (queued done) reqs ∧ ∀ p ∈ harv, ∃ n, Clears w.bv t n p := by
  rcases update_runs C rhs t w l e hr with h | ⟨done, rest, h1, h2, h3⟩
  · exact .inl h
  · refine .inr ⟨done, rest, h1, h2, fun w' he => ?_⟩
    obtain ⟨g1, _, reqs, harv, g2, g3, g4⟩ := h3 w' he
    refine ⟨g1, reqs, harv, g2, g3, fun p hp => ?_⟩
    obtain ⟨n, _, hn⟩ := forall2_names g4 p hp
    exact ⟨n, hn⟩

theorem filter_split {A : Type} (p : A → Bool) : ∀ l : List A, l.Pairwise (fun a b => p b = true → p a = true) → l = l.filter p ++ l.filter (fun a => !p a)
  | [], _ => rfl
  | a :: l, h => by
    obtain ⟨h1, h2⟩ := List.pairwise_cons.1 h
    cases ha : p a with
    | true =>
      rw [List.filter_cons_of_pos ha, List.filter_cons_of_neg (by simp [ha])]
      exact congrArg (a :: ·) (filter_split p l h2)
    | false =>
      have h3 : l.filter p = [] := by
        rw [List.filter_eq_nil_iff]
        intro b hb hpb
        rw [h1 b hb hpb] at ha; cases ha
      rw [List.filter_cons_of_neg (by simp [ha]), h3, List.filter_cons_of_pos (by simp [ha])]
      simp only [List.nil_append]
      have := filter_split p l h2
      rw [h3, List.nil_append] at this
      exact congrArg (a :: ·) this

theorem update_known {Rel : Mach → Mach → Prop} {C : Cfg} {rhs : List (Key × RVal)} {t : ℚ} {w : Mach} {l : List (Mach × YV)} {w' : Mach}
    (hr : Runs Rel (genUpdate C rhs t w) l (.ret w' ())) : ∀ a ∈ rhs, ∃ s ∈ stages, a.1.code ∈ s := by
  unfold genUpdate at hr
  simp only [genM_bind_apply, genM_get_apply, out_bind_ret] at hr
  rcases sortRhs_cases rhs with ⟨sorted, hs⟩ | ⟨hs, ha⟩
  · exact (sortRhs_ok hs).2
  · rw [hs] at hr
    cases hr

/-- C31 for rules that do not both clear buffers and make requests. -/
theorem C31_unmixed (C : Cfg) (rhs : List (Key × RVal)) (t : ℚ) (w : Mach) (l : List (Mach × YV)) (w' : Mach)
    (hm : (∀ a ∈ rhs, a.1.code ≠ '~') ∨ ∀ a ∈ rhs, a.1.code ≠ '*' ∧ a.1.code ≠ '+')
    (hr : Runs Calm (genUpdate C rhs t w) l (.ret w' ())) : ∃ now later reqs harv, Arranged rhs (now ++ later) ∧
      Performs (now.map Prod.fst) (l.map Prod.snd) ∧ w'.procs = w.procs ++ reqs ++ harv ∧ List.Forall₂ (Requested w.bv t) later reqs ∧
      ∀ p ∈ harv, ∃ n, Clears w.bv t n p := by
  rcases C31_partial C rhs t w l _ hr with ⟨_, _, h⟩ | ⟨done, rest, h1, h2, h3⟩
  · cases h
  obtain ⟨rfl, reqs, harv, h4, h5, h6⟩ := h3 w' rfl
  rw [List.append_nil] at h1
  refine ⟨atOnce done, queued done, reqs, harv, ?_, h2, h4, h5, h6⟩
  have hmem : ∀ a ∈ done, a ∈ rhs := fun a ha => h1.perm.mem_iff.1 ha
  have heq : done = atOnce done ++ queued done := by
    have hq : queued done = done.filter (fun a => !!interruptible a.1.code) := by rw [queued_eq]; simp
    rw [atOnce_eq, hq]
    refine filter_split _ _ (List.Pairwise.imp_of_mem (fun {a b} ha hb hab hpb => ?_) h1.order)
    simp only [Bool.not_eq_true'] at hpb ⊢
    by_contra hpa
    simp only [Bool.not_eq_false] at hpa
    rcases hm with hm | hm
    · have hc := hm b (hmem b hb)
      refine hab ((before_iff _ _).2 ?_)
      have hra : codeRank a.1.code = some 3 ∨ codeRank a.1.code = some 4 := by
        simp only [interruptible, Bool.or_eq_true, beq_iff_eq] at hpa
        rcases hpa with h | h <;> rw [h] <;> decide
      have hrb : codeRank b.1.code = some 0 ∨ codeRank b.1.code = some 1 ∨ codeRank b.1.code = some 2 := by
        obtain ⟨s, hs, hcs⟩ := (update_known hr) b (hmem b hb)
        simp only [interruptible, Bool.or_eq_false_iff, beq_eq_false_iff_ne] at hpb
        simp only [stages, List.mem_cons, List.not_mem_nil, or_false] at hs
        rcases hs with rfl | rfl | rfl | rfl | rfl | rfl <;> simp only [List.mem_cons, List.not_mem_nil, or_false] at hcs
        · rcases hcs with h | h <;> rw [h] <;> decide
        · rw [hcs]; decide
        · rw [hcs]; decide
        · exact absurd hcs hpb.2
        · exact absurd hcs hpb.1
        · exact absurd hcs hc
      rcases hra with hra | hra <;> rcases hrb with hrb | hrb | hrb <;> exact ⟨_, _, by decide, hrb, hra⟩
    · have := hm a (hmem a ha)
      simp only [interruptible, Bool.or_eq_true, beq_iff_eq] at hpa
      rcases hpa with h | h
      · exact this.2 h
      · exact this.1 h
  rw [← heq]
  exact h1

/-- A goal and an empty retrieval buffer. -/
def exUpdMach : Mach := exMach exCompReg (exCycBufs [])

/-- A rule that makes a request and clears the goal. -/
def exMixed : List (Key × RVal) := [(⟨'+', "retrieval"⟩, .chunk (exGoal (exLit "b"))), (⟨'~', "g"⟩, .nothing)]

/-- C31 is false: the goal is cleared before the request is started. -/
theorem C31_refuted : ¬ C31_full := by
  obtain ⟨H, _⟩ := exists_collisionFree
  intro h
  have hr := runs_solo calm_refl (genUpdate (exCfg (exPy H)) exMixed 0 exUpdMach)
  have ha : (genUpdate (exCfg (exPy H)) exMixed 0 exUpdMach).solo.1.map Prod.snd = [.ev ⟨round4 0, "g", .cleared⟩] := rfl
  have he : ∃ w', (genUpdate (exCfg (exPy H)) exMixed 0 exUpdMach).solo.2 = .ret w' () := ⟨_, rfl⟩
  obtain ⟨w', he⟩ := he
  rw [he] at hr
  obtain ⟨now, later, reqs, harv, h1, h2, h3, h4, _⟩ := h _ _ _ _ _ _ hr
  rw [ha] at h2
  have hk : now.map Prod.fst = [⟨'~', "g"⟩] := by
    generalize now.map Prod.fst = ks at h2
    cases h2 with
    | silent h _ => cases h
    | @done k ks _ _ h h' =>
      cases h'
      obtain ⟨hn, ⟨_, h⟩ | ⟨_, h⟩ | ⟨_, h⟩ | ⟨_, _, h⟩ | ⟨hc, _⟩⟩ := h
      · cases h
      · cases h
      · cases h
      · cases h
      · obtain ⟨c, n⟩ := k
        cases hn; cases hc; rfl
  have hne : later ≠ [] := by
    rintro rfl
    have := h1.perm.length_eq
    have hl : now.length = 1 := by have := congrArg List.length hk; simpa using this
    simp [hl, exMixed] at this
  obtain ⟨b, later, rfl⟩ := List.exists_cons_of_ne_nil hne
  obtain ⟨a, rfl⟩ : ∃ a, now = [a] := by
    cases now with
    | nil => simp at hk
    | cons a r => cases r with
      | nil => exact ⟨a, rfl⟩
      | cons _ _ => simp at hk
  simp only [List.map_cons, List.map_nil, List.cons.injEq, and_true] at hk
  have ho := h1.order
  simp only [List.singleton_append, List.pairwise_cons] at ho
  have hb : b.1.code = '+' ∨ b.1.code = '*' := by
    cases h4 with
    | cons hq _ =>
      obtain ⟨_, ⟨h, _⟩ | ⟨h, _⟩⟩ := hq
      · exact .inl h
      · exact .inr h
  refine ho.1 b (.head _) ?_
  rw [hk]
  rcases hb with hb | hb <;> rw [hb]
  · exact ⟨4, 5, _, _, by decide, rfl, rfl, by decide, by decide⟩
  · exact ⟨3, 5, _, _, by decide, rfl, rfl, by decide, by decide⟩

/-- C31, an instance: written in the wrong order, the command is executed before the goal is cleared. -/
example (H : PyHash) : ∃ l w', Runs Calm (genUpdate (exCfg (exPy H)) [(⟨'~', "g"⟩, .nothing), (⟨'!', "visual"⟩, .cmds [])] 0 exUpdMach) l (.ret w' ()) ∧
    l.map Prod.snd = [.ev ⟨round4 0, "visual", .executed⟩, .ev ⟨round4 0, "g", .cleared⟩] :=
  ⟨_, _, runs_solo calm_refl _, rfl⟩

/-! ## C32: the names bound by the left-hand side -/

/-- The bound variables are distinct and of these kinds. -/
structure Covered (A B : String → Prop) (bv : BV) : Prop where
  pos : ∀ n ∈ bv.pos.map Prod.fst, A n
  neg : ∀ n ∈ bv.neg.map Prod.fst, B n
  nodup : (bv.pos.map Prod.fst).Nodup

theorem covered_bind {A B : String → Prop} {bv : BV} {n : String} {v : Val} (h : Covered A B bv) (hn : A n) : Covered A B (bv.bind n v) := by
  refine ⟨fun m hm => ?_, h.neg, nodup_aset _ _ _ h.nodup⟩
  simp only [BV.bind, keys_aset] at hm
  split at hm
  · exact h.pos m hm
  · rcases List.mem_append.1 hm with hm | hm
    · exact h.pos m hm
    · rw [List.mem_singleton.1 hm]; exact hn

theorem covered_negAdd {A B : String → Prop} {H : PyHash} {bv : BV} {n : String} {v : Val} (h : Covered A B bv) (hn : B n) :
    Covered A B (bv.negAdd H n v) := by
  refine ⟨h.pos, fun m hm => ?_, h.nodup⟩
  simp only [BV.negAdd, keys_aset] at hm
  split at hm
  · exact h.neg m hm
  · rcases List.mem_append.1 hm with hm | hm
    · exact h.neg m hm
    · rw [List.mem_singleton.1 hm]; exact hn

theorem covered_afterNeg {A B : String → Prop} {H : PyHash} {mv : Val} : ∀ (l : List String) {bv : BV}, Covered A B bv → (∀ n ∈ l, B n) →
    Covered A B (afterNeg H bv l mv)
  | [], _, h, _ => h
  | n :: l, _, h, hl => covered_afterNeg l (covered_negAdd h (hl n (.head _))) (fun m hm => hl m (.tail _ hm))

theorem covered_afterVar {A B : String → Prop} {bv : BV} {vr : Option String} {mv : Val} (h : Covered A B bv) (hv : ∀ y, vr = some y → A y) :
    Covered A B (afterVar bv vr mv) := by
  unfold afterVar
  split
  · exact h
  · split
    · exact h
    · split
      · exact h
      · exact covered_bind h (hv _ rfl)

theorem covered_afterSlots {A B : String → Prop} {H : PyHash} {d : Chunk} : ∀ (xs : Slots) {bv : BV}, Covered A B bv →
    (∀ n x, (n, SlotOf.vv x) ∈ xs → (∀ y, x.vars = some y → A y) ∧ ∀ y ∈ x.negvars, B y) → Covered A B (afterSlots H d bv xs)
  | [], _, h, _ => h
  | (n, .empty) :: xs, bv, h, hx => by
    have : afterSlots H d bv ((n, .empty) :: xs) = afterSlots H d bv xs := by
      simp [afterSlots, afterSlot, splitting, afterVar, afterNeg]
    rw [this]
    exact covered_afterSlots xs h (fun n x hm => hx n x (.tail _ hm))
  | (n, .vv x) :: xs, bv, h, hx => by
    have h0 := hx n x (.head _)
    exact covered_afterSlots xs (covered_afterNeg _ (covered_afterVar h h0.1) h0.2) (fun n x hm => hx n x (.tail _ hm))

/-- Bound variables stay bound. -/
def Stays (bv bv' : BV) : Prop := ∀ n ∈ bv.pos.map Prod.fst, n ∈ bv'.pos.map Prod.fst

theorem stays_bind (bv : BV) (n : String) (v : Val) : Stays bv (bv.bind n v) ∧ n ∈ (bv.bind n v).pos.map Prod.fst := by
  simp only [Stays, BV.bind, keys_aset]
  split
  · exact ⟨fun _ h => h, by assumption⟩
  · exact ⟨fun _ h => List.mem_append.2 (.inl h), by simp⟩

theorem stays_afterNeg {H : PyHash} {mv : Val} : ∀ (l : List String) (bv : BV), (afterNeg H bv l mv).pos = bv.pos
  | [], _ => rfl
  | _ :: l, bv => stays_afterNeg l (bv.negAdd H _ mv)

theorem stays_afterVar (bv : BV) (vr : Option String) (mv : Val) : Stays bv (afterVar bv vr mv) := by
  unfold afterVar
  split
  · exact fun _ h => h
  · split
    · exact fun _ h => h
    · split
      · exact fun _ h => h
      · exact (stays_bind _ _ _).1

theorem stays_afterSlots {H : PyHash} {d : Chunk} : ∀ (xs : Slots) (bv : BV), Stays bv (afterSlots H d bv xs)
  | [], _ => fun _ h => h
  | x :: xs, bv => fun n h => stays_afterSlots xs (afterSlot H d bv x) n (by
    rw [afterSlot, stays_afterNeg]
    exact stays_afterVar _ _ _ n h)

/-- What a left-hand side binds: the names of the tested buffers and variables of their patterns. -/
theorem lhsTest_names {H : PyHash} {bufs : Faces} {L : List (Key × LVal)} : ∀ (l : List (Key × LVal)) {bv bv' : BV}, (∀ c ∈ l, c ∈ L) →
    Covered (fun n => Tested L n ∨ PosVar L n) (NegVar L) bv → lhsTest H bufs l bv = .ok (some bv') →
    Covered (fun n => Tested L n ∨ PosVar L n) (NegVar L) bv' ∧ Stays bv bv' ∧
      ∀ n, Tested l n → n ∈ bv'.pos.map Prod.fst ∧ n ∈ bufs.map Prod.fst
  | [], bv, bv', _, h, ht => by
    cases ht
    exact ⟨h, fun _ h => h, fun n ⟨_, hn⟩ => by cases hn⟩
  | (k, v) :: l, bv, bv', hL, h, ht => by
    obtain ⟨c, m⟩ := k
    simp only [lhsTest, testCond] at ht
    by_cases hc : c = '='
    · subst hc
      cases v with
      | dict d => simp at ht
      | chunk p =>
        simp only [if_true] at ht
        cases hb : testBuffer H bufs m p bv with
        | none => rw [hb] at ht; cases ht
        | some bv1 =>
          rw [hb] at ht
          simp only at ht
          obtain ⟨b, d, r, bv0, h1, _, _, h4, rfl⟩ := testBuffer_some.1 hb
          have hm : ((⟨'=', m⟩ : Key), LVal.chunk p) ∈ L := hL _ (.head _)
          have h0 : Covered (fun n => Tested L n ∨ PosVar L n) (NegVar L) bv0 ∧ Stays bv bv0 := by
            rcases (le_true_iff ..).1 h4 with ⟨_, rfl⟩ | ⟨_, _, rfl⟩
            · exact ⟨h, fun _ h => h⟩
            · refine ⟨covered_afterSlots _ h fun n x hx => ⟨fun y hy => .inr ⟨m, p, n, x, hm, hx, hy⟩, fun y hy => ⟨m, p, n, x, hm, hx, hy⟩⟩,
                stays_afterSlots _ _⟩
          obtain ⟨g1, g2, g3⟩ := lhsTest_names l (fun c hc => hL c (.tail _ hc)) (covered_bind h0.1 (.inl ⟨p, hm⟩)) ht
          obtain ⟨s1, s2⟩ := stays_bind bv0 m d.val
          refine ⟨g1, fun n hn => g2 n (s1 n (h0.2 n hn)), ?_⟩
          rintro n ⟨q, hq⟩
          rcases List.mem_cons.1 hq with hq | hq
          · simp only [Prod.mk.injEq, Key.mk.injEq, true_and] at hq
            obtain ⟨rfl, _⟩ := hq
            exact ⟨g2 _ s2, mem_keys_iff.2 ⟨_, h1⟩⟩
          · exact g3 n ⟨q, hq⟩
    · have hrest : lhsTest H bufs l bv = .ok (some bv') := by
        by_cases hq : c = '?'
        · subst hq
          cases v with
          | chunk p => simp at ht
          | dict d =>
            simp only [if_neg hc, if_true] at ht
            cases hb : queryBuffer (alook m bufs) d with
            | error e => rw [hb] at ht; cases ht
            | ok x =>
              rw [hb] at ht
              cases x with
              | true => exact ht
              | false => cases ht
        · simp only [if_neg hc, if_neg hq] at ht
          cases ht
      obtain ⟨g1, g2, g3⟩ := lhsTest_names l (fun c hc => hL c (.tail _ hc)) h hrest
      refine ⟨g1, g2, ?_⟩
      rintro n ⟨q, hq⟩
      rcases List.mem_cons.1 hq with hq | hq
      · simp only [Prod.mk.injEq, Key.mk.injEq] at hq
        exact absurd hq.1.1.symm hc
      · exact g3 n ⟨q, hq⟩

theorem popAll_pos : ∀ (l : List (Key × RVal)) (bv : BV), (l.foldl (fun bv a => bv.popVar a.1.name) bv).neg = bv.neg ∧
    (l.foldl (fun bv a => bv.popVar a.1.name) bv).pos.Sublist bv.pos ∧
    ∀ n, n ∈ (l.foldl (fun bv a => bv.popVar a.1.name) bv).pos.map Prod.fst ↔ n ∈ bv.pos.map Prod.fst ∧ ¬ OnRhs l n
  | [], bv => ⟨rfl, .refl _, fun n => by simp [OnRhs]⟩
  | a :: l, bv => by
    obtain ⟨h1, h2, h3⟩ := popAll_pos l (bv.popVar a.1.name)
    refine ⟨h1, h2.trans List.filter_sublist, fun n => ?_⟩
    rw [List.foldl_cons, h3]
    simp only [BV.popVar, List.mem_map, List.mem_filter, decide_eq_true_eq, OnRhs, List.mem_cons]
    constructor
    · rintro ⟨⟨p, ⟨hp, hne⟩, rfl⟩, hn⟩
      exact ⟨⟨p, hp, rfl⟩, by rintro ⟨x, rfl | hx, hxn⟩; exacts [hne hxn.symm, hn ⟨x, hx, hxn⟩]⟩
    · rintro ⟨⟨p, hp, rfl⟩, hn⟩
      exact ⟨⟨p, ⟨hp, fun he => hn ⟨a, .inl rfl, he.symm⟩⟩, rfl⟩, by rintro ⟨x, hx, hxn⟩; exact hn ⟨x, .inr hx, hxn⟩⟩

/-! ## C32 -/

/-- Strict harvesting as it should be: after the requests, clearings of exactly the tested and otherwise unused buffers are put into the
list of processes, one for each. -/
def HarvestsTested (strict : Bool) (lhs : List (Key × LVal)) (rhs : List (Key × RVal)) (bv : BV) (t : ℚ) (before after : List PItem) : Prop :=
  ∃ reqs harv names, after = before ++ reqs ++ harv ∧ (∀ p ∈ reqs, ∃ a ∈ rhs, Requested bv t a p) ∧ List.Forall₂ (Clears bv t) names harv ∧
    names.Nodup ∧ ∀ n, n ∈ names ↔ strict = true ∧ Tested lhs n ∧ ¬ OnRhs rhs n

/-- The whole of C32, for a rule whose left-hand side has been tested successfully and whose actions raise no exception. -/
def C32_full : Prop := ∀ (C : Cfg) (bufs : Faces) (lhs : List (Key × LVal)) (rhs : List (Key × RVal)) (t : ℚ) (w : Mach)
    (l : List (Mach × YV)) (w' : Mach), bufs.map Prod.fst = w.bufs.map Prod.fst → lhsTest C.P.H bufs lhs BV.init = .ok (some w.bv) →
  Runs Calm (genUpdate C rhs t w) l (.ret w' ()) → HarvestsTested C.strict lhs rhs w.bv t w.procs w'.procs

/-- C32 if no variable of the rule is called like a buffer that is not tested. Missing: variables and buffers share their names, so
testing a slot against `=retrieval` has the retrieval buffer cleared (`C32_refuted`). -/
theorem C32_partial (C : Cfg) (bufs : Faces) (lhs : List (Key × LVal)) (rhs : List (Key × RVal)) (t : ℚ) (w : Mach)
    (l : List (Mach × YV)) (w' : Mach) (hb : bufs.map Prod.fst = w.bufs.map Prod.fst)
    (ht : lhsTest C.P.H bufs lhs BV.init = .ok (some w.bv)) (hpos : ∀ y ∈ w.bufs.map Prod.fst, PosVar lhs y → Tested lhs y)
    (hneg : ∀ y, NegVar lhs y → "=" ++ y ∉ w.bufs.map Prod.fst)
    (hr : Runs Calm (genUpdate C rhs t w) l (.ret w' ())) : HarvestsTested C.strict lhs rhs w.bv t w.procs w'.procs := by
  rcases update_runs C rhs t w l _ hr with ⟨_, _, h⟩ | ⟨done, rest, h1, _, h3⟩
  · cases h
  obtain ⟨rfl, _, reqs, harv, g2, g3, g4⟩ := h3 w' rfl
  rw [List.append_nil] at h1
  have hon : ∀ n, OnRhs done n ↔ OnRhs rhs n := fun n => by
    unfold OnRhs
    constructor
    · rintro ⟨a, ha, rfl⟩; exact ⟨a, h1.perm.mem_iff.1 ha, rfl⟩
    · rintro ⟨a, ha, rfl⟩; exact ⟨a, h1.perm.mem_iff.2 ha, rfl⟩
  obtain ⟨hc, _, htd⟩ := lhsTest_names lhs (L := lhs) (fun _ h => h) (bv := BV.init) ⟨by simp [BV.init], by simp [BV.init], by simp [BV.init]⟩ ht
  refine ⟨reqs, harv, _, g2, fun p hp => ?_, g4, ?_⟩
  · obtain ⟨a, ha, hap⟩ := forall2_names g3 p hp
    exact ⟨a, h1.perm.mem_iff.1 (List.mem_of_mem_filter ha), hap⟩
  · cases C.strict with
    | false => simp
    | true =>
      obtain ⟨e1, e2, e3⟩ := popAll_pos done w.bv
      simp only [if_true, BV.keyNames, List.filter_append, e1]
      have hn : (List.map (fun p : String × List Val => "=" ++ p.1) w.bv.neg).filter (fun n => n ∈ w.bufs.map Prod.fst) = [] := by
        rw [List.filter_eq_nil_iff]
        rintro n hn hm
        obtain ⟨p, hp, rfl⟩ := List.mem_map.1 hn
        exact hneg p.1 (hc.neg p.1 (List.mem_map_of_mem hp)) (by simpa using hm)
      rw [hn, List.append_nil]
      refine ⟨(hc.nodup.sublist (e2.map _)).filter _, fun n => ?_⟩
      rw [List.mem_filter, e3, hon]
      simp only [decide_eq_true_eq, true_and]
      constructor
      · rintro ⟨⟨h, h'⟩, hm⟩
        refine ⟨?_, h'⟩
        rcases hc.pos n h with h | h
        · exact h
        · exact hpos n hm h
      · rintro ⟨h, h'⟩
        exact ⟨⟨(htd n h).1, h'⟩, hb ▸ (htd n h).2⟩

/-- Clearing a buffer this way empties it, if others leave it alone and nothing is raised. -/
theorem C32_clears (C : Cfg) (bv : BV) (n : String) (t : ℚ) (w w' : Mach) (b : Buf) (evs : List Verif.Ev) (hb : w.buf n = some b)
    (h1 : b.data.length ≤ 1) (hr : Carried C (Alone n) ((Desc.clear n bv t).run C w) evs w') :
    evs = [⟨round4 t, n, .cleared⟩] ∧ ∃ b', w'.buf n = some b' ∧ b'.data = [] ∧ b'.state = .free := by
  have hclr : ∀ w1 w2 : Mach, ∀ b1 : Buf, w1.buf n = some b1 → b1.data.length ≤ 1 → clearBuf C n .nothing t w1 = (w2, .ok ()) →
      ∃ b2, w2.buf n = some b2 ∧ b2.data = [] := by
    intro w1 w2 b1 hb1 hl hcl
    have hst : ∀ (k : BufKind) (st st' : BState) (i : Option ℕ), st.data.length ≤ 1 → st.clear C.P k t i = (st', .ok ()) → st'.data = [] := by
      intro k st st' i hl hk
      unfold BState.clear at hk
      split at hk
      · cases hk; rfl
      · split at hk
        · cases hk; assumption
        · rename_i hd
          split at hk
          · cases hk
          · cases hk
            rw [hd] at hl
            simp only [List.length_cons] at hl
            simp only [BState.harvest]
            exact List.length_eq_zero_iff.1 (by omega)
    have hput : ∀ st : BState, st.data = [] → ∃ b2, (w1.putBst n st).buf n = some b2 ∧ b2.data = [] := by
      intro st hs
      refine ⟨_, by rw [Mach.putBst, buf_upd_self]; exact congrArg _ hb1, hs⟩
    unfold clearBuf at hcl
    rw [hb1] at hcl
    simp only at hcl
    split at hcl
    · cases hcl
    · have hagain : ∀ i, w1.onBuf n (fun b st => st.clear C.P b.cls.kind t (some i)) = (w2, .ok ()) → ∃ b2, w2.buf n = some b2 ∧ b2.data = [] := by
        intro i hi
        unfold Mach.onBuf at hi
        rw [hb1] at hi
        simp only [Prod.mk.injEq] at hi
        rw [← hi.1]
        exact hput _ (hst _ _ _ _ hl (Prod.ext rfl hi.2))
      cases hcc : (w1.bst b1).clear C.P b1.cls.kind t Option.none with
      | mk st r =>
        rw [hcc] at hcl
        cases r with
        | ok u =>
          simp only [Prod.mk.injEq, and_true] at hcl
          rw [← hcl]
          exact hput _ (hst _ _ _ _ hl hcc)
        | error e =>
          simp only at hcl
          split at hcl
          · split at hcl
            · cases hcl
            · exact hagain _ hcl
          · split at hcl
            · split at hcl
              · cases hcl
              · exact hagain _ hcl
            · cases hcl
  simp only [Desc.run, genClear, genM_bind_apply, genM_set_apply, out_bind_ret] at hr
  have hb1 : (w.setState n .busy).buf n = some { b with state := .busy } := by simp [hb]
  cases hcl : clearBuf C n .nothing t (w.setState n .busy) with
  | mk w2 r =>
    cases r with
    | error e =>
      rw [show GenM.act (clearBuf C n .nothing t) (w.setState n .busy) = .raise w2 e by simp [GenM.act, hcl]] at hr
      cases hr
    | ok u =>
      rw [show GenM.act (clearBuf C n .nothing t) (w.setState n .busy) = .ret w2 () by simp [GenM.act, hcl]] at hr
      obtain ⟨b2, hb2, hd2⟩ := hclr _ _ _ hb1 h1 hcl
      simp only [out_bind_ret, genM_event_apply, out_bind_yield] at hr
      cases hr with
      | ev hrel hr =>
        simp only [genM_set_apply, out_bind_ret, if_true] at hr
        cases hr
        refine ⟨rfl, ?_⟩
        rw [buf_setState_self, hrel, hb2]
        exact ⟨_, rfl, hd2, rfl⟩

/-- A rule that tests the goal only, with a variable called like the other buffer. -/
def exShared (v : String) : List (Key × LVal) := [(⟨'=', "g"⟩, .chunk (exGoal (exVar v)))]

/-- Two goal buffers. -/
def exSharedBufs : List (String × Buf) := [("g", { exBuf .goal with data := [exGoal (exLit "a")] }), ("h", exBuf .goal)]

/-- Testing the rule binds the variable. -/
theorem exShared_test_faces {H : PyHash} (cf : H.CollisionFree) (c : Char) {faces : Faces} {f : BufFace} (hf : alook "g" faces = some f)
    (hd : f.data = [exGoal (exLit "a")]) : lhsTest H faces (exShared c.toString) BV.init =
    .ok (some ((BV.init.bind c.toString (.str "a")).bind "g" (exGoal (exLit "a")).val)) := by
  have hne : (exGoal (exVar c.toString)).eq H BV.init (exGoal (exLit "a")) = false := by
    unfold Chunk.eq
    rw [beq_eq_false_iff_ne]
    intro he
    have he := cf.tup_inj _ _ he
    have h1 : (⟨"state", .vars, H.str c.toString⟩ : HItem) ∈ hashItems H (fun n => (BV.init.get n).map (Val.view H)) (viewSlots H (exGoal (exVar c.toString)).slots) := by
      simp [hashItems, exGoal, exVar, viewSlots, viewSlot, viewVals, VVOf.nonEmpty, optStrTruthy, slotItems, unresolvedItems, slotChars, BV.init, BV.get, alook]
    rw [he] at h1
    simp [hashItems, exGoal, exLit, viewSlots, viewSlot, viewVals, VVOf.nonEmpty, optStrTruthy, slotItems, unresolvedItems, slotChars, slotNegs] at h1
  have hle : (exGoal (exVar c.toString)).le H BV.init (exGoal (exLit "a")) = (true, BV.init.bind c.toString (.str "a")) := by
    refine (le_true_iff ..).2 (.inr ⟨hne, ?_, ?_⟩)
    · refine ⟨⟨?_, ?_, ?_, ?_, ?_⟩, trivial⟩ <;> simp [splitting, exVar, BV.negGet, BV.get, BV.init, alook, Val.truthy]
    · simp [afterSlots, afterSlot, exGoal, exVar, exLit, splitting, afterVar, afterNeg, BV.get, BV.init, alook, matchingVal]
  have htb : testBuffer H faces "g" (exGoal (exVar c.toString)) BV.init =
      some ((BV.init.bind c.toString (.str "a")).bind "g" (exGoal (exLit "a")).val) :=
    testBuffer_some.2 ⟨_, _, _, _, hf, hd, by simp [BV.init, BV.get, alook], hle, rfl⟩
  simp only [exShared, lhsTest, testCond, if_true, htb]

theorem exShared_test {H : PyHash} (cf : H.CollisionFree) (c : Char) : lhsTest H (exMach exCompReg exSharedBufs).faces (exShared c.toString) BV.init =
    .ok (some ((BV.init.bind c.toString (.str "a")).bind "g" (exGoal (exLit "a")).val)) :=
  exShared_test_faces cf c (f := ⟨[exGoal (exLit "a")], _⟩) rfl rfl

/-- C32 is false: the buffer `h` is cleared although it has not been tested. -/
theorem C32_refuted : ¬ C32_full := by
  obtain ⟨H, cf⟩ := exists_collisionFree
  intro h
  have ht := exShared_test cf 'h'
  generalize hw : ({ exMach exCompReg exSharedBufs with bv := (BV.init.bind "h" (.str "a")).bind "g" (exGoal (exLit "a")).val } : Mach) = w
  have hr := runs_solo calm_refl (genUpdate (exCfg (exPy H)) [] 0 w)
  have he : (genUpdate (exCfg (exPy H)) [] 0 w).solo = ([], .ret { w with procs := [.gen "h" 0 (.clear "h" w.bv 0), .gen "g" 1 (.clear "g" w.bv 0)], nextId := 2 } ()) := by
    subst hw
    rfl
  rw [he] at hr
  obtain ⟨reqs, harv, names, h1, h2, h3, _, h5⟩ := h (exCfg (exPy H)) (exMach exCompReg exSharedBufs).faces (exShared "h") [] 0 w _ _ (by subst hw; rfl) (by subst hw; exact ht) hr
  have hp : w.procs = [] := by subst hw; rfl
  have hreq : reqs = [] := by
    cases reqs with
    | nil => rfl
    | cons p _ => obtain ⟨a, ha, _⟩ := h2 p (.head _); cases ha
  subst hreq
  rw [hp] at h1
  simp only [List.nil_append] at h1
  obtain ⟨n, hn, hcl⟩ := forall2_names h3 _ (h1 ▸ List.mem_cons_self)
  obtain ⟨_, hcl⟩ := hcl
  cases hcl
  obtain ⟨_, ⟨p, hp⟩, _⟩ := (h5 "h").1 hn
  simp [exShared] at hp

/-- C32, an instance: with a variable that is not called like a buffer, the goal is cleared and nothing else. -/
example : ∃ H : PyHash, ∃ w w' : Mach, ∃ l, lhsTest H (exMach exCompReg exSharedBufs).faces (exShared "x") BV.init = .ok (some w.bv) ∧
    Runs Calm (genUpdate (exCfg (exPy H)) [] 0 w) l (.ret w' ()) ∧ w'.procs = [.gen "g" 0 (.clear "g" w.bv 0)] ∧
    (∀ y ∈ w.bufs.map Prod.fst, PosVar (exShared "x") y → Tested (exShared "x") y) ∧ ∀ y, ¬ NegVar (exShared "x") y := by
  obtain ⟨H, cf⟩ := exists_collisionFree
  refine ⟨H, { exMach exCompReg exSharedBufs with bv := (BV.init.bind "x" (.str "a")).bind "g" (exGoal (exLit "a")).val }, _, _, exShared_test cf 'x',
    runs_solo calm_refl _, rfl, ?_, ?_⟩
  · rintro y hy ⟨n, p, m, x, hm, hx, hv⟩
    simp only [exShared, List.mem_singleton, Prod.mk.injEq, LVal.chunk.injEq] at hm
    obtain ⟨_, rfl⟩ := hm
    simp only [exGoal, exVar, List.mem_singleton, Prod.mk.injEq, SlotOf.vv.injEq] at hx
    obtain ⟨_, rfl⟩ := hx
    simp only [Option.some.injEq] at hv
    subst hv
    simp [exMach, exSharedBufs] at hy
  · rintro y ⟨n, p, m, x, hm, hx, hv⟩
    simp only [exShared, List.mem_singleton, Prod.mk.injEq, LVal.chunk.injEq] at hm
    obtain ⟨_, rfl⟩ := hm
    simp only [exGoal, exVar, List.mem_singleton, Prod.mk.injEq, SlotOf.vv.injEq] at hx
    obtain ⟨_, rfl⟩ := hx
    cases hv

end Verif.Props
