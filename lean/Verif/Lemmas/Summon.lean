import Verif.Lemmas.Aware
import Verif.Lemmas.Strike
/-! # Modules are called for the requests that wait for them -/
namespace Verif
open Verif.Spec

variable {A B : Type} {rf T : ℚ} {s s' : Sim} {p : ℕ}

/-! ## The generator of the rules -/

/-- There are not more requests than there were. -/
def NoMore (w w0 : Mach) : Prop := ∀ n, orders n w.procs ≤ orders n w0.procs

theorem nomore_refl (w : Mach) : NoMore w w := fun _ => le_rfl

/-- A generator that has put requests into the list: nothing is announced for later than `T`, and the word PROCEDURAL is in the list at the end. -/
def Ending (T : ℚ) {A : Type} (P : A → Mach → Prop) : Out Mach YV A → Prop
  | .yield w (.ev e) k => e.time ≤ T ∧ Bears w ∧ ∀ w', Bears w' → Ending T P (k w')
  | .yield w .procs _ => Bears w
  | .yield _ _ _ => True
  | .ret w a => P a w
  | .raise _ _ => True

/-- A generator that has not put requests into the list yet (it began with the list of `w0`); the clock shows at least `T`. -/
def Sedate {A : Type} (P : ℚ → A → Mach → Prop) (Q : ℚ → Mach → A → Mach → Prop) : ℚ → Mach → Out Mach YV A → Prop
  | T, w0, .yield w (.ev e) k => (NoMore w w0 ∧ ∃ T', (T' ≤ T ∨ T' ≤ e.time) ∧ ∀ w', Keep w w' → Sedate P Q T' w' (k w')) ∨
      (e.time ≤ T ∧ Bears w ∧ ∀ w', Bears w' → Ending T (P T) (k w'))
  | _, w0, .yield w .procs _ => NoMore w w0 ∨ Bears w
  | _, _, .yield _ _ _ => True
  | T, w0, .ret w a => Q T w0 a w
  | _, _, .raise _ _ => True

theorem ending_bind {f : A → GenM B} {P : B → Mach → Prop} {o : Out Mach YV A} : Ending T (fun a w => Ending T P (f a w)) o → Ending T P (o.bind f) := by
  induction o with
  | yield w y k ih =>
    intro h
    cases y with
    | ev e => exact ⟨h.1, h.2.1, fun w' hw => ih w' (h.2.2 w' hw)⟩
    | procs => exact h
    | cont d => trivial
    | nothing => trivial
  | ret w a => exact id
  | raise w e => intro _; trivial

theorem sedate_bind {f : A → GenM B} {P : ℚ → B → Mach → Prop} {Q : ℚ → Mach → B → Mach → Prop} {o : Out Mach YV A} :
    ∀ {T w0}, Sedate (fun T a w => Ending T (P T) (f a w)) (fun T w0 a w => Sedate P Q T w0 (f a w)) T w0 o → Sedate P Q T w0 (o.bind f) := by
  induction o with
  | yield w y k ih =>
    intro T w0 h
    cases y with
    | ev e =>
      rcases h with ⟨h1, T', h2, h3⟩ | ⟨h1, h2, h3⟩
      · exact .inl ⟨h1, T', h2, fun w' hw => ih w' (h3 w' hw)⟩
      · exact .inr ⟨h1, h2, fun w' hw => ending_bind (h3 w' hw)⟩
    | procs => exact h
    | cont d => trivial
    | nothing => trivial
  | ret w a => intro T w0 h; exact h
  | raise w e => intro T w0 _; trivial

theorem ending_mono {P P' : A → Mach → Prop} (h : ∀ a w, P a w → P' a w) {o : Out Mach YV A} : Ending T P o → Ending T P' o := by
  induction o with
  | yield w y k ih =>
    intro ho
    cases y with
    | ev e => exact ⟨ho.1, ho.2.1, fun w' hw => ih w' (ho.2.2 w' hw)⟩
    | procs => exact ho
    | cont d => trivial
    | nothing => trivial
  | ret w a => exact h a w
  | raise w e => intro _; trivial

theorem sedate_ending {P : ℚ → A → Mach → Prop} {Q : ℚ → Mach → A → Mach → Prop} {R : A → Mach → Prop} {o : Out Mach YV A} {w0 : Mach} (h : Ending T R o) (hp : ∀ a w, R a w → P T a w)
    (hq : ∀ a w, R a w → Q T w0 a w) : Sedate P Q T w0 o := by
  cases o with
  | yield w y k =>
    cases y with
    | ev e => exact .inr ⟨h.1, h.2.1, fun w' hw => ending_mono hp (h.2.2 w' hw)⟩
    | procs => exact .inr h
    | cont d => trivial
    | nothing => trivial
  | ret w a => exact hq a w h
  | raise w e => trivial

/-- Code without effects outside. -/
theorem ending_quiet {m : GenM A} {f : A → GenM B} {P : B → Mach → Prop} {w : Mach} (hm : Emits (fun _ => False) m) (hk : (m w).Moves Keep w) (hb : Bears w)
    (hf : ∀ a w, Bears w → Ending T P (f a w)) : Ending T P ((m >>= f) w) := by
  have hy := hm w
  show Ending T P ((m w).bind f)
  cases ho : m w with
  | yield w' y k => rw [ho] at hy; exact hy.1.elim
  | ret w' a => rw [ho] at hk; exact hf a w' (hk hb)
  | raise w' e => trivial

theorem sedate_quiet {m : GenM A} {f : A → GenM B} {P : ℚ → B → Mach → Prop} {Q : ℚ → Mach → B → Mach → Prop} {w w0 : Mach} (hm : Emits (fun _ => False) m) (hk : (m w).Moves Leaves w)
    (hf : ∀ a w1, Leaves w w1 → Sedate P Q T w0 (f a w1)) : Sedate P Q T w0 ((m >>= f) w) := by
  have hy := hm w
  show Sedate P Q T w0 ((m w).bind f)
  cases ho : m w with
  | yield w' y k => rw [ho] at hy; exact hy.1.elim
  | ret w' a => rw [ho] at hk; exact hf a w' hk
  | raise w' e => trivial

theorem bears_leaves {w w' : Mach} (h : Leaves w w') (hb : Bears w) : Bears w' := keep_procs h hb
theorem nomore_leaves {w w' w0 : Mach} (h : Leaves w w') (hg : NoMore w w0) : NoMore w' w0 := fun n => by rw [show w'.procs = w.procs from h]; exact hg n

/-- A report. -/
theorem sedate_event {t T' : ℚ} {n : String} {a : Act} {f : Unit → GenM B} {P : ℚ → B → Mach → Prop} {Q : ℚ → Mach → B → Mach → Prop} {w w0 : Mach} (hg : NoMore w w0) (hT : T' ≤ T ∨ T' ≤ round4 t) (hb : Bears w)
    (hf : ∀ w, Bears w → Sedate P Q T' w (f () w)) : Sedate P Q T w0 ((GenM.event t n a >>= f) w) :=
  .inl ⟨hg, T', hT, fun w' hw => hf w' (hw hb)⟩

/-- The action of a module, carried out at once. -/
theorem sedate_module {P : ℚ → A → Mach → Prop} {Q : ℚ → Mach → A → Mach → Prop} {o : Out Mach YV A} : ∀ {w0 w : Mach}, o.Yields ModuleY → o.Moves Leaves w → NoMore w w0 → Bears w →
    (∀ a w w0, NoMore w w0 → Bears w → Q T w0 a w) → Sedate P Q T w0 o := by
  induction o with
  | yield w1 y k ih =>
    intro w0 w hy hm hg hb hq
    cases y with
    | ev e =>
      exact .inl ⟨nomore_leaves hm.1 hg, T, .inl le_rfl, fun w' hw => ih w' (hy.2 w') (hm.2 w') (nomore_refl _) (hw (bears_leaves hm.1 hb)) hq⟩
    | procs => exact hy.1.elim
    | cont d => trivial
    | nothing => trivial
  | ret w1 a => intro w0 w _ hm hg hb hq; exact hq a w1 w0 (nomore_leaves hm hg) (bears_leaves hm hb)
  | raise w1 e => intros; trivial

/-- The signs of actions that put something into the list, or clear a buffer. -/
def tardy (c : Char) : Bool := !(c == '?' || c == '!' || c == '=' || c == '@')

theorem ending_clear (C : Cfg) (n : String) (v : RVal) (t : ℚ) {f : Unit → GenM B} {P : B → Mach → Prop} {w : Mach} (hb : Bears w) (hf : ∀ w, Bears w → Ending (round4 t) P (f () w)) :
    Ending (round4 t) P ((genClear C n v t true >>= f) w) := by
  have hc := moves_mono (R' := Keep) (fun _ _ h => keep_procs h.procs) ((confined_genClear C n v t true).moves w)
  have hy : Emits (fun y => match y with | .ev e => e.time ≤ round4 t | .procs => False | _ => True) (genClear C n v t true) := by
    unfold genClear
    refine emits_bind emits_set fun _ => emits_bind emits_act fun _ => emits_bind (emits_event ?_) fun _ => emits_set
    exact le_rfl
  have key : ∀ {o : Out Mach YV Unit} {w : Mach}, o.Yields (fun y => match y with | .ev e => e.time ≤ round4 t | .procs => False | _ => True) → o.Moves Keep w → Bears w →
      Ending (round4 t) (fun a w => Ending (round4 t) P (f a w)) o := by
    intro o
    induction o with
    | yield w1 y k ih =>
      intro w hy hm hb
      cases y with
      | ev e => exact ⟨hy.1, hm.1 hb, fun w' hw => ih w' (hy.2 w') (hm.2 w') hw⟩
      | procs => exact hy.1.elim
      | cont d => trivial
      | nothing => trivial
    | ret w1 a => intro w _ hm hb; exact hf w1 (hm hb)
    | raise w1 e => intros; trivial
  exact ending_bind (key (hy w) hc hb)

theorem ending_updateLoop (C : Cfg) (t : ℚ) {P : BV → Mach → Prop} (hp : ∀ a w, Bears w → P a w) : ∀ (l : List (Key × RVal)) (temp : BV) (w : Mach), (∀ x ∈ l, tardy x.1.code = true) → Bears w →
    Ending (round4 t) P (updateLoop C t l temp w)
  | [], temp, w, _, hb => hp _ _ hb
  | (k, v) :: r, temp, w, hl, hb => by
    have hrest := fun w hb => ending_updateLoop C t hp r (temp.popVar k.name) w (fun x hx => hl x (.tail _ hx)) hb
    have hk := hl _ (.head _)
    unfold updateLoop
    refine ending_quiet emits_act (moves_act ?_) hb fun _ w hb => ?_
    · split <;> exact keep_refl _
    refine ending_quiet emits_get (keep_refl w) hb fun bv w hb => ?_
    refine ending_quiet emits_set (keep_procs (confined_setState (n := k.name)).procs) hb fun _ w hb => ?_
    dsimp only
    split
    · exact ending_quiet emits_set (keep_queue w _ _) hb fun _ w hb => hrest w hb
    · have : immediate C k v bv t = genClear C k.name v t true := by
        simp only [tardy, Bool.not_eq_true', Bool.or_eq_false_iff, beq_eq_false_iff_ne] at hk
        unfold immediate
        rw [if_neg hk.1.1.1, if_neg hk.1.1.2, if_neg hk.1.2, if_neg hk.2]
      rw [this]
      exact ending_clear C _ v t hb fun w hb => hrest w hb

theorem sedate_updateLoop (C : Cfg) {t : ℚ} {P : ℚ → BV → Mach → Prop} {Q : ℚ → Mach → BV → Mach → Prop} (hp : ∀ a w, Bears w → P (round4 t) a w) (hq : ∀ w0 a w, Bears w → Q (round4 t) w0 a w)
    (l' : List (Key × RVal)) (hl' : ∀ x ∈ l', tardy x.1.code = true) : ∀ (l : List (Key × RVal)) (temp : BV) (w w0 : Mach), (∀ x ∈ l, interruptible x.1.code = false) → Bears w → NoMore w w0 →
    Sedate P Q (round4 t) w0 (updateLoop C t (l ++ l') temp w)
  | [], temp, w, w0, _, hb, _ => sedate_ending (ending_updateLoop C t (P := fun _ w => Bears w) (fun _ _ h => h) l' temp w hl' hb) hp (hq w0)
  | (k, v) :: r, temp, w, w0, hl, hb, hg => by
    have hrest := fun w w0 hb hg => sedate_updateLoop C hp hq l' hl' r (temp.popVar k.name) w w0 (fun x hx => hl x (.tail _ hx)) hb hg
    have hk : interruptible k.code = false := hl _ (.head _)
    show Sedate P Q _ _ (updateLoop C t ((k, v) :: (r ++ l')) temp w)
    unfold updateLoop
    refine sedate_quiet emits_act (moves_act ?_) fun _ w1 h1 => ?_
    · split <;> rfl
    refine sedate_quiet emits_get rfl fun bv w2 h2 => ?_
    refine sedate_quiet emits_set (confined_setState (n := k.name)).procs fun _ w3 h3 => ?_
    have h3 := h3.trans (h2.trans h1)
    dsimp only
    rw [if_neg (by rw [hk]; simp)]
    refine sedate_bind (sedate_module (moduleY_immediate C k v bv t w3) (moves_mono (fun _ _ h => h.procs) ((confined_immediate C k v bv t).moves w3)) (nomore_leaves h3 hg) (bears_leaves h3 hb)
      fun _ w w0 hg hb => hrest w w0 hb hg)

theorem sorted_parts {rhs l : List (Key × RVal)} (h : sortRhs rhs = .ok l) : ∃ l1 l2, l = l1 ++ l2 ∧ (∀ x ∈ l1, interruptible x.1.code = false) ∧ ∀ x ∈ l2, tardy x.1.code = true := by
  unfold sortRhs at h
  split at h
  · cases h
    refine ⟨[0, 1, 2].flatMap _, [3, 4, 5].flatMap _, (List.flatMap_append (xs := [0, 1, 2]) (ys := [3, 4, 5])), ?_, ?_⟩
    · intro x hx
      obtain ⟨r, hr, hx⟩ := List.mem_flatMap.mp hx
      have hx := of_decide_eq_true (List.mem_filter.mp hx).2
      have h3 : r < 3 := by simp at hr; omega
      unfold codeRank at hx
      unfold interruptible
      split_ifs at hx with h1 h2 h3 h4 h5 h6 h7 <;> simp_all <;> omega
    · intro x hx
      obtain ⟨r, hr, hx⟩ := List.mem_flatMap.mp hx
      have hx := of_decide_eq_true (List.mem_filter.mp hx).2
      have h3 : 3 ≤ r := by simp at hr; omega
      unfold codeRank at hx
      unfold tardy
      split_ifs at hx with h1 h2 h3 h4 h5 h6 h7 <;> simp_all <;> omega
  · cases h

theorem sedate_rhs (C : Cfg) (n : String) (rule : CRule) {t : ℚ} {P : ℚ → Unit → Mach → Prop} {Q : ℚ → Mach → Unit → Mach → Prop} (hp : ∀ w, Bears w → P (round4 t) () w)
    (hq : ∀ w0 w, Bears w → Q (round4 t) w0 () w) {w w0 : Mach} (hb : Bears w) (hg : NoMore w w0) : Sedate P Q (round4 t) w0 (genRhs C n rule t w) := by
  have hlast : ∀ w, Bears w → Bears (match w.lastRule with
    | some l => if l ≠ n then { w with compile := some (l, n, w.lastSlots), lastSlots := w.noSlots, lastRule := some n } else { w with lastRule := some n }
    | Option.none => { w with lastRule := some n }) := fun w hb => by
    refine keep_procs ?_ hb
    split
    · split <;> rfl
    · rfl
  have hharv : ∀ (left : BV) (w : Mach), Bears w → Bears (if C.strict then harvestAll t left.keyNames w else w) := fun left w hb => by
    split
    · exact keep_harvest t _ w hb
    · exact hb
  unfold genRhs
  refine sedate_quiet emits_lift (moves_lift (R := Leaves) (fun _ => rfl) _ w) fun rhs w1 h1 => ?_
  refine sedate_bind ?_
  unfold genUpdate
  refine sedate_quiet emits_get rfl fun temp w2 h2 => ?_
  have h2 : Leaves w w2 := h2.trans h1
  cases hs : sortRhs rhs with
  | error x => trivial
  | ok l =>
    obtain ⟨l1, l2, rfl, hl1, hl2⟩ := sorted_parts hs
    show Sedate _ _ _ _ ((updateLoop C t (l1 ++ l2) temp w2).bind _)
    refine sedate_bind (sedate_updateLoop C ?_ ?_ l2 hl2 l1 temp w2 w0 hl1 (bears_leaves h2 hb) (nomore_leaves h2 hg))
    · exact fun left w hb => hp _ (hlast _ (hharv left w hb))
    · exact fun w0 left w hb => hq w0 _ (hlast _ (hharv left w hb))

theorem sedate_fire (C : Cfg) (n : String) (rule : CRule) {t : ℚ} {P : ℚ → Unit → Mach → Prop} {Q : ℚ → Mach → Unit → Mach → Prop} (hp : ∀ w, Bears w → P (round4 t) () w)
    (hq : ∀ w0 w, Bears w → Q (round4 t) w0 () w) {w w0 : Mach} (hb : Bears w) (hg : NoMore w w0) : Sedate P Q T w0 (genFire C n rule t w) := by
  have hrest : ∀ {T} w w0, Bears w → NoMore w w0 → Sedate P Q T w0
      ((do .set (fun w => { w with curSlots := w.noSlots }); .event t procName (.fired n); genRhs C n rule t : GenM Unit) w) := fun w w0 hb hg => by
    refine sedate_quiet emits_set rfl fun _ w h => ?_
    refine sedate_event (T' := round4 t) (nomore_leaves h hg) (.inr le_rfl) (bears_leaves h hb) fun w hb => ?_
    exact sedate_rhs C n rule hp hq hb (nomore_refl w)
  unfold genFire
  refine sedate_quiet emits_set ?_ fun _ w1 h1 => ?_
  · show (rewardStep C n t w).procs = w.procs
    unfold rewardStep
    split
    · split <;> rfl
    · rfl
  refine sedate_quiet emits_act (moves_act ?_) fun comp w2 h2 => ?_
  · show (compileIn C w1).1.procs = w1.procs
    unfold compileIn
    split
    · dsimp only
      split <;> rfl
    · rfl
  refine sedate_quiet emits_set rfl fun _ w3 h3 => ?_
  have h3 : Leaves w w3 := (h3.trans h2).trans h1
  rcases comp with _ | ⟨m, re⟩
  · exact hrest w3 w0 (bears_leaves h3 hb) (nomore_leaves h3 hg)
  · exact sedate_event (T' := T) (nomore_leaves h3 hg) (.inl le_rfl) (bears_leaves h3 hb) fun w hb => hrest w w hb (nomore_refl w)

theorem sedate_selected (C : Cfg) (n : String) (rule : CRule) {t : ℚ} {P : ℚ → Unit → Mach → Prop} {Q : ℚ → Mach → Unit → Mach → Prop} (hp : ∀ T w, Bears w → P T () w)
    (hq : ∀ T w0 w, Bears w → Q T w0 () w) {w w0 : Mach} (hb : Bears w) (hg : NoMore w w0) : Sedate P Q T w0 (genSelected C n rule t w) := by
  unfold genSelected
  refine sedate_quiet emits_set rfl fun _ w h => ?_
  refine sedate_event (T' := T) (nomore_leaves h hg) (.inl le_rfl) (bears_leaves h hb) fun w hb => ?_
  refine sedate_event (T' := T) (nomore_refl w) (.inl le_rfl) hb fun w hb => ?_
  unfold genTest
  refine sedate_quiet emits_lift (moves_lift (R := Leaves) (fun _ => rfl) _ w) fun lhs w1 h1 => ?_
  refine sedate_quiet emits_act (moves_act rfl) fun m w2 h2 => ?_
  have h2 : Leaves w w2 := h2.trans h1
  cases m with
  | none => exact .inl ⟨nomore_leaves h2 (nomore_refl w), T, .inl le_rfl, fun w' hw => hq _ _ _ (hw (bears_leaves h2 hb))⟩
  | some bv =>
    refine sedate_quiet emits_set rfl fun _ w3 h3 => ?_
    have h3 : Leaves w w3 := h3.trans h2
    exact sedate_fire C n rule (hp _) (hq _) (bears_leaves h3 hb) (nomore_leaves h3 (nomore_refl w))

/-- A cycle of the rules: the list of processes is passed on after the requests were put into it, at the same time. -/
theorem sedate_procedural (C : Cfg) (t : ℚ) (w : Mach) : Sedate (fun _ _ _ => True) (fun _ _ _ _ => True) T w (genProcedural C t w) := by
  unfold genProcedural
  show Sedate _ _ _ _ ((GenM.event t procName .conflict >>= _) { w with procs := w.procs ++ [.procedural], bv := BV.init })
  refine sedate_event (T' := T) (fun n => ?_) (.inl le_rfl) (List.mem_append_right _ (.head _)) fun w hb => ?_
  · rw [orders_append]; exact le_rfl
  refine sedate_quiet emits_act (moves_act ?_) fun sel w1 h1 => ?_
  · show (selectIn C w).1.procs = w.procs
    unfold selectIn
    dsimp only
    split
    · rfl
    · rfl
    · split <;> rfl
  rcases sel with _ | ⟨n, rule⟩
  · exact .inl ⟨fun n => by rw [orders_remove]; exact nomore_leaves h1 (nomore_refl w) n, T, .inl le_rfl, fun w' _ => .inl (nomore_refl w')⟩
  · exact sedate_bind (sedate_selected C n rule (fun T w hb => hb) (fun T w0 w hb => .inr hb) (bears_leaves h1 hb) (nomore_leaves h1 (nomore_refl w)))

end Verif
