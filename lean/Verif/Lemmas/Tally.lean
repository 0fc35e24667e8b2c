import Verif.Lemmas.Origin
import Verif.Lemmas.Firing
import Verif.Spec.Tally
/-! # Answers are paid for by requests: the processes -/
namespace Verif
open Verif.Spec

variable {A B : Type} {b : String}

/-! ## Requests and answers -/

/-- What a report costs: one for an answer of the buffer `b`. -/
def price (b : String) (e : Ev) : ℕ := if e.proc == b && IsAnswer e.act then 1 else 0

/-- How many answers a process can still give. -/
def worth (b : String) : Desc → ℕ
  | .retrieveorset n _ _ _ => if n = b then 1 else 0
  | .motorContinue n _ _ _ => if n = b then 1 else 0
  | .visualContinue n _ _ _ ts _ => if n = b ∧ ts.2.1 + ts.2.2 < ts.1 then 1 else 0
  | _ => 0

/-- The same for a process in a list. -/
def worthItem (b : String) : PItem → ℕ
  | .procedural => 0
  | .gen _ _ d => worth b d

/-- The same for a list. -/
def worthAll (b : String) (l : List PItem) : ℕ := (l.map (worthItem b)).sum

@[simp] theorem worthAll_nil : worthAll b [] = 0 := rfl
@[simp] theorem worthAll_cons (x : PItem) (l : List PItem) : worthAll b (x :: l) = worthItem b x + worthAll b l := rfl
@[simp] theorem worthAll_append (l l' : List PItem) : worthAll b (l ++ l') = worthAll b l + worthAll b l' := by simp [worthAll]

theorem worthAll_remove : ∀ l : List PItem, worthAll b (removeProcedural l) = worthAll b l
  | [] => rfl
  | .procedural :: l => by simp [removeProcedural, worthItem]
  | .gen n i d :: l => by simp [removeProcedural, worthAll_remove l]

/-- Rules stay what they are. -/
def Persist (w w' : Mach) : Prop := ∀ n r, alook n w.rules = some r → ∃ r', alook n w'.rules = some r' ∧ r'.body = r.body

theorem persist_refl (w : Mach) : Persist w w := fun _ r h => ⟨r, h, rfl⟩
theorem persist_trans {a b c : Mach} (h1 : Persist a b) (h2 : Persist b c) : Persist a c := fun n r h => by
  obtain ⟨r1, g1, e1⟩ := h1 n r h
  obtain ⟨r2, g2, e2⟩ := h2 n r1 g1
  exact ⟨r2, g2, e2.trans e1⟩
theorem persist_same {w w' : Mach} (h : w'.rules = w.rules) : Persist w w' := fun _ r hr => ⟨r, by rw [h]; exact hr, rfl⟩
theorem Passive.persist {w w' : Mach} (h : Passive w w') : Persist w w' := h.1.rules

theorem requestsIn_persist {w w' : Mach} (h : Persist w w') (n : String) : requestsIn w.rules b n ≤ requestsIn w'.rules b n := by
  unfold requestsIn
  cases hr : alook n w.rules with
  | none => exact Nat.zero_le _
  | some r =>
    obtain ⟨r', h1, h2⟩ := h n r hr
    rw [h1]
    dsimp only
    rw [h2]

theorem requestsBy_persist {w w' : Mach} (h : Persist w w') (e : Ev) : requestsBy w.rules b e ≤ requestsBy w'.rules b e := by
  unfold requestsBy
  split
  · split
    · exact requestsIn_persist h _
    · exact le_rfl
  · exact le_rfl

theorem requestsOf_persist {w w' : Mach} (h : Persist w w') : ∀ tr, requestsOf w.rules b tr ≤ requestsOf w'.rules b tr
  | [] => le_rfl
  | x :: tr => Nat.add_le_add (requestsBy_persist h x.2) (requestsOf_persist h tr)

/-! ## What a process can pay for -/

/-- The process can pay with `n` for what it reports and asks for, and for what it still can pay for at the end there is `Q`; `w0` is the state in which it is resumed. -/
def Affords (b : String) (Q : ℕ → Mach → A → Prop) : ℕ → Mach → Out Mach YV A → Prop
  | n, w0, .yield w (.ev e) k => Persist w0 w ∧ ∃ m, worthAll b w.procs + m ≤ worthAll b w0.procs + n ∧
      ∀ w', Persist w w' → ∃ m', price b e + m' ≤ m + requestsBy w'.rules b e ∧ Affords b Q m' w' (k w')
  | n, w0, .yield w (.cont d) _ => Persist w0 w ∧ worthAll b w.procs + worth b d ≤ worthAll b w0.procs + n
  | n, w0, .yield w .procs _ => Persist w0 w ∧ worthAll b w.procs ≤ worthAll b w0.procs + n
  | n, w0, .yield w .nothing _ => Persist w0 w ∧ worthAll b w.procs ≤ worthAll b w0.procs + n
  | n, w0, .ret w a => Persist w0 w ∧ ∃ m, worthAll b w.procs + m ≤ worthAll b w0.procs + n ∧ Q m w a
  | n, w0, .raise w _ => Persist w0 w ∧ worthAll b w.procs ≤ worthAll b w0.procs + n

/-- The process can pay for all it does. -/
abbrev Pays (b : String) (n : ℕ) (w : Mach) (o : Out Mach YV A) : Prop := Affords b (fun _ _ _ => True) n w o

variable {Q : ℕ → Mach → A → Prop} {Q' : ℕ → Mach → B → Prop} {n m : ℕ} {w w' w0 : Mach}

theorem affords_from {o : Out Mach YV A} (hp : Persist w0 w) (hl : worthAll b w.procs + m ≤ worthAll b w0.procs + n) (h : Affords b Q m w o) : Affords b Q n w0 o := by
  cases o with
  | yield w1 y k =>
    cases y with
    | ev e =>
      obtain ⟨h1, m1, h2, h3⟩ := h
      exact ⟨persist_trans hp h1, m1, by omega, h3⟩
    | cont d => exact ⟨persist_trans hp h.1, by have := h.2; omega⟩
    | procs => exact ⟨persist_trans hp h.1, by have := h.2; omega⟩
    | nothing => exact ⟨persist_trans hp h.1, by have := h.2; omega⟩
  | ret w1 a =>
    obtain ⟨h1, m1, h2, h3⟩ := h
    exact ⟨persist_trans hp h1, m1, by omega, h3⟩
  | raise w1 e => exact ⟨persist_trans hp h.1, by have := h.2; omega⟩

theorem affords_le {o : Out Mach YV A} (h : Affords b Q m w o) (hl : m ≤ n) : Affords b Q n w o := affords_from (persist_refl w) (by omega) h

theorem affords_bind {f : A → GenM B} {o : Out Mach YV A} : ∀ {n : ℕ} {w0 : Mach}, Affords b Q n w0 o → (∀ m w a, Q m w a → Affords b Q' m w (f a w)) → Affords b Q' n w0 (o.bind f) := by
  induction o with
  | yield w1 y k ih =>
    intro n w0 h hf
    cases y with
    | ev e =>
      obtain ⟨h1, m1, h2, h3⟩ := h
      refine ⟨h1, m1, h2, fun w' hw' => ?_⟩
      obtain ⟨m', h4, h5⟩ := h3 w' hw'
      exact ⟨m', h4, ih w' h5 hf⟩
    | cont d => exact h
    | procs => exact h
    | nothing => exact h
  | ret w1 a =>
    intro n w0 h hf
    obtain ⟨h1, m1, h2, h3⟩ := h
    exact affords_from h1 h2 (hf m1 w1 a h3)
  | raise w1 e => exact fun h _ => h

/-- Parts that change nothing of importance. -/
theorem affords_ret {a : A} (hp : Persist w0 w) (hl : worthAll b w.procs ≤ worthAll b w0.procs) (h : Q n w a) : Affords b Q n w0 (.ret w a) := ⟨hp, n, by omega, h⟩

/-- A report. -/
theorem affords_event {t : ℚ} {p : String} {a : Act} {k : Mach → Out Mach YV A} (hp : Persist w0 w) (hl : worthAll b w.procs ≤ worthAll b w0.procs)
    (h : ∀ w', Persist w w' → ∃ m, price b ⟨round4 t, p, a⟩ + m ≤ n + requestsBy w'.rules b ⟨round4 t, p, a⟩ ∧ Affords b Q m w' (k w')) :
    Affords b Q n w0 (.yield w (.ev ⟨round4 t, p, a⟩) k) := ⟨hp, n, by omega, h⟩

/-! ## Modules -/

/-- What is reported costs at most `n`, and so does a process that goes on. -/
def Out.Uses (b : String) : ℕ → Out Mach YV A → Prop
  | n, .yield _ (.ev e) k => price b e ≤ n ∧ ∀ w', (k w').Uses b (n - price b e)
  | n, .yield _ (.cont d) _ => worth b d ≤ n
  | _, _ => True

/-- The same for all states. -/
def Costs (b : String) (n : ℕ) (g : GenM A) : Prop := ∀ w, (g w).Uses b n

theorem uses_le {o : Out Mach YV A} : ∀ {n m : ℕ}, o.Uses b n → n ≤ m → o.Uses b m := by
  induction o with
  | yield w1 y k ih =>
    intro n m h hl
    cases y with
    | ev e => exact ⟨h.1.trans hl, fun w' => ih w' (h.2 w') (by omega)⟩
    | cont d => exact le_trans (show worth b d ≤ n from h) hl
    | procs => trivial
    | nothing => trivial
  | ret => intros; trivial
  | raise => intros; trivial

theorem uses_bind {f : A → GenM B} {o : Out Mach YV A} : ∀ {n m : ℕ}, o.Uses b n → (∀ a, Costs b m (f a)) → (o.bind f).Uses b (n + m) := by
  induction o with
  | yield w1 y k ih =>
    intro n m h hf
    cases y with
    | ev e =>
      refine ⟨h.1.trans (Nat.le_add_right _ _), fun w' => ?_⟩
      have := ih w' (h.2 w') hf
      rwa [← Nat.sub_add_comm h.1] at this
    | cont d => exact le_trans (show worth b d ≤ n from h) (Nat.le_add_right _ _)
    | procs => trivial
    | nothing => trivial
  | ret w1 a => intro n m _ hf; exact uses_le (hf a w1) (Nat.le_add_left _ _)
  | raise => intros; trivial

theorem costs_bind {g : GenM A} {f : A → GenM B} (hg : Costs b n g) (hf : ∀ a, Costs b m (f a)) : Costs b (n + m) (g >>= f) := fun w => uses_bind (hg w) hf
theorem costs_le {g : GenM A} (hg : Costs b n g) (h : n ≤ m) : Costs b m g := fun w => uses_le (hg w) h
/-- First something that costs nothing. -/
theorem costs_then {g : GenM A} {f : A → GenM B} (hg : Costs b 0 g) (hf : ∀ a, Costs b n (f a)) : Costs b n (g >>= f) := by
  have := costs_bind hg hf
  rwa [Nat.zero_add] at this

theorem affords_uses {o : Out Mach YV A} : ∀ {n : ℕ} {w : Mach}, o.Moves Passive w → o.Uses b n → Pays b n w o := by
  induction o with
  | yield w1 y k ih =>
    intro n w hm hu
    have hp := hm.1.persist
    have hw : worthAll b w1.procs = worthAll b w.procs := by rw [hm.1.2]
    cases y with
    | ev e => exact ⟨hp, n, by omega, fun w' _ => ⟨n - price b e, by have := hu.1; omega, ih w' (hm.2 w') (hu.2 w')⟩⟩
    | cont d => exact ⟨hp, by have : worth b d ≤ n := hu; omega⟩
    | procs => exact ⟨hp, by omega⟩
    | nothing => exact ⟨hp, by omega⟩
  | ret w1 a => intro n w hm _; exact ⟨hm.persist, 0, by rw [hm.2]; omega, trivial⟩
  | raise w1 e => intro n w hm _; exact ⟨hm.persist, by rw [hm.2]; omega⟩

/-- No answer, and no process that gives one. -/
def FreeY : YV → Prop
  | .ev e => IsAnswer e.act = false
  | .cont _ => False
  | _ => True

theorem freeY_event (t : ℚ) (n : String) {a : Act} (h : IsAnswer a = false) : FreeY (.ev ⟨round4 t, n, a⟩) := h
theorem freeY_nothing : FreeY .nothing := trivial

theorem price_free {e : Ev} (h : IsAnswer e.act = false) : price b e = 0 := by simp [price, h]

theorem costs_free {g : GenM A} (h : Emits FreeY g) : Costs b 0 g := fun w => by
  have key : ∀ o : Out Mach YV A, o.Yields FreeY → o.Uses b 0 := by
    intro o
    induction o with
    | yield w1 y k ih =>
      intro hy
      cases y with
      | ev e => exact ⟨(price_free hy.1).le, fun w' => uses_le (ih w' (hy.2 w')) (Nat.zero_le _)⟩
      | cont d => exact hy.1.elim
      | procs => trivial
      | nothing => trivial
    | ret => exact fun _ => trivial
    | raise => exact fun _ => trivial
  exact key _ (h w)

macro "emitf" : tactic => `(tactic| repeat' with_reducible first
  | exact emits_event (freeY_event _ _ rfl)
  | exact emits_yield freeY_nothing
  | exact emits_get | exact emits_lift | exact emits_throw | exact emits_pure | exact emits_pure' | exact emits_set | exact emits_act
  | assumption
  | refine emits_bind ?_ fun _ => ?_
  | split)

theorem freeY_clear (C : Cfg) (n : String) (v : RVal) (t : ℚ) (f : Bool) : Emits FreeY (genClear C n v t f) := by unfold genClear; emitf
theorem freeY_extraTest (n : String) (v : RVal) (t : ℚ) : Emits FreeY (genExtraTest n v t) := by unfold genExtraTest; emitf
theorem freeY_execute (C : Cfg) (n : String) (v : RVal) (t : ℚ) : Emits FreeY (genExecute C n v t) := by unfold genExecute; emitf
theorem freeY_modify (C : Cfg) (n : String) (v : RVal) (bv : BV) (t : ℚ) : Emits FreeY (genModify C n v bv t) := by
  unfold genModify recordModify; emitf
theorem freeY_modifyRequest (C : Cfg) (n : String) (v : RVal) (bv : BV) (t : ℚ) : Emits FreeY (genModifyRequest C n v bv t) := by
  unfold genModifyRequest recordModify; emitf
theorem freeY_overwrite (C : Cfg) (n : String) (v : RVal) (bv : BV) (t : ℚ) : Emits FreeY (genOverwrite C n v bv t) := by
  unfold genOverwrite recordSet; emitf
theorem freeY_autoSearch (C : Cfg) (n : String) (s : List Stim) (t : ℚ) : Emits FreeY (genAutoSearch C n s t) := by unfold genAutoSearch; emitf
theorem freeY_autoBuffer (C : Cfg) (n : String) (s : List Stim) (t : ℚ) : Emits FreeY (genAutoBuffer C n s t) := by unfold genAutoBuffer; emitf

theorem freeY_immediate (C : Cfg) (k : Key) (v : RVal) (bv : BV) (t : ℚ) : Emits FreeY (immediate C k v bv t) := by
  unfold immediate
  split_ifs
  · exact fun w => freeY_extraTest ..
  · exact fun w => freeY_execute ..
  · exact fun w => freeY_modify ..
  · exact fun w => freeY_overwrite ..
  · exact fun w => freeY_clear ..

/-- What an answer of the buffer `n` costs. -/
abbrev own1 (b n : String) : ℕ := if n = b then 1 else 0

theorem costs_answer (t : ℚ) (n : String) (a : Act) : Costs b (own1 b n) (GenM.event t n a) := fun w => by
  refine ⟨?_, fun _ => trivial⟩
  unfold price own1
  by_cases h : n = b
  · rw [if_pos h]; split <;> omega
  · simp [h]

theorem costs_cont {d : Desc} (h : worth b d ≤ n) : Costs b n (GenM.yield (.cont d)) := fun _ => h
theorem costs_nothing : Costs b n (GenM.yield .nothing) := fun _ => trivial

theorem costs_act {f : Mach → Mach × Except PyErr A} {g : A → GenM B} (h : ∀ w w' a, f w = (w', .ok a) → Costs b n (g a)) : Costs b n (GenM.act f >>= g) := fun w => by
  rcases hr : f w with ⟨w2, e | a⟩
  · rw [genM_bind_apply, genM_act_error hr]; trivial
  · rw [genM_bind_apply, genM_act_ok hr]; exact h w w2 a hr w2

/-- A part that costs nothing. -/
macro "gratis" : tactic => `(tactic| refine costs_then (costs_free (by emitf)) fun _ => ?_)

/-- All parts but the answer. -/
macro "gratisall" : tactic => `(tactic| repeat' with_reducible first
  | exact costs_answer _ _ _
  | gratis
  | split
  | (dsimp only; split))

theorem costs_setGoal (C : Cfg) (n : String) (v : RVal) (bv : BV) (t : ℚ) : Costs b (own1 b n) (genSetGoal C n v bv t) := by
  have h := freeY_clear C n v t false
  unfold genSetGoal recordSet
  gratisall

theorem costs_retrieve (C : Cfg) (n : String) (v : RVal) (bv : BV) (t : ℚ) : Costs b (own1 b n) (genRetrieve C n v bv t) := by
  unfold genRetrieve recordRetrieved
  gratisall

theorem costs_findLocation (C : Cfg) (n : String) (v : RVal) (bv : BV) (t : ℚ) : Costs b (own1 b n) (genFindLocation C n v bv t) := by
  have h := freeY_clear C n .nothing t false
  unfold genFindLocation
  gratisall

theorem costs_encode (C : Cfg) (n : String) (c : Chunk) (t x : ℚ) (s : ℚ × ℚ) : Costs b (own1 b n) (genVisualencode C n c t x s) := by
  have h := freeY_clear C n .nothing (t + x) false
  unfold genVisualencode
  iterate 5 gratis
  exact costs_answer _ _ _

/-- The movement of the eye takes no negative time. -/
theorem shift_execution {C : Cfg} (hn : MovesForward C) {c : Chunk} {bv : BV} {w w1 : Mach} {r : Chunk × (ℚ × ℚ × ℚ) × (ℚ × ℚ)} (h : shiftIn C c bv w = (w1, .ok r)) : 0 ≤ r.2.1.2.2 := by
  unfold shiftIn at h
  split at h
  · cases h
  · split at h
    · cases h
    · split at h
      · cases h
      · cases h
      · split at h
        · cases h
        · dsimp only at h
          split at h
          · simp only [Prod.mk.injEq] at h
            obtain ⟨_, h⟩ := h
            generalize hx : C.emma _ _ _ _ = x at h
            cases x with
            | error e => cases h
            | ok y => cases h; exact hn _ _ _ _ _ hx
          · cases h; norm_num

theorem costs_visualshift {C : Cfg} (hn : MovesForward C) (n : String) (v : RVal) (bv : BV) (t : ℚ) : Costs b (own1 b n) (genVisualshift C n v bv t) := by
  unfold genVisualshift
  gratis
  refine costs_act fun w w' s hs => ?_
  have hx := shift_execution hn hs
  obtain ⟨c, ⟨enc, prep, ex⟩, site⟩ := s
  dsimp only at hx ⊢
  iterate 2 gratis
  by_cases h1 : enc ≤ prep
  · rw [if_pos h1]
    refine costs_le (costs_bind (m := 0) (costs_encode C n c _ _ _) fun _ => ?_) le_rfl
    gratis
    rw [if_neg (fun h => absurd h.1 (not_lt.2 h1))]
    exact costs_cont (le_of_eq (if_neg fun h => absurd h.2 (by dsimp only; linarith)))
  · rw [if_neg h1]
    gratis
    by_cases h2 : enc ≤ prep + ex
    · rw [if_pos ⟨not_le.1 h1, h2⟩]
      refine costs_le (costs_bind (m := 0) (costs_encode C n c _ _ _) fun _ => ?_) le_rfl
      exact costs_cont (le_of_eq (if_neg fun h => absurd h.2 (by dsimp only; linarith)))
    · rw [if_neg fun h => h2 h.2]
      refine costs_cont ?_
      show (if n = b ∧ prep + ex < enc then 1 else 0) ≤ own1 b n
      split
      · rename_i h; exact (if_pos h.1).ge
      · exact Nat.zero_le _

theorem costs_visual {C : Cfg} (hn : MovesForward C) (n : String) (v : RVal) (bv : BV) (t : ℚ) : Costs b (own1 b n) (genVisual C n v bv t) := by
  unfold genVisual
  iterate 2 gratis
  split
  · exact costs_le (costs_free (by emitf)) (Nat.zero_le _)
  · split
    · exact costs_le (costs_free (by emitf)) (Nat.zero_le _)
    · split
      · exact costs_le (costs_bind (m := 0) (costs_visualshift hn n v bv t) fun _ => costs_nothing) le_rfl
      · exact costs_le (costs_free (by emitf)) (Nat.zero_le _)

theorem costs_visualcontinue (C : Cfg) (n : String) (c : Chunk) (bv : BV) (t : ℚ) (ts : ℚ × ℚ × ℚ) (s : ℚ × ℚ) : Costs b (worth b (.visualContinue n c bv t ts s)) (genVisualcontinue C n c bv t ts s) := by
  unfold genVisualcontinue
  iterate 7 gratis
  by_cases h : ts.2.1 + ts.2.2 < ts.1
  · rw [if_pos h]
    have hw : worth b (.visualContinue n c bv t ts s) = own1 b n := by simp [worth, h]
    rw [hw]
    gratis
    split
    · exact costs_le (costs_free (by emitf)) (Nat.zero_le _)
    · exact costs_le (costs_bind (m := 0) (costs_encode C n c _ _ _) fun _ => costs_free (by emitf)) le_rfl
  · rw [if_neg h]
    exact costs_le (costs_free (by emitf)) (Nat.zero_le _)

theorem costs_motorset (C : Cfg) (n : String) (v : RVal) (bv : BV) (t : ℚ) : Costs b (own1 b n) (genMotorset C n v bv t) := by
  unfold genMotorset
  iterate 7 gratis
  exact costs_cont le_rfl

theorem costs_motorcontinue (n : String) (k : String) (t : ℚ) (pr : ℚ × ℚ × ℚ × ℚ) : Costs b (own1 b n) (genMotorcontinue n k t pr) := by
  unfold genMotorcontinue
  iterate 6 gratis
  exact costs_le (costs_bind (m := 0) (costs_answer _ _ _) fun _ => costs_free (by emitf)) le_rfl

/-- All processes of modules. -/
theorem costs_run {C : Cfg} (hn : MovesForward C) (d : Desc) : Costs b (worth b d) (d.run C) := by
  cases d with
  | retrieveorset n v bv t =>
    show Costs b (own1 b n) (genRetrieveorset C n v bv t)
    unfold genRetrieveorset
    iterate 2 gratis
    split
    · exact costs_setGoal C n v bv t
    · exact costs_findLocation C n v bv t
    · exact costs_visual hn n v bv t
    · exact costs_le (costs_bind (m := 0) (costs_motorset C n v bv t) fun _ => costs_nothing) le_rfl
    · exact costs_retrieve C n v bv t
    · exact costs_le (costs_free (by emitf)) (Nat.zero_le _)
  | modifyRequest n v bv t => exact costs_free (freeY_modifyRequest C n v bv t)
  | clear n bv t => exact costs_free (freeY_clear C n .nothing t true)
  | autoSearch n s t => exact costs_free (freeY_autoSearch C n s t)
  | autoBuffer n s t => exact costs_free (freeY_autoBuffer C n s t)
  | visualContinue n c bv t ts s => exact costs_visualcontinue C n c bv t ts s
  | motorContinue n k t pr => exact costs_motorcontinue n k t pr

theorem pays_run {C : Cfg} (hn : MovesForward C) (d : Desc) (w : Mach) : Pays b (worth b d) w (d.run C w) := affords_uses (passive_run C d w) (costs_run hn d w)

/-! ## The process of the rules -/

/-- How many requests there are among actions. -/
def orderedOf (b : String) (l : List (Key × RVal)) : ℕ := l.countP (fun p => decide (p.1 = ⟨'+', b⟩))

theorem affords_quiet {o : Out Mach YV A} : ∀ {w : Mach}, o.Moves Passive w → o.Yields FreeY → Affords b (fun m _ _ => n ≤ m) n w o := by
  induction o with
  | yield w1 y k ih =>
    intro w hm hy
    have hp := hm.1.persist
    have hw : worthAll b w1.procs = worthAll b w.procs := by rw [hm.1.2]
    cases y with
    | ev e => exact ⟨hp, n, by omega, fun w' _ => ⟨n, by rw [price_free hy.1]; omega, ih w' (hm.2 w') (hy.2 w')⟩⟩
    | cont d => exact hy.1.elim
    | procs => exact ⟨hp, by omega⟩
    | nothing => exact ⟨hp, by omega⟩
  | ret w1 a => intro w hm _; exact ⟨hm.persist, n, by rw [hm.2], le_rfl⟩
  | raise w1 e => intro w hm _; exact ⟨hm.persist, by rw [hm.2]; omega⟩

theorem worth_queued (k : Key) (v : RVal) (bv : BV) (t : ℚ) : worth b (queuedDesc k v bv t) = if k = ⟨'+', b⟩ then 1 else 0 := by
  obtain ⟨c, n⟩ := k
  unfold queuedDesc
  by_cases hc : c = '+'
  · subst hc
    by_cases hn : n = b
    · subst hn; simp [worth]
    · simp [worth, hn]
  · simp [worth, hc]

theorem passive_setState (n : String) (x : Status) (w : Mach) : Passive w (w.setState n x) := passive_confined confined_setState

theorem affords_updateLoop (C : Cfg) (t : ℚ) : ∀ (l : List (Key × RVal)) (temp : BV) (w : Mach), Pays b (orderedOf b l) w (updateLoop C t l temp w)
  | [], temp, w => ⟨persist_refl w, 0, by simp, trivial⟩
  | (k, v) :: r, temp, w => by
    have ih := affords_updateLoop C t r (temp.popVar k.name)
    have hn : orderedOf b ((k, v) :: r) = orderedOf b r + if k = ⟨'+', b⟩ then 1 else 0 := by
      unfold orderedOf
      rw [List.countP_cons]
      simp
    simp only [updateLoop]
    refine affords_bind (Q := fun m _ _ => orderedOf b ((k, v) :: r) ≤ m) (affords_quiet (moves_act (R := Passive) ?_) (yields_act _ _)) fun m w _ hm => affords_le (m := orderedOf b ((k, v) :: r)) ?_ hm
    · split <;> exact passive_refl w
    · simp only [genM_bind_apply, genM_get_apply, out_bind_ret, genM_set_apply]
      have hb := passive_setState k.name .busy w
      split
      · refine affords_from (w := (w.setState k.name .busy).queue k.name (queuedDesc k v w.bv t)) (m := orderedOf b r) (persist_same ?_) ?_ (ih _)
        · exact (confined_setState (n := k.name) (w := w) (s := .busy)).rules
        · have : ((w.setState k.name .busy).queue k.name (queuedDesc k v w.bv t)).procs = w.procs ++ [.gen k.name (w.setState k.name .busy).nextId (queuedDesc k v w.bv t)] := by
            show (w.setState k.name .busy).procs ++ _ = _
            rw [hb.2]
          rw [this, hn]
          simp only [worthAll_append, worthAll_cons, worthAll_nil, worthItem, worth_queued]
          omega
      · refine affords_from (m := orderedOf b ((k, v) :: r)) hb.persist (by rw [hb.2]) ?_
        refine affords_bind (Q := fun m _ _ => orderedOf b ((k, v) :: r) ≤ m) (affords_quiet (moves_mono (fun _ _ h => passive_confined h) ((confined_immediate C k v _ t).moves _)) (freeY_immediate C k v _ t _)) fun m w _ hm => affords_le (ih w) ?_
        omega

theorem orderedOf_sort {rhs l : List (Key × RVal)} (h : sortRhs rhs = .ok l) : orderedOf b l = orderedOf b rhs := by
  unfold sortRhs at h
  split at h
  · cases h
    have key : ∀ r, orderedOf b (rhs.filter (fun p => codeRank p.1.code = some r)) = if r = 4 then orderedOf b rhs else 0 := fun r => by
      unfold orderedOf
      rw [List.countP_filter]
      split
      · rename_i hr
        refine List.countP_congr fun x _ => ?_
        simp only [Bool.and_eq_true, decide_eq_true_eq]
        exact ⟨fun h => h.1, fun h => ⟨h, by rw [h, hr]; rfl⟩⟩
      · rename_i hr
        refine List.countP_eq_zero.2 fun x _ hx => hr ?_
        simp only [Bool.and_eq_true, decide_eq_true_eq] at hx
        have : codeRank '+' = some r := by rw [← hx.2, hx.1]
        exact (Option.some.inj this).symm
    show orderedOf b ([0, 1, 2, 3, 4, 5].flatMap fun r => rhs.filter (fun p => codeRank p.1.code = some r)) = _
    have happ : ∀ l l' : List (Key × RVal), orderedOf b (l ++ l') = orderedOf b l + orderedOf b l' := fun l l' => List.countP_append
    have hnil : orderedOf b [] = 0 := rfl
    simp [List.flatMap_cons, happ, key, hnil]
  · cases h

theorem harvest_rest (t : ℚ) : ∀ (l : List String) (w : Mach), worthAll b (harvestAll t l w).procs = worthAll b w.procs ∧ (harvestAll t l w).rules = w.rules
  | [], w => ⟨rfl, rfl⟩
  | n :: r, w => by
    obtain ⟨h1, h2⟩ := harvest_rest t r (match w.buf n with | some _ => w.queue n (.clear n w.bv t) | Option.none => w)
    refine ⟨h1.trans ?_, h2.trans ?_⟩
    · split
      · simp [Mach.queue, worthItem, worth]
      · rfl
    · split <;> rfl

/-- The actions of a rule that fired. -/
theorem pays_rhs (C : Cfg) {rhs : List (Key × RVal)} {rule : CRule} (hr : rule.body.rhs = .ok rhs) (n : String) (t : ℚ) (w : Mach) : Pays b (orderedOf b rhs) w (genRhs C n rule t w) := by
  unfold genRhs
  rw [hr]
  simp only [genM_bind_apply, genM_lift_ok, out_bind_ret]
  refine affords_bind (Q := fun _ _ _ => True) ?_ fun m w _ _ => ?_
  · unfold genUpdate
    simp only [genM_bind_apply, genM_get_apply, out_bind_ret]
    rcases hs : sortRhs rhs with e | l
    · exact ⟨persist_refl w, by omega⟩
    · simp only [genM_lift_ok, out_bind_ret]
      rw [← orderedOf_sort hs]
      refine affords_bind (affords_updateLoop C t l _ w) fun m left w _ => ?_
      refine ⟨?_, 0, ?_, trivial⟩
      · split
        · exact persist_same (harvest_rest (b := b) _ _ _).2
        · exact persist_refl _
      · split
        · rw [(harvest_rest (b := b) _ _ _).1]; omega
        · dsimp only; omega
  · refine ⟨?_, 0, ?_, trivial⟩
    · dsimp only
      split
      · split <;> exact persist_same rfl
      · exact persist_same rfl
    · dsimp only
      split
      · split <;> simp
      · simp

theorem persist_reward (C : Cfg) (n : String) (t : ℚ) (w : Mach) : Persist w (rewardStep C n t w) := stillThere_reward C n t w
theorem persist_compileIn (C : Cfg) (w : Mach) : Persist w (compileIn C w).1 := (own_compileIn C w).rules

theorem pays_procs : Pays b n w (GenM.yield .procs w) := ⟨persist_refl w, by omega⟩

/-- From the firing of the rule on. -/
theorem pays_fire (C : Cfg) {n : String} {rule : CRule} {t : ℚ} {w : Mach} (hr : ∃ r', alook n w.rules = some r' ∧ r'.body = rule.body) :
    Pays b 0 w ((genFire C n rule t >>= fun _ => GenM.yield .procs) w) := by
  have hacts : ∀ w' : Mach, (∃ r', alook n w'.rules = some r' ∧ r'.body = rule.body) → Pays b (requestsIn w'.rules b n) w' ((genRhs C n rule t >>= fun _ => GenM.yield .procs) w') := fun w' h => by
    obtain ⟨r', h1, h2⟩ := h
    refine affords_bind (Q := fun _ _ _ => True) ?_ fun m w _ _ => pays_procs
    rcases hrhs : rule.body.rhs with e | rhs
    · unfold genRhs
      rw [hrhs]
      exact ⟨persist_refl w', by omega⟩
    · have : requestsIn w'.rules b n = orderedOf b rhs := by
        unfold requestsIn
        rw [h1]
        dsimp only
        rw [h2, hrhs]
        rfl
      rw [this]
      exact pays_rhs C hrhs n t w'
  have hfire : ∀ w0 w' : Mach, Persist w0 w' → w'.procs = w0.procs → (∃ r', alook n w0.rules = some r' ∧ r'.body = rule.body) →
      Pays b 0 w0 (((GenM.set (fun w => { w with curSlots := w.noSlots }) >>= fun _ => GenM.event t procName (.fired n) >>= fun _ => genRhs C n rule t) >>= fun _ => GenM.yield .procs) w') :=
    fun w0 w' hp hq hr => affords_event (w := { w' with curSlots := w'.noSlots }) (persist_trans hp (persist_same rfl)) (by show worthAll b w'.procs ≤ _; rw [hq]) fun w'' hw'' => by
      refine ⟨requestsIn w''.rules b n, ?_, hacts w'' ?_⟩
      · rw [price_free rfl]
        show 0 + requestsIn w''.rules b n ≤ 0 + if procName = "PROCEDURAL" then requestsIn w''.rules b n else 0
        rw [if_pos (show procName = "PROCEDURAL" from rfl)]
      · obtain ⟨r1, g1, e1⟩ := hr
        obtain ⟨r2, g2, e2⟩ := hp n r1 g1
        obtain ⟨r3, g3, e3⟩ := hw'' n r2 g2
        exact ⟨r3, g3, e3.trans (e2.trans e1)⟩
  have r1 := persist_reward C n t w
  obtain ⟨_, r2⟩ := rewardStep_rest C n t w
  have c1 := persist_compileIn C (rewardStep C n t w)
  obtain ⟨_, c2, _⟩ := compileIn_rest C (rewardStep C n t w)
  unfold genFire
  simp only [genM_bind_apply, genM_set_apply, out_bind_ret]
  rcases hcomp : compileIn C (rewardStep C n t w) with ⟨w1, e | comp⟩
  · rw [hcomp] at c1 c2
    rw [genM_act_error hcomp]
    exact ⟨persist_trans r1 c1, by rw [c2, r2]; omega⟩
  · rw [hcomp] at c1 c2
    rw [genM_act_ok hcomp]
    have hp : Persist w { w1 with compile := Option.none } := persist_trans r1 (persist_trans c1 (persist_same rfl))
    have hq : w1.procs = w.procs := c2.trans r2
    rcases comp with _ | ⟨m, re⟩
    · exact hfire w { w1 with compile := Option.none } hp hq hr
    · refine affords_event (w := { w1 with compile := Option.none }) hp (by show worthAll b w1.procs ≤ _; rw [hq]) fun w' hw' => ⟨0, by rw [price_free rfl]; omega, hfire w' w' (persist_refl w') rfl ?_⟩
      obtain ⟨r1, g1, e1⟩ := hr
      obtain ⟨r2, g2, e2⟩ := persist_trans hp hw' n r1 g1
      exact ⟨r2, g2, e2.trans e1⟩

/-- The test of the rule. -/
theorem pays_test (C : Cfg) {n : String} {rule : CRule} {t : ℚ} {w : Mach} (hr : ∃ r', alook n w.rules = some r' ∧ r'.body = rule.body) :
    Pays b 0 w ((genTest C n rule t >>= fun _ => GenM.yield .procs) w) := by
  unfold genTest
  simp only [genM_bind_apply]
  rcases hl : rule.body.lhs with e | lhs
  · exact ⟨persist_refl w, by omega⟩
  · simp only [genM_lift_ok, out_bind_ret]
    rcases ht : lhsTest C.P.H w.faces lhs w.bv with e | m
    · rw [genM_bind_apply, genM_act_error (f := fun w : Mach => (w, lhsTest C.P.H w.faces lhs w.bv)) (w' := w) (e := e) (by rw [ht])]
      exact ⟨persist_refl w, by omega⟩
    · rw [genM_bind_apply, genM_act_ok (f := fun w : Mach => (w, lhsTest C.P.H w.faces lhs w.bv)) (w' := w) (a := m) (by rw [ht])]
      rcases m with _ | bv
      · exact affords_event (persist_refl w) le_rfl fun w' _ => ⟨0, by rw [price_free rfl]; omega, pays_procs⟩
      · exact affords_from (w := { w with bv := bv }) (m := 0) (persist_same rfl) le_rfl (pays_fire C hr)

/-- One cycle. -/
theorem pays_procedural (C : Cfg) (t : ℚ) (w : Mach) : Pays b 0 w (genProcedural C t w) := by
  refine affords_event (w := { w with procs := w.procs ++ [.procedural], bv := BV.init }) (persist_same rfl) (by simp [worthItem]) fun w1 _ => ⟨0, by rw [price_free rfl]; omega, ?_⟩
  have hq : (selectIn C w1).1.procs = w1.procs ∧ (selectIn C w1).1.rules = w1.rules ∧ ∀ n rule, (selectIn C w1).2 = .ok (some (n, rule)) → alook n w1.rules = some rule := by
    unfold selectIn
    dsimp only
    split
    · exact ⟨rfl, rfl, fun _ _ h => by cases h⟩
    · exact ⟨rfl, rfl, fun _ _ h => by cases h⟩
    · split
      · exact ⟨rfl, rfl, fun _ _ h => by cases h⟩
      · rename_i hr
        exact ⟨rfl, rfl, fun _ _ h => by cases h; exact hr⟩
  show Pays b 0 w1 ((GenM.act (selectIn C) >>= _) w1)
  rcases hs : selectIn C w1 with ⟨w2, e | sel⟩
  · rw [hs] at hq
    rw [genM_bind_apply, genM_act_error hs]
    exact ⟨persist_same hq.2.1, by rw [hq.1]; omega⟩
  · rw [hs] at hq
    rw [genM_bind_apply, genM_act_ok hs]
    obtain ⟨q1, q2, q3⟩ := hq
    rcases sel with _ | ⟨n, rule⟩
    · refine affords_event (w := { w2 with procs := removeProcedural w2.procs }) (persist_same q2) ?_ fun w' _ => ⟨0, by rw [price_free rfl]; omega, pays_procs⟩
      show worthAll b (removeProcedural w2.procs) ≤ _
      rw [worthAll_remove, q1]
    · have hr := q3 n rule rfl
      refine affords_event (w := { w2 with used := noteUse n t w2.used }) (persist_same q2) (by show worthAll b w2.procs ≤ _; rw [q1]) fun w3 h3 => ⟨0, by rw [price_free rfl]; omega, ?_⟩
      refine affords_event (persist_refl w3) le_rfl fun w4 h4 => ⟨0, by rw [price_free rfl]; omega, ?_⟩
      obtain ⟨r4, g4, e4⟩ := persist_trans h3 h4 n rule (by show alook n w2.rules = _; rw [q2]; exact hr)
      exact pays_test C ⟨r4, g4, e4⟩

end Verif
