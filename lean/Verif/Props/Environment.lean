import Verif.Spec.Environment
import Verif.Lemmas.Rounding
import Mathlib.Tactic.NormNum
import Mathlib.Tactic.Ring
/-! # C37, C38: the environment process -/
namespace Verif.Props
open Verif Verif.Spec

theorem normStims_shows (b : Bool) : ∀ (xs : List StimItem) (ss : List Screen), List.Forall₂ Shows xs ss →
    (b = true → ∀ x ∈ xs, ∃ s, x = .screen s) → normStims b xs = .ok ss
  | [], _, h, _ => by cases h; rfl
  | x :: xs, _, h, hb => by
    cases h with
    | @cons _ s _ ss h1 h2 =>
      have ih := normStims_shows b xs ss h2 (fun e y hy => hb e y (List.mem_cons_of_mem _ hy))
      cases h1 with
      | screen => simp [normStims, ih]
      | text =>
        have : b = false := by
          cases b with
          | false => rfl
          | true => obtain ⟨s, e⟩ := hb rfl _ (List.mem_cons_self ..); cases e
        subst this
        simp [normStims, ih, defaultScreen]

theorem stimArg_norm {a : StimArg} {xs : List StimItem} {ss : List Screen} (ha : StimArg.Lists a xs)
    (hs : List.Forall₂ Shows xs ss) : a.norm = .ok ss := by
  cases ha with
  | single => exact normStims_shows false _ _ hs (by simp)
  | list => exact normStims_shows false _ _ hs (by simp)
  | tuple h => exact normStims_shows true _ _ hs (fun _ => h)

theorem trigArg_norm {a : TrigArg} {xs : List TrigItem} (ha : TrigArg.Lists a xs) : a.norm = xs := by
  cases ha <;> rfl

theorem envTimes_norm {a : EnvTimes} {xs : List ℚ} (ha : EnvTimes.Lists a xs) : a.norm = xs := by
  cases ha <;> rfl

theorem normTriggers_keys (upper : String → String) : ∀ (xs : List TrigItem) (ts : List (List String)),
    List.Forall₂ (Keys upper) xs ts → normTriggers upper xs = .ok ts
  | [], _, h => by cases h; rfl
  | x :: xs, _, h => by
    cases h with
    | cons h1 h2 =>
      have ih := normTriggers_keys upper xs _ h2
      cases h1 with
      | space e => simp [normTriggers, normTrigger, ih, e]
      | chars e => simp [normTriggers, normTrigger, ih, e]
      | many => simp [normTriggers, normTrigger, ih]

theorem repeatList_single {α : Type} (a : α) (n : ℕ) : repeatList [a] n = List.replicate n a := by
  simp [repeatList]

theorem brought_replicate {α : Type} (a : α) (n : ℕ) : Brought n [a] (List.replicate n a) :=
  ⟨by simp, .inr ⟨a, rfl, fun b hb => List.eq_of_mem_replicate hb⟩⟩

theorem length_one {α : Type} {l : List α} (h : l.length = 1) : ∃ a, l = [a] := List.length_eq_one_iff.1 h

theorem brought_unique {α : Type} {n : ℕ} {l a b : List α} (ha : Brought n l a) (hb : Brought n l b) : a = b := by
  obtain ⟨ha1, ha2⟩ := ha
  obtain ⟨hb1, hb2⟩ := hb
  have key : ∀ c : List α, c.length = n → (c = l ∨ ∃ x, l = [x] ∧ ∀ y ∈ c, y = x) → (∃ x, l = [x]) → ∀ x, l = [x] → c = List.replicate n x := by
    intro c hc hc2 _ x hx
    rw [List.eq_replicate_iff]
    refine ⟨hc, ?_⟩
    rcases hc2 with rfl | ⟨x', e, h⟩
    · subst hx; simp
    · rw [hx] at e; cases e; exact h
  rcases ha2 with rfl | ⟨x, hx, h⟩
  · rcases hb2 with rfl | ⟨x, hx, h⟩
    · rfl
    · rw [key a ha1 (.inl rfl) ⟨x, hx⟩ x hx, key b hb1 (.inr ⟨x, hx, h⟩) ⟨x, hx⟩ x hx]
  · rw [key a ha1 (.inr ⟨x, hx, h⟩) ⟨x, hx⟩ x hx, key b hb1 hb2 ⟨x, hx⟩ x hx]

theorem forall2_brought {α β : Type} {R : α → β → Prop} {n : ℕ} {xs xs' : List α} {ys : List β} (h : List.Forall₂ R xs ys)
    (hb : Brought n xs xs') : ∃ ys', Brought n ys ys' ∧ List.Forall₂ R xs' ys' := by
  obtain ⟨hl, rfl | ⟨a, rfl, ha⟩⟩ := hb
  · exact ⟨ys, ⟨by rw [← h.length_eq]; exact hl, .inl rfl⟩, h⟩
  · cases h with
    | @cons _ b _ _ h1 h2 =>
      cases h2
      refine ⟨List.replicate n b, brought_replicate b n, ?_⟩
      have : xs' = List.replicate n a := List.eq_replicate_iff.2 ⟨hl, ha⟩
      subst this
      clear hl ha
      induction n with
      | zero => exact .nil
      | succ n ih => exact .cons h1 ih

/-- The lists of stimuli and triggers are brought to a common length if they have the same length or one of them has length 1. -/
theorem fitTriggers_ok (st : List Screen) (tr : List TrigItem) (n : ℕ) (hs : FitsTo n st) (ht : FitsTo n tr)
    (h1 : st.length = n ∨ tr.length = n) :
    ∃ st' tr', fitTriggers st tr = .ok (st', tr') ∧ Brought n st st' ∧ Brought n tr tr' := by
  unfold fitTriggers
  by_cases e : st.length = tr.length
  · rw [if_neg (by simpa using e)]
    have : st.length = n := by rcases h1 with h | h <;> omega
    exact ⟨st, tr, rfl, ⟨this, .inl rfl⟩, ⟨by omega, .inl rfl⟩⟩
  · rw [if_pos (by simpa using e)]
    by_cases e1 : st.length = 1
    · rw [if_pos e1]
      obtain ⟨a, rfl⟩ := length_one e1
      have hn : tr.length = n := by
        rcases h1 with h | h
        · rcases ht with h' | h'
          · exact h'
          · omega
        · exact h
      refine ⟨_, _, rfl, ?_, ⟨hn, .inl rfl⟩⟩
      rw [repeatList_single, hn]; exact brought_replicate a n
    · rw [if_neg e1]
      have hsn : st.length = n := by rcases hs with h | h <;> omega
      have e2 : tr.length = 1 := by rcases ht with h | h <;> omega
      rw [if_pos e2]
      obtain ⟨a, rfl⟩ := length_one e2
      refine ⟨_, _, rfl, ⟨hsn, .inl rfl⟩, ?_⟩
      rw [repeatList_single, hsn]; exact brought_replicate a n

theorem fitTimes_ok (st : List Screen) (ti : List ℚ) (n : ℕ) (hs : st.length = n) (h : FitsTo n ti) :
    ∃ ti', fitTimes st ti = .ok ti' ∧ Brought n ti ti' := by
  unfold fitTimes
  by_cases e : st.length = ti.length
  · rw [if_neg (by simpa using e)]; exact ⟨ti, rfl, by omega, .inl rfl⟩
  · rw [if_pos (by simpa using e)]
    have e2 : ti.length = 1 := by rcases h with h | h <;> omega
    rw [if_pos e2]
    obtain ⟨a, rfl⟩ := length_one e2
    refine ⟨_, rfl, ?_⟩
    rw [repeatList_single, hs]; exact brought_replicate a n

/-- What is assumed of the arguments: every element is a legal one; `ss` are the screens and `ks` the triggers they stand for. -/
structure EnvArgs (upper : String → String) (stimuli : StimArg) (triggers : TrigArg) (times : EnvTimes)
    (ss : List Screen) (ks : List (List String)) (ts : List ℚ) : Prop where
  stim : ∃ xs, StimArg.Lists stimuli xs ∧ List.Forall₂ Shows xs ss
  trig : ∃ xs, TrigArg.Lists triggers xs ∧ List.Forall₂ (Keys upper) xs ks
  time : EnvTimes.Lists times ts

theorem brought_back {α β : Type} {R : α → β → Prop} {n : ℕ} {xs xs' : List α} {ys : List β} (h : List.Forall₂ R xs ys)
    (hb : Brought n xs xs') : ∃ ys', Brought n ys ys' ∧ List.Forall₂ R xs' ys' := forall2_brought h hb

theorem prepareEnv_ok {upper : String → String} {stimuli : StimArg} {triggers : TrigArg} {times : EnvTimes}
    {ss : List Screen} {ks : List (List String)} {ts : List ℚ} (h : EnvArgs upper stimuli triggers times ss ks ts) (n : ℕ)
    (hs : FitsTo n ss) (hk : FitsTo n ks) (ht : FitsTo n ts) (h1 : ss.length = n ∨ ks.length = n) :
    ∃ st tr ti, prepareEnv upper stimuli triggers times = .ok (st, tr, ti) ∧ Brought n ss st ∧ Brought n ks tr ∧ Brought n ts ti := by
  obtain ⟨xs, hx, hxs⟩ := h.stim
  obtain ⟨zs, hz, hzs⟩ := h.trig
  have hl : zs.length = ks.length := hzs.length_eq
  obtain ⟨st, tr, e, bst, btr⟩ := fitTriggers_ok ss zs n hs (by unfold FitsTo; rw [hl]; exact hk) (by rw [hl]; exact h1)
  obtain ⟨ti, et, bti⟩ := fitTimes_ok st ts n bst.1 ht
  obtain ⟨tr', btr', htr'⟩ := brought_back hzs btr
  refine ⟨st, tr', ti, ?_, bst, btr', bti⟩
  unfold prepareEnv
  rw [stimArg_norm hx hxs, trigArg_norm hz, envTimes_norm h.time]
  simp only [e, et, normTriggers_keys upper _ _ htr']

/-- What the rest of the run looks like: `n` screens are left; the events are as they should be. -/
theorem envLoop_runs {W : Type} (upd : Env → W → W) (get : W → Env) (hg : ∀ e w, get (upd e w) = e)
    (Rel : W → W → Prop) (hR : ∀ w w', Rel w w' → (get w').times = (get w).times ∧ (get w').triggers = (get w).triggers) :
    ∀ (ss : List Screen) (i : ℕ) (time : ℚ) (w : W) (l : List (W × EnvEvent)) (e : GEnd W Unit),
    (get w).times.length = i + ss.length → (get w).triggers.length = i + ss.length →
    Runs Rel (envLoop upd get i time ss w) l e →
    (∀ (j : ℕ) x, l[j]? = some x → ∃ s t, ss[j]? = some s ∧ (get w).triggers[i + j]? = some t ∧
      (get x.1).stimulus = some s ∧ (get x.1).trigger = some t ∧
      x.2 = (round4 (time + (((get w).times.drop i).take (j + 1)).sum), .printed)) ∧
    (∀ w' er, e ≠ .raise w' er) ∧ (∀ w' r, e = .ret w' r → l.length = ss.length)
  | [], i, time, w, l, e, _, _, h => by
    simp only [envLoop] at h
    cases h
    exact ⟨by simp, by simp, by simp⟩
  | s :: ss, i, time, w, l, e, h1, h2, h => by
    simp only [List.length_cons] at h1 h2
    have hi : i < (get w).times.length := by omega
    have hi2 : i < (get w).triggers.length := by omega
    simp only [envLoop, List.getElem?_eq_getElem hi, List.getElem?_eq_getElem hi2] at h
    have hd : (get w).times.drop i = (get w).times[i] :: (get w).times.drop (i + 1) := List.drop_eq_getElem_cons hi
    cases h with
    | cut =>
      refine ⟨?_, by simp, by simp⟩
      intro j x hx
      cases j with
      | zero =>
        simp at hx
        subst hx
        refine ⟨s, _, rfl, List.getElem?_eq_getElem hi2, by simp [hg], by simp [hg], ?_⟩
        rw [hd]; simp only [Nat.zero_add, List.take_succ_cons, List.take_zero, List.sum_singleton]
      | succ j => simp at hx
    | @yield _ w' _ _ l' _ hr h' =>
      obtain ⟨a1, a2⟩ := hR _ _ hr
      simp only [hg] at a1 a2
      obtain ⟨b1, b2, b3⟩ := envLoop_runs upd get hg Rel hR ss (i + 1) _ w' l' e (by rw [a1]; omega) (by rw [a2]; omega) h'
      refine ⟨?_, b2, ?_⟩
      · intro j x hx
        cases j with
        | zero =>
          simp at hx
          subst hx
          refine ⟨s, _, rfl, List.getElem?_eq_getElem hi2, by simp [hg], by simp [hg], ?_⟩
          rw [hd]; simp only [Nat.zero_add, List.take_succ_cons, List.take_zero, List.sum_singleton]
        | succ j =>
          simp only [List.getElem?_cons_succ] at hx
          obtain ⟨s', t', c1, c2, c3, c4, c5⟩ := b1 j x hx
          rw [a2] at c2
          refine ⟨s', t', by simpa using c1, by rw [← c2]; congr 1; omega, c3, c4, ?_⟩
          rw [c5, a1, hd, List.take_succ_cons, List.sum_cons, add_assoc]
      · intro w'' r er
        simp [b3 w'' r er]

/-- What others may do while the environment process waits: they do not touch its lists. -/
def EnvOthers {W : Type} (get : W → Env) (w w' : W) : Prop :=
  (get w').times = (get w).times ∧ (get w').triggers = (get w).triggers

/-- What C37 says of a run: the environment starts at `start`; the `i`-th screen is shown with the `i`-th trigger from
`start + t₀ + … + tᵢ₋₁` until `start + t₀ + … + tᵢ`; the process never raises, and it ends only after the last screen. -/
structure ShowsAll {W : Type} (get : W → Env) (start : ℚ) (ss : List Screen) (ks : List (List String)) (ts : List ℚ)
    (l : List (W × EnvEvent)) (e : GEnd W Unit) : Prop where
  first : ∃ w r, l = (w, round4 start, .starting) :: r
  shown : ∀ i, i + 1 < l.length → ∃ s k, ss[i]? = some s ∧ ks[i]? = some k ∧
    ShownBetween get l i s k (round4 (start + (ts.take i).sum)) (round4 (start + (ts.take (i + 1)).sum))
  noRaise : ∀ w er, e ≠ .raise w er
  all : ∀ w r, e = .ret w r → l.length = ss.length + 1

/-- The whole of C37 (for the start see C38). -/
def C37_full : Prop := ∀ (W : Type) (upd : Env → W → W) (get : W → Env), (∀ e w, get (upd e w) = e) →
  ∀ (upper : String → String) (stimuli : StimArg) (triggers : TrigArg) (times : EnvTimes) (s0 : ℚ) (w : W)
    (ss : List Screen) (ks : List (List String)) (ts : List ℚ), EnvArgs upper stimuli triggers times ss ks ts →
  (∀ n, FitsTo n ss → FitsTo n ks → FitsTo n ts → (ss.length = n ∨ ks.length = n ∨ ts.length = n) →
    ∃ st tr ti, Brought n ss st ∧ Brought n ks tr ∧ Brought n ts ti ∧
    ∀ l e, Runs (EnvOthers get) (envProcess upd get upper stimuli triggers times s0 w) l e →
      ShowsAll get ((get w).initialTime - s0) st tr ti l e) ∧
  ((¬ ∃ n, FitsTo n ss ∧ FitsTo n ks ∧ FitsTo n ts) → envProcess upd get upper stimuli triggers times s0 w = .raise w .actr)

/-- C37, partial. Missing: times are not a model for the common length, that is, one stimulus with one trigger is not repeated for
several times; this is wrong (C37_refuted). -/
theorem C37_partial {W : Type} (upd : Env → W → W) (get : W → Env) (hg : ∀ e w, get (upd e w) = e)
    (upper : String → String) (stimuli : StimArg) (triggers : TrigArg) (times : EnvTimes) (s0 : ℚ) (w : W)
    (ss : List Screen) (ks : List (List String)) (ts : List ℚ) (h : EnvArgs upper stimuli triggers times ss ks ts) :
    (∀ n, FitsTo n ss → FitsTo n ks → FitsTo n ts → (ss.length = n ∨ ks.length = n) →
      ∃ st tr ti, Brought n ss st ∧ Brought n ks tr ∧ Brought n ts ti ∧
      ∀ l e, Runs (EnvOthers get) (envProcess upd get upper stimuli triggers times s0 w) l e →
        ShowsAll get ((get w).initialTime - s0) st tr ti l e) ∧
    ((¬ ∃ n, FitsTo n ss ∧ FitsTo n ks ∧ FitsTo n ts ∧ (ss.length = n ∨ ks.length = n)) →
      envProcess upd get upper stimuli triggers times s0 w = .raise w .actr) := by
  constructor
  · intro n hs hk ht h1
    obtain ⟨st, tr, ti, e0, bst, btr, bti⟩ := prepareEnv_ok h n hs hk ht h1
    refine ⟨st, tr, ti, bst, btr, bti, ?_⟩
    intro l e hrun
    unfold envProcess at hrun
    rw [e0] at hrun
    simp only at hrun
    cases hrun with
    | cut => exact ⟨⟨_, _, rfl⟩, by simp, by simp, by simp⟩
    | @yield _ w' _ _ l' _ hr h' =>
      have hr' : EnvOthers get _ w' := hr
      obtain ⟨a1, a2⟩ := hr'
      simp only [hg] at a1 a2
      obtain ⟨b1, b2, b3⟩ := envLoop_runs upd get hg (EnvOthers get) (fun _ _ h => h) st 0 _ w' l' e
        (by rw [a1, bti.1, bst.1]; omega) (by rw [a2, btr.1, bst.1]; omega) h'
      refine ⟨⟨_, _, rfl⟩, ?_, b2, fun w r er => by simp [b3 w r er]⟩
      intro i hi
      simp only [List.length_cons, Nat.add_lt_add_iff_right] at hi
      obtain ⟨s, t, c1, c2, c3, c4, c5⟩ := b1 i _ (List.getElem?_eq_getElem hi)
      rw [a2, Nat.zero_add] at c2
      refine ⟨s, t, c1, c2, ?_⟩
      cases i with
      | zero =>
        refine ⟨_, l'[0], rfl, by simp, by simp, ?_, c3, c4⟩
        rw [c5, a1]; simp
      | succ i =>
        have hi' : i < l'.length := by omega
        obtain ⟨_, _, _, _, _, _, d5⟩ := b1 i _ (List.getElem?_eq_getElem hi')
        refine ⟨l'[i], l'[i + 1], by simp [hi'], by simp [hi], ?_, ?_, c3, c4⟩
        · rw [d5, a1]; simp
        · rw [c5, a1]; simp
  · intro hno
    obtain ⟨xs, hx, hxs⟩ := h.stim
    obtain ⟨zs, hz, hzs⟩ := h.trig
    have hl : zs.length = ks.length := hzs.length_eq
    unfold envProcess prepareEnv
    rw [stimArg_norm hx hxs, trigArg_norm hz, envTimes_norm h.time]
    simp only
    by_cases hfit : (ss.length = ks.length ∨ ss.length = 1 ∨ ks.length = 1)
    · obtain ⟨n, hs, hk, hn⟩ : ∃ n, FitsTo n ss ∧ FitsTo n ks ∧ (ss.length = n ∨ ks.length = n) := by
        rcases hfit with h | h | h
        · exact ⟨ss.length, .inl rfl, .inl h.symm, .inl rfl⟩
        · exact ⟨ks.length, .inr h, .inl rfl, .inr rfl⟩
        · exact ⟨ss.length, .inl rfl, .inr h, .inl rfl⟩
      obtain ⟨st, tr, e0, bst, btr⟩ := fitTriggers_ok ss zs n hs (by unfold FitsTo; rw [hl]; exact hk) (by rw [hl]; exact hn)
      have ht : ¬ FitsTo n ts := fun ht => hno ⟨n, hs, hk, ht, hn⟩
      have : fitTimes st ts = .error .actr := by
        unfold fitTimes
        unfold FitsTo at ht
        push Not at ht
        rw [if_pos (by rw [bst.1]; exact fun e => ht.1 e.symm), if_neg ht.2]
      rw [e0]
      simp [this]
    · push Not at hfit
      have : fitTriggers ss zs = .error .actr := by
        unfold fitTriggers
        rw [hl, if_pos hfit.1, if_neg hfit.2.1, if_neg hfit.2.2]
      rw [this]

/-- C37 is wrong for several times with one stimulus and one trigger: an ACTRError instead of repeating the stimulus. -/
theorem C37_refuted : ¬ C37_full := by
  intro h
  have h1 := (h Env (fun e _ => e) id (fun _ _ => rfl) id (.single (.screen [])) (.single (.str "SPACE")) (.list [1, 1]) 0
    ⟨0, (0, 0), [], [], [], Option.none, Option.none⟩ [[]] [["SPACE"]] [1, 1]
    ⟨⟨_, .single, .cons .screen .nil⟩, ⟨_, .single, .cons (.space rfl) .nil⟩, .list⟩).1 2 (.inr rfl) (.inr rfl) (.inl rfl) (.inr (.inr rfl))
  obtain ⟨st, tr, ti, _, _, _, hr⟩ := h1
  have := (hr [] (.raise _ .actr) .raise).noRaise
  exact this _ _ rfl

/-- The default for the triggers (None) is always rejected. -/
theorem C37_default {W : Type} (upd : Env → W → W) (get : W → Env) (upper : String → String) (x : StimItem) (s : Screen) (t s0 : ℚ)
    (w : W) (h : Shows x s) : envProcess upd get upper (.single x) (.single .other) (.single t) s0 w = .raise w .actr := by
  have : StimArg.norm (.single x) = .ok [s] := stimArg_norm .single (.cons h .nil)
  simp [envProcess, prepareEnv, this, TrigArg.norm, EnvTimes.norm, fitTriggers, fitTimes, normTriggers, normTrigger]

example : EnvArgs id (.list [.text "a", .screen []]) (.single (.str "AB")) (.single 2)
    [defaultScreen "a", []] [["A", "B"]] [2] :=
  ⟨⟨_, .list, .cons .text (.cons .screen .nil)⟩, ⟨_, .single, .cons (.chars (by decide)) .nil⟩, .single⟩

/-- A run of the example: both screens, the second one from time 2 to time 4. -/
example : ∃ l e, Runs (EnvOthers (id : Env → Env)) (envProcess (fun e _ => e) id id (.list [.text "a", .screen []])
    (.single (.str "AB")) (.single 2) 0 ⟨0, (0, 0), [], [], [], Option.none, Option.none⟩) l e ∧ l.length = 3 :=
  ⟨_, _, .yield ⟨rfl, rfl⟩ (.yield ⟨rfl, rfl⟩ (.yield ⟨rfl, rfl⟩ .ret)), rfl⟩

/-- The whole of C38. -/
def C38_full : Prop := ∀ (W : Type) (upd : Env → W → W) (get : W → Env) (upper : String → String) (stimuli : StimArg)
  (triggers : TrigArg) (times : EnvTimes) (s0 : ℚ) (w w' : W) (t : ℚ) (a : EnvAct) (k : W → Out W EnvEvent Unit),
  envProcess upd get upper stimuli triggers times s0 w = .yield w' (t, a) k → t = round4 ((get w).initialTime + s0)

/-- C38, what the code does: the environment starts `start_time` seconds *before* the initial time, whatever the arguments. -/
theorem C38_mirrored {W : Type} (upd : Env → W → W) (get : W → Env) (upper : String → String) (stimuli : StimArg)
    (triggers : TrigArg) (times : EnvTimes) (s0 : ℚ) (w w' : W) (t : ℚ) (a : EnvAct) (k : W → Out W EnvEvent Unit)
    (h : envProcess upd get upper stimuli triggers times s0 w = .yield w' (t, a) k) :
    t = round4 ((get w).initialTime - s0) ∧ a = .starting := by
  unfold envProcess at h
  simp only at h
  split at h
  · cases h
  · cases h; exact ⟨rfl, rfl⟩

/-- C38, partial: it holds for the default start_time = 0, at every initial time. Missing: every other start time, for which it is
wrong (C38_refuted; C38_mirrored says what happens instead). -/
theorem C38_partial {W : Type} (upd : Env → W → W) (get : W → Env) (upper : String → String) (stimuli : StimArg)
    (triggers : TrigArg) (times : EnvTimes) (w w' : W) (t : ℚ) (a : EnvAct) (k : W → Out W EnvEvent Unit)
    (h : envProcess upd get upper stimuli triggers times 0 w = .yield w' (t, a) k) : t = round4 ((get w).initialTime + 0) := by
  have := (C38_mirrored upd get upper stimuli triggers times 0 w w' t a k h).1
  simpa using this

theorem C38_refuted : ¬ C38_full := by
  intro h
  have := h Env (fun e _ => e) id id (.single (.screen [])) (.single (.str "SPACE")) (.single 1) 1
    ⟨0, (0, 0), [], [], [], Option.none, Option.none⟩ _ _ _ _ rfl
  simp only [id] at this
  have e1 : round4 (0 - 1) = -1 := by have := round4_of_int (-10000); norm_num at this ⊢; exact this
  have e2 : round4 (0 + 1) = 1 := by have := round4_of_int 10000; norm_num at this ⊢; exact this
  rw [e1, e2] at this
  norm_num at this

end Verif.Props
