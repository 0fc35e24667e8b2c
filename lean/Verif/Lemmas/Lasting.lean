import Mathlib.Algebra.BigOperators.Group.Finset.Basic
import Mathlib.Order.Nat
import Verif.Lemmas.Brief
import Verif.Lemmas.React
/-! # What is left to be done: how long processes can go on -/
namespace Verif
open Verif.Spec

/-! ## Weights -/

/-- The number of events a generator has left. -/
noncomputable def lives (k : Mach → Out Mach YV Unit) : ℕ := sInf {n | ∀ w, Brief n (k w)}

theorem lives_le {k : Mach → Out Mach YV Unit} {n : ℕ} (h : ∀ w, Brief n (k w)) : lives k ≤ n := Nat.sInf_le h
theorem brief_lives {k : Mach → Out Mach YV Unit} {n : ℕ} (h : ∀ w, Brief n (k w)) (w : Mach) : Brief (lives k) (k w) := Nat.sInf_mem (s := {n | ∀ w, Brief n (k w)}) ⟨n, h⟩ w

/-- The same for the environment. -/
noncomputable def envLives (k : Mach → Out Mach EnvEvent Unit) : ℕ := sInf {n | ∀ w, EnvBrief n (k w)}

theorem envLives_le {k : Mach → Out Mach EnvEvent Unit} {n : ℕ} (h : ∀ w, EnvBrief n (k w)) : envLives k ≤ n := Nat.sInf_le h
theorem brief_envLives {k : Mach → Out Mach EnvEvent Unit} {n : ℕ} (h : ∀ w, EnvBrief n (k w)) (w : Mach) : EnvBrief (envLives k) (k w) :=
  Nat.sInf_mem (s := {n | ∀ w, EnvBrief n (k w)}) ⟨n, h⟩ w

/-- The steps of a cycle of the rules. -/
inductive Step where
  | conf
  | none
  | sel
  | late

/-- Which step is announced. -/
def Act.step : Act → Step
  | .conflict => .conf
  | .noRule => .none
  | .selected _ => .sel
  | _ => .late

/-- What the process can cause before it has to be paid for again. -/
noncomputable def wt : Pt → ℕ
  | .procNew => 17
  | .procFirst => 11
  | .procSpin n => n + 6
  | .extraMain _ _ => 578
  | .localNew name g => if name = procName then 4 else 14 * lives g + 15
  | .localWait name e k => if name = procName then (match e.act.step with | .conf => 3 | .none => 1 | _ => 0) else 14 * lives k + 14
  | .envProcNew _ => 13
  | .envProc _ => 12
  | _ => 0

/-- With the end of the process. -/
noncomputable def pw (pt : Pt) : ℕ := 1 + wt pt

/-- What a rule that fires has left to do. -/
noncomputable def lateW : Pt → ℕ
  | .localWait name e k => if name = procName then (match e.act.step with | .late => lives k + 1 | _ => 0) else 0
  | _ => 0

/-- A cycle that has not come so far. -/
def pendW : Pt → ℕ
  | .localWait name e _ => if name = procName then (match e.act.step with | .conf => 1 | .sel => 1 | _ => 0) else 0
  | _ => 0

/-- What the environment has left to do. -/
noncomputable def envW (N : ℕ) : Pt → ℕ
  | .envNew => N + 2
  | .envWait _ k => envLives k + 1
  | _ => 0

/-- A place of a process that belongs neither to the rules nor to the environment. -/
def Light (pt : Pt) : Prop := lateW pt = 0 ∧ pendW pt = 0 ∧ ∀ N, envW N pt = 0

/-- The sum of the weights of all processes. -/
def tot (f : Pt → ℕ) (s : Sim) : ℕ := ∑ i ∈ Finset.range s.next, ((s.points i).map f).getD 0

/-- Callbacks of conditions. -/
def Callback.isCheck : Callback → Bool
  | .check _ => true
  | _ => false

/-- What conditions can cause. -/
def totE (s : Sim) : ℕ := ∑ i ∈ Finset.range s.next, 12 * ((s.events i).callbacks.getD []).countP Callback.isCheck

/-- Whether it is a generator of a module. -/
def PItem.isGen : PItem → Bool
  | .gen .. => true
  | .procedural => false

/-- The processes that were asked for. -/
def debt (s : Sim) : ℕ := s.w.procs.countP PItem.isGen + (s.started.getD []).countP PItem.isGen

/-- How often the word PROCEDURAL is in the list. -/
def pcount (w : Mach) : ℕ := w.procs.countP (fun x => !x.isGen)

/-- Process number 2 will be woken. -/
def due (E : SEv) : ℕ := if E.value.isSome ∧ E.callbacks.isSome then 11 else 0

/-- How long the simulation can go on without a rule or the environment. -/
noncomputable def fuel (s : Sim) : ℕ := s.queue.length + tot pw s + totE s + 1167 * debt s + due (s.events s.procActivate)

/-! ## What is known of processes -/

/-- Actions of a rule. -/
def Late (n : ℕ) (k : Mach → Out Mach YV Unit) : Prop :=
  (∀ w, Brief n (k w)) ∧ (∀ w, (k w).Moves (fun w w' => pcount w' = pcount w) w) ∧ ∀ w, (k w).Yields (fun y => ∀ e, y = .ev e → e.act.step = .late)

/-- At the end of a cycle. -/
def Closing (k : Mach → Out Mach YV Unit) : Prop := ∀ w, ∃ k', k w = .yield w .procs k'

/-- After the conflict resolution: no rule, or a rule was found. -/
def Forked (w : Mach) : Out Mach YV Unit → Prop
  | .yield w' (.ev e) k => e.proc = procName ∧ w'.procs.countP PItem.isGen = w.procs.countP PItem.isGen ∧
    ((e.act.step = .none ∧ pcount w' = pcount w - 1 ∧ Closing k) ∨ (e.act.step = .sel ∧ pcount w' = pcount w ∧ ∃ n, Late n k))
  | .raise w' _ => w'.procs = w.procs
  | _ => False

/-- A cycle of the rules. -/
def RuleWait (e : Ev) (k : Mach → Out Mach YV Unit) : Prop :=
  match e.act.step with
  | .conf => e.proc = procName ∧ ∀ w, Forked w (k w)
  | .none => e.proc = procName ∧ Closing k
  | _ => ∃ n, Late n k

/-- A place where processes wait. -/
def Sound (C : Cfg) : Pt → Prop
  | .extraNew name | .extraIdle name | .extraMain name _ | .extraCont name => name ≠ procName
  | .localNew name g => (name = procName → ∃ t, g = genProcedural C t) ∧ (name ≠ procName → (∃ n, ∀ w, Brief n (g w)) ∧ ∀ w, (g w).Moves Leaves w)
  | .localWait name e k => (name = procName → RuleWait e k) ∧ (name ≠ procName → (∃ n, ∀ w, Brief n (k w)) ∧ ∀ w, (k w).Moves Leaves w)
  | .envWait _ k => (∃ n, ∀ w, EnvBrief n (k w)) ∧ ∀ w, (k w).Moves Leaves w
  | _ => True

/-- The invariant. -/
structure Sane (C : Cfg) (s : Sim) : Prop where
  blank : ∀ i, s.next ≤ i → s.points i = Option.none
  proc : s.procActivate < s.next
  env : s.envActivate < s.next
  ne : s.envActivate ≠ s.procActivate
  free : s.points s.procActivate = Option.none
  sound : ∀ i pt, s.points i = some pt → Sound C pt

/-- What is reported is reported now. -/
def Notes (s s' : Sim) : Prop := s'.now = s.now ∧ ∃ l, s'.trace = s.trace ++ l ∧ ∀ x ∈ l, x.1 = s.now

theorem says_same {s s' : Sim} (hn : s'.now = s.now) (ht : s'.trace = s.trace) : Notes s s' := ⟨hn, [], by rw [ht, List.append_nil], fun _ h => by cases h⟩
theorem says_trans {a b c : Sim} (h1 : Notes a b) (h2 : Notes b c) : Notes a c := by
  obtain ⟨n1, l1, t1, e1⟩ := h1
  obtain ⟨n2, l2, t2, e2⟩ := h2
  refine ⟨n2.trans n1, l1 ++ l2, by rw [t2, t1, List.append_assoc], fun x hx => ?_⟩
  rcases List.mem_append.1 hx with hx | hx
  · exact e1 x hx
  · exact (e2 x hx).trans n1

/-- What processes do not change, except for themselves. -/
structure Level0 (N : ℕ) (s s' : Sim) : Prop where
  next : s.next ≤ s'.next
  old : ∀ p < s.next, s'.points p = s.points p
  late : tot lateW s' = tot lateW s
  pend : tot pendW s' = tot pendW s
  env : tot (envW N) s' = tot (envW N) s
  args : s'.envArgs = s.envArgs
  trace : Notes s s'

/-- What processes other than those of the rules do not change either. -/
structure Level (N : ℕ) (s s' : Sim) : Prop extends Level0 N s s' where
  act : s'.procActivate = s.procActivate
  pc : pcount s'.w = pcount s.w

variable {C : Cfg} {N n m p : ℕ} {s s' : Sim} {A B : Type}

theorem level0_refl (s : Sim) : Level0 N s s := ⟨le_rfl, fun _ _ => rfl, rfl, rfl, rfl, rfl, says_same rfl rfl⟩
theorem level_refl (s : Sim) : Level N s s := ⟨level0_refl s, rfl, rfl⟩
theorem level0_trans {a b c : Sim} (h1 : Level0 N a b) (h2 : Level0 N b c) : Level0 N a c :=
  ⟨h1.next.trans h2.next, fun p hp => (h2.old p (hp.trans_le h1.next)).trans (h1.old p hp), h2.late.trans h1.late, h2.pend.trans h1.pend, h2.env.trans h1.env, h2.args.trans h1.args, says_trans h1.trace h2.trace⟩
theorem level_trans {a b c : Sim} (h1 : Level N a b) (h2 : Level N b c) : Level N a c := ⟨level0_trans h1.1 h2.1, h2.act.trans h1.act, h2.pc.trans h1.pc⟩

/-! ## Sums -/

theorem sum_fset {A : Type} (g : A → ℕ) (h : ℕ → A) {i n : ℕ} (hi : i < n) (a : A) :
    ∑ j ∈ Finset.range n, g (fset h i a j) + g (h i) = ∑ j ∈ Finset.range n, g (h j) + g a := by
  have hm := Finset.mem_range.2 hi
  rw [← Finset.add_sum_erase _ (fun j => g (fset h i a j)) hm, ← Finset.add_sum_erase _ (fun j => g (h j)) hm, fset_same]
  have : ∑ j ∈ (Finset.range n).erase i, g (fset h i a j) = ∑ j ∈ (Finset.range n).erase i, g (h j) :=
    Finset.sum_congr rfl fun j hj => by rw [fset_other _ _ (Finset.ne_of_mem_erase hj)]
  omega

theorem sum_fset_out {A : Type} (g : A → ℕ) (h : ℕ → A) {i n : ℕ} (hi : n ≤ i) (a : A) :
    ∑ j ∈ Finset.range n, g (fset h i a j) = ∑ j ∈ Finset.range n, g (h j) :=
  Finset.sum_congr rfl fun j hj => by rw [fset_other _ _ (by have := Finset.mem_range.1 hj; omega)]

/-- The place of one process changes. -/
theorem tot_points {f : Pt → ℕ} {o : Option Pt} (hp : p < s.next) (h : s'.points = fset s.points p o) (hn : s'.next = s.next) :
    tot f s' + ((s.points p).map f).getD 0 = tot f s + (o.map f).getD 0 := by
  unfold tot
  rw [h, hn]
  exact sum_fset (fun x : Option Pt => (x.map f).getD 0) s.points hp o

theorem tot_same {f : Pt → ℕ} (h : s'.points = s.points) (hn : s'.next = s.next) : tot f s' = tot f s := by unfold tot; rw [h, hn]

theorem tot_alloc {f : Pt → ℕ} (h : s.points s.next = Option.none) (E : SEv) : tot f (s.alloc E) = tot f s := by
  unfold tot
  show ∑ i ∈ Finset.range (s.next + 1), ((s.points i).map f).getD 0 = _
  rw [Finset.sum_range_succ, h]; rfl

theorem totE_alloc (s : Sim) (E : SEv) : totE (s.alloc E) = totE s + 12 * (E.callbacks.getD []).countP Callback.isCheck := by
  unfold totE
  show ∑ i ∈ Finset.range (s.next + 1), 12 * ((fset s.events s.next E i).callbacks.getD []).countP Callback.isCheck = _
  rw [Finset.sum_range_succ, fset_same, sum_fset_out (fun E : SEv => 12 * (E.callbacks.getD []).countP Callback.isCheck) s.events le_rfl E]

theorem totE_events {E : SEv} {ev : ℕ} (hev : ev < s.next) (h : s'.events = fset s.events ev E) (hn : s'.next = s.next) :
    totE s' + 12 * ((s.events ev).callbacks.getD []).countP Callback.isCheck = totE s + 12 * (E.callbacks.getD []).countP Callback.isCheck := by
  unfold totE
  rw [h, hn]
  exact sum_fset (fun E : SEv => 12 * (E.callbacks.getD []).countP Callback.isCheck) s.events hev E

theorem totE_out {E : SEv} {ev : ℕ} (hev : s.next ≤ ev) (h : s'.events = fset s.events ev E) (hn : s'.next = s.next) : totE s' = totE s := by
  unfold totE
  rw [h, hn]
  exact sum_fset_out (fun E : SEv => 12 * (E.callbacks.getD []).countP Callback.isCheck) s.events hev E

theorem length_insertEntry (e : Entry) : ∀ l, (insertEntry e l).length = l.length + 1
  | [] => rfl
  | x :: r => by
    unfold insertEntry
    split
    · rw [List.length_cons, length_insertEntry e r, List.length_cons]
    · rfl

/-! ## Code -/

/-- Processes are as before, and it costs at most `n`. -/
def Outlay (C : Cfg) (N : ℕ) (s : Sim) (n : ℕ) (s' : Sim) : Prop := Sane C s' ∧ Level N s s' ∧ fuel s' ≤ fuel s + n

theorem outlay_refl (h : Sane C s) : Outlay C N s 0 s := ⟨h, level_refl s, le_rfl⟩
theorem outlay_trans {s1 s2 : Sim} (h1 : Outlay C N s n s1) (h2 : Outlay C N s1 m s2) : Outlay C N s (n + m) s2 :=
  ⟨h2.1, level_trans h1.2.1 h2.2.1, by have := h1.2.2; have := h2.2.2; omega⟩
theorem outlay_le {s1 : Sim} (h : Outlay C N s n s1) (hl : n ≤ m) : Outlay C N s m s1 := ⟨h.1, h.2.1, h.2.2.trans (by omega)⟩

/-- Code that costs at most `n`. -/
def Charges (C : Cfg) (N n : ℕ) (m : SimM A) : Prop := ∀ s, Sane C s → Outlay C N s n (m s).1

/-- What the next place costs. -/
noncomputable def toll : Except PyErr Res → ℕ
  | .ok (.wait _ pt) => wt pt
  | _ => 0

/-- Code of a process that costs at most `n`, with the place where it waits next. -/
def OntoAt (C : Cfg) (N n : ℕ) (m : SimM Res) (s : Sim) : Prop :=
  Sane C (m s).1 ∧ Level N s (m s).1 ∧ fuel (m s).1 + toll (m s).2 ≤ fuel s + n ∧ ∀ ev pt, (m s).2 = .ok (.wait ev pt) → Sound C pt ∧ Light pt
def Onto (C : Cfg) (N n : ℕ) (m : SimM Res) : Prop := ∀ s, Sane C s → OntoAt C N n m s

theorem charges_le {f : SimM A} (h : Charges C N n f) (hl : n ≤ m) : Charges C N m f := fun s hs => outlay_le (h s hs) hl

theorem charges_bind {f : SimM A} {g : A → SimM B} (hf : Charges C N n f) (hg : ∀ a, Charges C N m (g a)) : Charges C N (n + m) (f >>= g) := by
  intro s hs
  show Outlay C N s (n + m) (SimM.bind f g s).1
  unfold SimM.bind
  have h1 := hf s hs
  rcases h : f s with ⟨s1, e | a⟩
  · rw [h] at h1; exact outlay_le h1 (by omega)
  · rw [h] at h1; exact outlay_trans h1 (hg a s1 h1.1)

theorem ontoAt_le {f : SimM Res} (h : OntoAt C N n f s) (hl : n ≤ m) : OntoAt C N m f s := ⟨h.1, h.2.1, h.2.2.1.trans (by omega), h.2.2.2⟩

theorem ontoAt_error {f : SimM Res} {s1 : Sim} {e : PyErr} (h : f s = (s1, .error e)) (ho : Outlay C N s n s1) : OntoAt C N n f s := by
  unfold OntoAt
  rw [h]
  exact ⟨ho.1, ho.2.1, ho.2.2, fun _ _ he => by cases he⟩

theorem ontoAt_trans {f g : SimM Res} {s1 : Sim} (h1 : Outlay C N s n s1) (hg : OntoAt C N m g s1) (h : f s = g s1) : OntoAt C N (n + m) f s := by
  unfold OntoAt
  rw [h]
  exact ⟨hg.1, level_trans h1.2.1 hg.2.1, by have := h1.2.2; have := hg.2.2.1; omega, hg.2.2.2⟩

theorem ontoAt_bind {f : SimM A} {g : A → SimM Res} (hf : Outlay C N s n (f s).1) (hg : ∀ a s1, f s = (s1, .ok a) → Sane C s1 → OntoAt C N m (g a) s1) : OntoAt C N (n + m) (f >>= g) s := by
  rcases h : f s with ⟨s1, e | a⟩
  · rw [h] at hf
    refine ontoAt_error (s1 := s1) (e := e) ?_ (outlay_le hf (by omega))
    show SimM.bind f g s = _
    unfold SimM.bind; rw [h]
  · rw [h] at hf
    refine ontoAt_trans hf (hg a s1 h hf.1) ?_
    show SimM.bind f g s = _
    unfold SimM.bind; rw [h]

theorem onto_bind {f : SimM A} {g : A → SimM Res} (hf : Charges C N n f) (hg : ∀ a, Onto C N m (g a)) : Onto C N (n + m) (f >>= g) := fun s hs =>
  ontoAt_bind (hf s hs) fun a s1 _ h1 => hg a s1 h1

theorem charges_pure {a : A} : Charges C N 0 (pure a) := fun _ h => outlay_refl h
theorem charges_get {f : Sim → A} : Charges C N 0 (SimM.get f) := fun _ h => outlay_refl h
theorem charges_throw {e : PyErr} : Charges C N 0 (SimM.throw e : SimM A) := fun _ h => outlay_refl h
theorem onto_wait {ev : ℕ} {pt : Pt} (h : Sound C pt) (hl : Light pt) : Onto C N (wt pt) (pure (.wait ev pt)) := fun s hs =>
  ⟨hs, level_refl s, le_rfl, fun _ _ he => by cases he; exact ⟨h, hl⟩⟩
theorem onto_done {v : SVal} : Onto C N 0 (pure (.done v)) := fun s hs => ⟨hs, level_refl s, le_rfl, fun _ _ he => by cases he⟩
theorem onto_throw {e : PyErr} : Onto C N 0 (SimM.throw e) := fun s hs => ⟨hs, level_refl s, le_rfl, fun _ _ he => by cases he⟩
theorem onto_le {f : SimM Res} (h : Onto C N n f) (hl : n ≤ m) : Onto C N m f := fun s hs => ontoAt_le (h s hs) hl

/-- What matters here. -/
structure SameBut (s s' : Sim) : Prop where
  queue : s'.queue = s.queue
  next : s'.next = s.next
  points : s'.points = s.points
  events : s'.events = s.events
  proc : s'.procActivate = s.procActivate
  args : s'.envArgs = s.envArgs
  trace : Notes s s'

theorem outlay_sameBut (h : Sane C s) (ha : SameBut s s') (he : s'.envActivate = s.envActivate) (hc : pcount s'.w = pcount s.w) (hd : 1167 * debt s' ≤ 1167 * debt s + n) : Outlay C N s n s' := by
  refine ⟨⟨fun i hi => by rw [ha.points]; exact h.blank i (ha.next ▸ hi), by rw [ha.proc, ha.next]; exact h.proc, by rw [he, ha.next]; exact h.env, by rw [he, ha.proc]; exact h.ne, by rw [ha.proc, ha.points]; exact h.free,
    fun i pt hp => h.sound i pt (ha.points ▸ hp)⟩, ⟨⟨ha.next.ge, fun p _ => by rw [ha.points], tot_same ha.points ha.next, tot_same ha.points ha.next, tot_same ha.points ha.next, ha.args, ha.trace⟩, ha.proc, hc⟩, ?_⟩
  have : totE s' = totE s := by unfold totE; rw [ha.events, ha.next]
  unfold fuel
  rw [ha.queue, tot_same ha.points ha.next, this, ha.events, ha.proc]
  omega

theorem charges_set {f : Sim → Sim} (h : ∀ s : Sim, SameBut s (f s) ∧ (f s).envActivate = s.envActivate ∧ (f s).w.procs = s.w.procs ∧ (f s).started = s.started) : Charges C N 0 (SimM.set f) := fun s hs => by
  obtain ⟨h1, h2, h3, h4⟩ := h s
  refine outlay_sameBut hs h1 h2 ?_ ?_
  · show pcount (f s).w = _; unfold pcount; rw [h3]
  · show 1167 * debt (f s) ≤ _; unfold debt; rw [h3, h4]; omega

/-- A new event. -/
theorem outlay_alloc (h : Sane C s) {E : SEv} (hE : (E.callbacks.getD []).countP Callback.isCheck = 0) : Outlay C N s 0 (s.alloc E) := by
  have hb := h.blank s.next le_rfl
  refine ⟨⟨fun i hi => h.blank i (Nat.le_of_succ_le hi), Nat.lt_succ_of_lt h.proc, Nat.lt_succ_of_lt h.env, h.ne, h.free, h.sound⟩,
    ⟨⟨Nat.le_succ _, fun _ _ => rfl, tot_alloc hb E, tot_alloc hb E, tot_alloc hb E, rfl, says_same rfl rfl⟩, rfl, rfl⟩, ?_⟩
  unfold fuel
  rw [tot_alloc hb E, totE_alloc, hE]
  have : (s.alloc E).events (s.alloc E).procActivate = s.events s.procActivate := events_alloc_old (Nat.ne_of_lt h.proc)
  rw [this]
  exact le_rfl

theorem outlay_schedule (h : Sane C s) (ev : ℕ) (u : Bool) (d : ℚ) : Outlay C N s 1 (s.schedule ev u d) := by
  refine ⟨⟨h.blank, h.proc, h.env, h.ne, h.free, h.sound⟩, ⟨⟨le_rfl, fun _ _ => rfl, rfl, rfl, rfl, rfl, says_same rfl rfl⟩, rfl, rfl⟩, ?_⟩
  have h1 : (s.schedule ev u d).queue.length = s.queue.length + 1 := length_insertEntry _ _
  have h2 : tot pw (s.schedule ev u d) = tot pw s := rfl
  have h3 : totE (s.schedule ev u d) = totE s := rfl
  have h4 : debt (s.schedule ev u d) = debt s := rfl
  have h5 : due ((s.schedule ev u d).events (s.schedule ev u d).procActivate) = due (s.events s.procActivate) := rfl
  unfold fuel
  omega

/-- Callbacks or the value of an event change. -/
theorem outlay_events (h : Sane C s) {E : SEv} {ev : ℕ} (hc : (E.callbacks.getD []).countP Callback.isCheck ≤ ((s.events ev).callbacks.getD []).countP Callback.isCheck)
    (hv : ev = s.procActivate → due E ≤ due (s.events ev) + n) : Outlay C N s n { s with events := fset s.events ev E } := by
  refine ⟨⟨h.blank, h.proc, h.env, h.ne, h.free, h.sound⟩, ⟨⟨le_rfl, fun _ _ => rfl, rfl, rfl, rfl, rfl, says_same rfl rfl⟩, rfl, rfl⟩, ?_⟩
  set s1 : Sim := { s with events := fset s.events ev E } with hs1
  have h1 : totE s1 ≤ totE s := by
    by_cases hlt : ev < s.next
    · have := totE_events (s := s) (s' := s1) (E := E) hlt rfl rfl
      omega
    · exact (totE_out (s := s) (s' := s1) (E := E) (not_lt.1 hlt) rfl rfl).le
  have h2 : due (s1.events s1.procActivate) ≤ due (s.events s.procActivate) + n := by
    show due (fset s.events ev E s.procActivate) ≤ _
    by_cases he : ev = s.procActivate
    · have := hv he
      subst he; rw [fset_same]; exact this
    · rw [fset_other _ _ (Ne.symm he)]; omega
  have h3 : tot pw s1 = tot pw s := rfl
  have h4 : debt s1 = debt s := rfl
  have h5 : s1.queue.length = s.queue.length := rfl
  unfold fuel
  omega

theorem due_le (E : SEv) : due E ≤ 11 := by unfold due; split <;> omega

/-- Triggering an event. -/
theorem outlay_trigger (h : Sane C s) (ev : ℕ) (v : Except PyErr SVal) : Outlay C N s 12 (s.trigger ev v) :=
  have h1 : Outlay C N s 11 { s with events := fset s.events ev { s.events ev with value := some v } } := outlay_events h le_rfl fun _ => (due_le _).trans (by omega)
  outlay_trans h1 (outlay_schedule h1.1 ev false 0)

/-- An event other than the one that wakes process number 2. -/
theorem outlay_trigger' (h : Sane C s) {ev : ℕ} (hev : ev ≠ s.procActivate) (v : Except PyErr SVal) : Outlay C N s 1 (s.trigger ev v) :=
  have h1 : Outlay C N s 0 { s with events := fset s.events ev { s.events ev with value := some v } } := outlay_events h le_rfl fun he => absurd he hev
  outlay_le (outlay_trans h1 (outlay_schedule h1.1 ev false 0)) (by omega)

theorem charges_newEvent : Charges C N 0 newEvent := fun _ hs => outlay_alloc hs rfl

theorem charges_succeed {ev : ℕ} : Charges C N 12 (succeed ev) := fun s hs => by
  unfold succeed
  split
  · exact outlay_le (outlay_refl hs) (by omega)
  · exact outlay_trigger hs ev _

theorem outlay_succeed (h : Sane C s) {ev : ℕ} (hev : ev ≠ s.procActivate) : Outlay C N s 1 (succeed ev s).1 := by
  unfold succeed
  split
  · exact outlay_le (outlay_refl h) (by omega)
  · exact outlay_trigger' h hev _

theorem charges_timeout {d : ℚ} : Charges C N 1 (timeout d) := fun s hs => by
  unfold timeout
  split
  · exact outlay_le (outlay_refl hs) (by omega)
  · have h1 : Outlay C N s 0 (s.alloc ⟨some (.ok .nothing), false, some []⟩) := outlay_alloc hs rfl
    exact outlay_le (outlay_trans h1 (outlay_schedule h1.1 _ _ _)) (by omega)

theorem charges_interrupt {q : ℕ} : Charges C N 1 (interruptProcess q) := fun s hs => by
  unfold interruptProcess
  split
  · exact outlay_le (outlay_refl hs) (by omega)
  · have h1 : Outlay C N s 0 (s.alloc ⟨some (.error .interrupt), true, some [.interrupt q]⟩) := outlay_alloc hs rfl
    exact outlay_le (outlay_trans h1 (outlay_schedule h1.1 _ _ _)) (by omega)

/-- A new process. -/
theorem sane_process {pt : Pt} (hs : Sound C pt) (h : Sane C s) : Sane C (process pt s).1 := by
  unfold process
  dsimp only
  have h1 : Outlay C 0 s 0 (s.alloc ⟨Option.none, false, some []⟩) := outlay_alloc h rfl
  set s1 := s.alloc ⟨Option.none, false, some []⟩ with hs1
  have h2 : Outlay C 0 s1 0 (s1.alloc ⟨some (.ok .nothing), false, some [.resume s.next]⟩) := outlay_alloc h1.1 rfl
  have h3 := outlay_trans (outlay_trans h1 h2) (outlay_schedule h2.1 s1.next true 0)
  set s2 := (s1.alloc ⟨some (.ok .nothing), false, some [.resume s.next]⟩).schedule s1.next true 0 with hs2
  have hne : s.procActivate ≠ s.next := Nat.ne_of_lt h.proc
  obtain ⟨g1, -, -⟩ := h3
  refine ⟨fun i hi => ?_, g1.proc, g1.env, g1.ne, ?_, fun i q hi => ?_⟩
  · have : s.next + 2 ≤ i := hi
    show fset s2.points s.next (some pt) i = _
    rw [fset_other _ _ (by omega)]; exact g1.blank i hi
  · show fset s2.points s.next (some pt) s.procActivate = _
    rw [fset_other _ _ hne]; exact g1.free
  · by_cases hi' : i = s.next
    · subst hi'
      have : fset s2.points s.next (some pt) s.next = some q := hi
      rw [fset_same] at this; cases this; exact hs
    · have : fset s2.points s.next (some pt) i = some q := hi
      rw [fset_other _ _ hi'] at this
      exact g1.sound i q this

theorem charges_process {pt : Pt} (hs : Sound C pt) (hl : lateW pt = 0) (hp : pendW pt = 0) (he : envW N pt = 0) : Charges C N (2 + wt pt) (process pt) := fun s h => by
  have hsane := sane_process hs h
  unfold process at hsane ⊢
  dsimp only at hsane ⊢
  have h1 : Outlay C N s 0 (s.alloc ⟨Option.none, false, some []⟩) := outlay_alloc h rfl
  set s1 := s.alloc ⟨Option.none, false, some []⟩ with hs1
  have h2 : Outlay C N s1 0 (s1.alloc ⟨some (.ok .nothing), false, some [.resume s.next]⟩) := outlay_alloc h1.1 rfl
  have h3 := outlay_trans (outlay_trans h1 h2) (outlay_schedule h2.1 s1.next true 0)
  set s2 := (s1.alloc ⟨some (.ok .nothing), false, some [.resume s.next]⟩).schedule s1.next true 0 with hs2
  set s3 : Sim := { s2 with points := fset s2.points s.next (some pt), target := fset s2.target s.next s1.next } with hs3
  have hn : s2.next = s.next + 2 := rfl
  have hnone : s2.points s.next = Option.none := h.blank _ le_rfl
  have ht : ∀ f : Pt → ℕ, tot f s3 = tot f s2 + f pt := fun f => by
    have := tot_points (f := f) (s := s2) (s' := s3) (p := s.next) (o := some pt) (by omega) rfl rfl
    rw [hnone] at this
    simpa using this
  obtain ⟨g1, g2, g3⟩ := h3
  refine ⟨hsane, ⟨⟨g2.next, fun q hq => ?_, ?_, ?_, ?_, g2.args, g2.trace⟩, g2.act, g2.pc⟩, ?_⟩
  · show fset s2.points s.next (some pt) q = _
    rw [fset_other _ _ (by omega)]; rfl
  · rw [ht, hl]; exact g2.late
  · rw [ht, hp]; exact g2.pend
  · rw [ht, he]; exact g2.env
  · have e1 := ht pw
    have e2 : totE s3 = totE s2 := rfl
    have e3 : debt s3 = debt s2 := rfl
    have e4 : s3.queue.length = s2.queue.length := rfl
    have e5 : due (s3.events s3.procActivate) = due (s2.events s2.procActivate) := rfl
    unfold fuel at g3 ⊢
    have e6 : pw pt = 1 + wt pt := rfl
    omega

/-! ## Processes of modules -/

theorem charges_activateOf {name : String} : Charges C N 0 (activateOf name) := fun s hs => by
  unfold activateOf
  split <;> exact outlay_refl hs

theorem charges_renew {name : String} : Charges C N 0 (renewActivate name) := by
  unfold renewActivate
  exact charges_bind (n := 0) (m := 0) charges_newEvent fun a => charges_bind (n := 0) (m := 0) (charges_set fun s => ⟨⟨rfl, rfl, rfl, rfl, rfl, rfl, says_same rfl rfl⟩, rfl, rfl, rfl⟩) fun _ => charges_pure

theorem takeFor_gens {name : String} : ∀ {l : List PItem} {x : (ℕ × Desc) × List PItem}, takeFor name l = .ok (some x) →
    l.countP PItem.isGen = x.2.countP PItem.isGen + 1 ∧ l.countP (fun x => !x.isGen) = x.2.countP (fun x => !x.isGen)
  | [], x, h => by cases h
  | .procedural :: r, x, h => by
    unfold takeFor at h
    split at h
    · cases h
    · cases hr : takeFor name r with
      | error e => rw [hr] at h; cases h
      | ok o =>
        rw [hr] at h
        cases o with
        | none => cases h
        | some y =>
          cases h
          obtain ⟨h1, h2⟩ := takeFor_gens hr
          rw [List.countP_cons, List.countP_cons, List.countP_cons, List.countP_cons]
          exact ⟨by omega, by omega⟩
  | .gen n i d :: r, x, h => by
    unfold takeFor at h
    split at h
    · cases h
      simp [List.countP_cons, PItem.isGen]
    · cases hr : takeFor name r with
      | error e => rw [hr] at h; cases h
      | ok o =>
        rw [hr] at h
        cases o with
        | none => cases h
        | some y =>
          cases h
          obtain ⟨h1, h2⟩ := takeFor_gens hr
          rw [List.countP_cons, List.countP_cons, List.countP_cons, List.countP_cons]
          exact ⟨by omega, by omega⟩

theorem sound_run (C : Cfg) {name : String} (hn : name ≠ procName) (d : Desc) : Sound C (.localNew name (d.run C)) ∧ wt (.localNew name (d.run C)) ≤ 575 := by
  refine ⟨⟨fun h => absurd h hn, fun _ => ⟨⟨40, (takes_run C d).brief⟩, leaves_run C d⟩⟩, ?_⟩
  show (if name = procName then 4 else 14 * lives (d.run C) + 15) ≤ 575
  rw [if_neg hn]
  have := lives_le (takes_run C d).brief
  omega

theorem charges_run (C : Cfg) {name : String} (hn : name ≠ procName) (d : Desc) : Charges C N 577 (process (.localNew name (d.run C))) :=
  charges_le (charges_process (sound_run C hn d).1 rfl rfl rfl) (by have := (sound_run C hn d).2; omega)

/-- A request is taken. -/
theorem outlay_taken (h : Sane C s) {name : String} {x : (ℕ × Desc) × List PItem} (hx : takeFor name s.startedList = .ok (some x)) :
    Sane C (s.setStarted x.2) ∧ Level N s (s.setStarted x.2) ∧ fuel (s.setStarted x.2) + 1167 = fuel s := by
  obtain ⟨h1, h2⟩ := takeFor_gens hx
  have hd : debt (s.setStarted x.2) + 1 = debt s ∧ pcount (s.setStarted x.2).w = pcount s.w := by
    unfold Sim.startedList at h1 h2
    unfold debt Sim.setStarted pcount
    cases hs : s.started with
    | none => rw [hs] at h1 h2; simp only [Option.getD_none] at h1 h2 ⊢; exact ⟨by omega, h2.symm⟩
    | some l => rw [hs] at h1 h2; simp only [Option.getD_some] at h1 h2 ⊢; exact ⟨by omega, trivial⟩
  have ha : SameBut s (s.setStarted x.2) ∧ (s.setStarted x.2).envActivate = s.envActivate := by
    unfold Sim.setStarted
    cases s.started <;> exact ⟨⟨rfl, rfl, rfl, rfl, rfl, rfl, says_same rfl rfl⟩, rfl⟩
  obtain ⟨a, b, _⟩ := outlay_sameBut (N := N) (n := 0) h ha.1 ha.2 hd.2 (by omega)
  refine ⟨a, b, ?_⟩
  have hE : totE (s.setStarted x.2) = totE s := by unfold totE; rw [ha.1.events, ha.1.next]
  unfold fuel
  rw [ha.1.queue, tot_same ha.1.points ha.1.next, hE, ha.1.events, ha.1.proc]
  omega

theorem onto_extraLoop {name : String} (hn : name ≠ procName) : Onto C N 0 (extraLoop C name) := fun s hs => by
  cases hx : takeFor name s.startedList with
  | error e =>
    have : extraLoop C name s = (s, .error e) := by
      unfold extraLoop
      show SimM.bind (SimM.get Sim.startedList) _ s = _
      unfold SimM.bind SimM.get
      dsimp only
      rw [hx]; rfl
    exact ontoAt_error this (outlay_refl hs)
  | ok o =>
    cases o with
    | none =>
      have : extraLoop C name s = ((do
          .set (fun s => { s with interruptibles := adel name s.interruptibles })
          let a ← activateOf name
          let gone ← SimM.get (·.processed a)
          if gone then do
            let a' ← renewActivate name
            pure (.wait a' (.extraIdle name))
          else pure (.wait a (.extraIdle name)) : SimM Res)) s := by
        unfold extraLoop
        show SimM.bind (SimM.get Sim.startedList) _ s = _
        unfold SimM.bind SimM.get
        dsimp only
        rw [hx]
      refine ontoAt_trans (n := 0) (m := 0) (outlay_refl hs) ?_ this
      have hw : ∀ a, Onto C N 0 (pure (.wait a (.extraIdle name))) := fun a => onto_wait (pt := .extraIdle name) hn ⟨rfl, rfl, fun _ => rfl⟩
      have hdel : Charges C N 0 (SimM.set fun s : Sim => { s with interruptibles := adel name s.interruptibles }) := charges_set fun s => ⟨⟨rfl, rfl, rfl, rfl, rfl, rfl, says_same rfl rfl⟩, rfl, rfl, rfl⟩
      refine onto_bind (n := 0) (m := 0) hdel (fun _ => ?_) s hs
      refine onto_bind (n := 0) (m := 0) charges_activateOf fun a => onto_bind (n := 0) (m := 0) charges_get fun gone => ?_
      split
      · exact onto_bind (n := 0) (m := 0) charges_renew fun a' => hw a'
      · exact hw a
    | some x =>
      obtain ⟨⟨i, d⟩, rest⟩ := x
      obtain ⟨h1, h2, h3⟩ := outlay_taken (N := N) hs hx
      have : extraLoop C name s = ((do
          let a ← activateOf name
          let busy ← SimM.get (·.triggered a)
          if busy then pure () else succeed a
          let pro ← process (.localNew name (d.run C))
          pure (.wait pro (.extraMain name pro)) : SimM Res)) (s.setStarted rest) := by
        unfold extraLoop
        show SimM.bind (SimM.get Sim.startedList) _ s = _
        unfold SimM.bind SimM.get
        dsimp only
        rw [hx]; rfl
      have hgo : OntoAt C N 1167 ((do
          let a ← activateOf name
          let busy ← SimM.get (·.triggered a)
          if busy then pure () else succeed a
          let pro ← process (.localNew name (d.run C))
          pure (.wait pro (.extraMain name pro)) : SimM Res)) (s.setStarted rest) := by
        refine onto_bind (n := 0) (m := 1167) charges_activateOf (fun a => onto_bind (n := 0) (m := 1167) charges_get fun busy => ?_) _ h1
        have hend : Onto C N 1155 (do
            let pro ← process (.localNew name (d.run C))
            pure (.wait pro (.extraMain name pro)) : SimM Res) :=
          onto_bind (n := 577) (m := 578) (charges_run C hn d) fun pro => onto_wait (pt := .extraMain name pro) hn ⟨rfl, rfl, fun _ => rfl⟩
        split
        · exact onto_le hend (by omega)
        · exact onto_bind (n := 12) (m := 1155) charges_succeed fun _ => hend
      unfold OntoAt at hgo ⊢
      rw [this]
      obtain ⟨a, b, c, d⟩ := hgo
      have h3' : fuel (s.setStarted rest) + 1167 = fuel s := h3
      exact ⟨a, level_trans h2 b, by omega, d⟩

end Verif
