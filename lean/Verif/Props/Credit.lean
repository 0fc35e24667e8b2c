import Verif.Lemmas.Credited
import Verif.Lemmas.ExSim
import Verif.Spec.Waiting
/-! # Whom reports are attributed to (properties C93 and C94) -/
namespace Verif.Props
open Verif Verif.Spec

variable {s : Sim} {C : Cfg} {w : Mach} {args : Option EnvArgs} {t : ℚ}

/-- All kinds for each name: names matter, kinds do not. -/
theorem peopled_names (hp : ∀ n i d, .gen n i d ∈ w.procs → worksFor d ∈ w.bufs.map Prod.fst) : Peopled ((w.bufs.map Prod.fst).product [.goal, .decmem, .motor, .visual, .visualLocation]) w := by
  have hall : ∀ (n : String) (c : BufClass), n ∈ w.bufs.map Prod.fst → (n, c) ∈ (w.bufs.map Prod.fst).product [.goal, .decmem, .motor, .visual, .visualLocation] := fun n c hn =>
    List.pair_mem_product.2 ⟨hn, by cases c <;> simp⟩
  refine ⟨fun p hm => ?_, fun n i d hd => ?_, fun hN => ?_⟩
  · obtain ⟨q, hq, rfl⟩ := List.mem_map.1 hm
    exact hall _ _ (List.mem_map_of_mem (f := Prod.fst) hq)
  · cases hk : workKind d with
    | none => exact ⟨.goal, hall _ _ (hp n i d hd), fun k hk' => by rw [hk] at hk'; cases hk'⟩
    | some c => exact ⟨c, hall _ _ (hp n i d hd), fun k hk' => by rw [hk] at hk'; cases hk'; rfl⟩
  · obtain ⟨p, hm⟩ := List.exists_mem_of_ne_nil _ hN.1.1
    exact absurd (hall p.1 .motor (List.pair_mem_product.1 hm).1) (hN.2 p.1)

theorem credited_names {l : List String} {k : List BufClass} {e : Verif.Ev} (h : Credited ((l.product k).map Prod.fst) e) : Credited l e := by
  unfold Credited at h ⊢
  split at h
  · exact h
  · exact h
  · obtain ⟨p, hp, he⟩ := List.mem_map.1 h
    exact he ▸ (List.pair_mem_product.1 hp).1

/-- Every buffer twice: kinds matter, keys do not. -/
theorem peopled_kinds (hp : ∀ n i d, .gen n i d ∈ w.procs → Suits (kindsOf w) d) : Peopled (kindsOf w ++ kindsOf w) w := by
  have hm : ∀ p, p ∈ kindsOf w ++ kindsOf w ↔ p ∈ kindsOf w := fun p => by simp
  refine ⟨fun p hp => (hm p).2 hp, fun n i d hd => ?_, fun hN => ?_⟩
  · obtain ⟨c, h1, h2⟩ := hp n i d hd
    exact ⟨c, (hm _).2 h1, h2⟩
  · obtain ⟨p, h1⟩ := List.exists_mem_of_ne_nil _ hN.1.1
    exact absurd rfl ((List.nodup_append.1 hN.1.2).2.2 p ((hm p).1 h1) p ((hm p).1 h1))

theorem befits_kinds {l : List (String × BufClass)} {e : Verif.Ev} (h : Befits (l ++ l) e) : Befits l e := fun c hc => by simpa using h c hc

theorem apt_announced {N : List (String × BufClass)} {p : ℕ} {e : Verif.Ev} (h : Verif.Tidy N s) (ha : Announced s p e) (hu : e.act ≠ .unknown) : Apt N e := by
  rcases ha with ⟨n, k, ha⟩ | ha
  · exact (h.points p _ ha).1.resolve_left hu
  · exact h.points p _ ha

/-- C93: in all states of a simulation, also after exceptions and further calls of `run`, every report is attributed to the one that tells
things like this: what is told about rules to PROCEDURAL, what is told about the screen to ENVIRONMENT, everything else to one of the
buffers that the model had at the beginning; provided that processes that wait at the beginning, if any, work for buffers of the model.
In particular no rule can make modules report something for a buffer that the model does not have. -/
theorem C93 (hp : ∀ n i d, .gen n i d ∈ w.procs → worksFor d ∈ w.bufs.map Prod.fst) (h : Reachable C w args t s) : ∀ x ∈ s.trace, Credited (w.bufs.map Prod.fst) x.2 :=
  fun x hx => credited_names ((tidy_reachable (peopled_names hp) h).trace x hx).1

/-- C93, and so is every event that a process has announced and is going to report, if it is not interrupted. -/
theorem C93_announced (hp : ∀ n i d, .gen n i d ∈ w.procs → worksFor d ∈ w.bufs.map Prod.fst) (h : Reachable C w args t s) {p : ℕ} {e : Verif.Ev} (ha : Announced s p e) (hu : e.act ≠ .unknown) :
    Credited (w.bufs.map Prod.fst) e :=
  credited_names (apt_announced (tidy_reachable (peopled_names hp) h) ha hu).1

/-- C93, read the other way round: unless a buffer has that name, what is attributed to PROCEDURAL is told about rules. -/
theorem C93_rules (hp : ∀ n i d, .gen n i d ∈ w.procs → worksFor d ∈ w.bufs.map Prod.fst) (hn : "PROCEDURAL" ∉ w.bufs.map Prod.fst) (h : Reachable C w args t s) {x : ℚ × Ev} (hx : x ∈ s.trace) :
    x.2.proc = "PROCEDURAL" ↔ Cyclic x.2.act := by
  have hc := C93 hp h x hx
  have key : teller x.2.act = .rules ↔ Cyclic x.2.act := by cases x.2.act <;> simp [teller, Cyclic]
  unfold Credited at hc
  rw [← key]
  cases ht : teller x.2.act <;> rw [ht] at hc <;> dsimp only at hc
  · simp [hc]
  · rw [hc]; simp
  · exact ⟨fun e => absurd (e ▸ hc) hn, fun e => by cases e⟩

/-- C93, and what is attributed to a buffer is told by a module, unless the buffer has one of the two other names. -/
theorem C93_modules (hp : ∀ n i d, .gen n i d ∈ w.procs → worksFor d ∈ w.bufs.map Prod.fst) (h : Reachable C w args t s) {x : ℚ × Ev} (hx : x ∈ s.trace)
    (h1 : x.2.proc ≠ "PROCEDURAL") (h2 : x.2.proc ≠ "ENVIRONMENT") : teller x.2.act = .buffer ∧ ∃ b, w.buf x.2.proc = some b := by
  have hc := C93 hp h x hx
  unfold Credited at hc
  cases ht : teller x.2.act <;> rw [ht] at hc <;> dsimp only at hc
  · exact absurd hc h1
  · exact absurd hc h2
  · exact ⟨rfl, mem_keys_iff.1 hc⟩

/-- C93, an instance: the environment, the rules and a buffer have reported something. -/
example : ∃ s, Reachable exC exPresser exEnvArgs 0 s ∧ (∀ k ∈ [Teller.rules, .environment, .buffer], ∃ x ∈ s.trace, teller x.2.act = k) ∧
    ∀ x ∈ s.trace, Credited (exPresser.bufs.map Prod.fst) x.2 := by
  have h : (match stepsOf exC 60 exSim with
      | .ok s => some ([Teller.rules, .environment, .buffer].all (fun k => s.trace.any (fun x => decide (teller x.2.act = k))))
      | _ => Option.none) = some true := by decide +kernel
  cases hs : stepsOf exC 60 exSim with
  | ok s =>
    rw [hs] at h
    have hr := stepsOf_ok (Reachable.init (C := exC) (w := exPresser) (args := exEnvArgs) (t := 0)) hs
    refine ⟨s, hr, fun k hk => ?_, C93 (fun n i d hm => by cases hm) hr⟩
    obtain ⟨x, hx, hx'⟩ := List.any_eq_true.1 (List.all_eq_true.1 (Option.some.inj h) k hk)
    exact ⟨x, hx, of_decide_eq_true hx'⟩
  | stopped s => rw [hs] at h; cases h
  | raised s x => rw [hs] at h; cases h
  | empty => rw [hs] at h; cases h

/-- C94: in all states of a simulation, what only one kind of buffer tells is attributed to a buffer of that kind: retrievals to buffers of
memories, created chunks to goals, locations to buffers of locations, objects and shifts of attention to visual buffers, commands and
pressed keys to motor buffers; provided that the same holds for the processes that wait at the beginning, if any. So a request never
reaches a module of another kind, and neither does what modules leave to be done later. -/
theorem C94 (hp : ∀ n i d, .gen n i d ∈ w.procs → Suits (kindsOf w) d) (h : Reachable C w args t s) : ∀ x ∈ s.trace, Befits (kindsOf w) x.2 :=
  fun x hx => befits_kinds ((tidy_reachable (peopled_kinds hp) h).trace x hx).2

/-- C94, and the same holds for what has been announced. -/
theorem C94_announced (hp : ∀ n i d, .gen n i d ∈ w.procs → Suits (kindsOf w) d) (h : Reachable C w args t s) {p : ℕ} {e : Verif.Ev} (ha : Announced s p e) (hu : e.act ≠ .unknown) : Befits (kindsOf w) e :=
  befits_kinds (apt_announced (tidy_reachable (peopled_kinds hp) h) ha hu).2

/-- C94, and what waits to be done always works for a buffer of the right kind. -/
theorem C94_waiting (hp : ∀ n i d, .gen n i d ∈ w.procs → Suits (kindsOf w) d) (h : Reachable C w args t s) {n : String} {i : ℕ} {d : Desc} (hd : .gen n i d ∈ s.startedList) : Suits (kindsOf w) d := by
  obtain ⟨c, h1, h2⟩ := itemsIn_started (tidy_reachable (peopled_kinds hp) h) n i d hd
  exact ⟨c, by simpa using h1, h2⟩

/-- C94, by classes, when names of buffers differ: the buffer that reports something has the class that goes with what it reports. -/
theorem C94_class (hn : (w.bufs.map Prod.fst).Nodup) (hp : ∀ n i d, .gen n i d ∈ w.procs → Suits (kindsOf w) d) (h : Reachable C w args t s) {x : ℚ × Ev} (hx : x ∈ s.trace)
    {c : BufClass} (hc : kindFor x.2.act = some c) : ∃ b, w.buf x.2.proc = some b ∧ b.cls = c := by
  obtain ⟨⟨n, b⟩, hb, he⟩ := List.mem_map.1 (C94 hp h x hx c hc)
  cases he
  exact ⟨b, alook_of_mem hn hb, rfl⟩

/-- C94, pressed keys: keys are pressed only by motor buffers; in a model without motor buffers no key is ever pressed, whatever its rules
ask for. -/
theorem C94_press (hp : ∀ n i d, .gen n i d ∈ w.procs → Suits (kindsOf w) d) (hm : ∀ q ∈ w.bufs, q.2.cls ≠ .motor) (h : Reachable C w args t s) {x : ℚ × Ev} (hx : x ∈ s.trace) (k : String) :
    x.2.act ≠ .pressed k := by
  intro ha
  obtain ⟨q, hq, he⟩ := List.mem_map.1 (C94 hp h x hx .motor (by rw [ha]; rfl))
  exact hm q hq (congrArg Prod.snd he)

/-- C94, keys: a model that has buffers, but no motor buffers, and that begins when no key has been pressed, never passes a key on to its
environment, whatever its rules ask for: no environment ever sees a key that it waits for. -/
theorem C94_keys (hn : (w.bufs.map Prod.fst).Nodup) (h0 : w.bufs ≠ []) (hi : w.interaction = []) (hp : ∀ n i d, .gen n i d ∈ w.procs → Suits (kindsOf w) d)
    (hm : ∀ q ∈ w.bufs, q.2.cls ≠ .motor) (h : Reachable C w args t s) : s.w.interaction = [] ∧ ∀ env, triggersEnv env s.w.interaction = false := by
  have hq : s.w.interaction = [] := by
    refine (tidy_reachable (N := kindsOf w) ⟨fun _ hm => hm, hp, fun _ => hi⟩ h).mach.quiet ⟨⟨fun he => h0 (List.map_eq_nil_iff.1 he), ?_⟩, fun n hk => ?_⟩
    · refine List.Nodup.of_map Prod.fst ?_
      unfold kindsOf
      rw [List.map_map]
      exact hn
    · obtain ⟨q, hq, he⟩ := List.mem_map.1 hk
      exact hm q hq (congrArg Prod.snd he)
  refine ⟨hq, fun env => ?_⟩
  unfold triggersEnv
  rw [hq]
  split
  · simp
  · rfl

/-- C94, an instance: something that only one kind of buffer tells has been reported. -/
example : ∃ s, Reachable exC exPresser exEnvArgs 0 s ∧ (∃ x ∈ s.trace, kindFor x.2.act = some .motor) ∧ ∀ x ∈ s.trace, Befits (kindsOf exPresser) x.2 := by
  have h : (match stepsOf exC 60 exSim with
      | .ok s => some (s.trace.any (fun x => decide (kindFor x.2.act = some .motor)))
      | _ => Option.none) = some true := by decide +kernel
  cases hs : stepsOf exC 60 exSim with
  | ok s =>
    rw [hs] at h
    have hr := stepsOf_ok (Reachable.init (C := exC) (w := exPresser) (args := exEnvArgs) (t := 0)) hs
    obtain ⟨x, hx, hx'⟩ := List.any_eq_true.1 (Option.some.inj h)
    exact ⟨s, hr, ⟨x, hx, of_decide_eq_true hx'⟩, C94 (fun n i d hm => by cases hm) hr⟩
  | stopped s => rw [hs] at h; cases h
  | raised s x => rw [hs] at h; cases h
  | empty => rw [hs] at h; cases h

/-- C93 and C94, an instance of what is announced: a motor buffer is going to report something. -/
example : ∃ s p e, Reachable exC exPresser exEnvArgs 0 s ∧ Announced s p e ∧ kindFor e.act = some .motor ∧ Credited (exPresser.bufs.map Prod.fst) e ∧ Befits (kindsOf exPresser) e := by
  have h : (match stepsOf exC 20 exSim with
      | .ok s => some ((List.range 60).any (fun p => match s.points p with | some (.localWait _ e _) => decide (kindFor e.act = some .motor) | _ => false))
      | _ => Option.none) = some true := by decide +kernel
  cases hs : stepsOf exC 20 exSim with
  | ok s =>
    rw [hs] at h
    have hr := stepsOf_ok (Reachable.init (C := exC) (w := exPresser) (args := exEnvArgs) (t := 0)) hs
    obtain ⟨p, _, hx⟩ := List.any_eq_true.1 (Option.some.inj h)
    split at hx
    · rename_i n e k hp
      have hk := of_decide_eq_true hx
      have hu : e.act ≠ .unknown := fun hu => by rw [hu] at hk; cases hk
      exact ⟨s, p, e, hr, .inl ⟨n, k, hp⟩, hk, C93_announced (fun n i d hm => by cases hm) hr (.inl ⟨n, k, hp⟩) hu, C94_announced (fun n i d hm => by cases hm) hr (.inl ⟨n, k, hp⟩) hu⟩
    · cases hx
  | stopped s => rw [hs] at h; cases h
  | raised s x => rw [hs] at h; cases h
  | empty => rw [hs] at h; cases h

/-- C94, an instance of what waits: a request. -/
example : ∃ s n i d, Reachable exC exPresser exEnvArgs 0 s ∧ .gen n i d ∈ s.startedList ∧ Suits (kindsOf exPresser) d := by
  have h : (match stepsOf exC 15 exSim with
      | .ok s => some (s.startedList.any (fun p => match p with | .gen _ _ _ => true | _ => false))
      | _ => Option.none) = some true := by decide +kernel
  cases hs : stepsOf exC 15 exSim with
  | ok s =>
    rw [hs] at h
    have hr := stepsOf_ok (Reachable.init (C := exC) (w := exPresser) (args := exEnvArgs) (t := 0)) hs
    obtain ⟨x, hx, hx'⟩ := List.any_eq_true.1 (Option.some.inj h)
    cases x with
    | procedural => cases hx'
    | gen n i d => exact ⟨s, n, i, d, hr, hx, C94_waiting (fun n i d hm => by cases hm) hr hx⟩
  | stopped s => rw [hs] at h; cases h
  | raised s x => rw [hs] at h; cases h
  | empty => rw [hs] at h; cases h

/-- The same rule, which asks for a key, in a model in which `manual` is a goal. -/
def exNoHands : Mach := { exPresser with bufs := [("manual", exBuf .goal)] }

/-- C94, keys, an instance: the rule that asks for a key has fired, and its request waits. -/
example : ∃ s, Reachable exC exNoHands exEnvArgs 0 s ∧ (∃ x ∈ s.trace, x.2.act = .fired "press") ∧ s.w.interaction = [] := by
  have h : (match stepsOf exC 20 (Sim.init exNoHands exEnvArgs 0) with
      | .ok s => some (s.trace.any (fun x => match x.2.act with | .fired n => n = "press" | _ => false))
      | _ => Option.none) = some true := by decide +kernel
  cases hs : stepsOf exC 20 (Sim.init exNoHands exEnvArgs 0) with
  | ok s =>
    rw [hs] at h
    have hr := stepsOf_ok (Reachable.init (C := exC) (w := exNoHands) (args := exEnvArgs) (t := 0)) hs
    obtain ⟨x, hx, hx'⟩ := List.any_eq_true.1 (Option.some.inj h)
    refine ⟨s, hr, ⟨x, hx, ?_⟩, (C94_keys (by decide) (by simp [exNoHands]) rfl (fun n i d hm => by cases hm) (fun q hq => ?_) hr).1⟩
    · split at hx'
      · rename_i n he
        rw [he, of_decide_eq_true hx']
      · cases hx'
    · rw [List.mem_singleton.1 hq]
      simp [exBuf]
  | stopped s => rw [hs] at h; cases h
  | raised s x => rw [hs] at h; cases h
  | empty => rw [hs] at h; cases h

end Verif.Props
