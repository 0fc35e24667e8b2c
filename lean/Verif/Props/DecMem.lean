import Verif.Lemmas.DecMem
import Verif.Lemmas.Rounding
/-! # Properties C18 and C19: the content of declarative memory -/
namespace Verif.Props
open Verif Verif.Spec

theorem stamped_traces {t : TimeArg} {l : List ℚ} (h : Stamped false t l) : l = t.traces := by
  cases t with
  | one q => obtain ⟨r, hr, rfl⟩ := h; rw [isRounded_unique hr]; rfl
  | many qs => exact h

theorem step_agrees {H : PyHash} (cf : H.CollisionFree) {dm : DecMem} {log : Log} (h : Agrees H dm.data log)
    (hp : ∀ p ∈ log, Plain p.1) {op : MemOp} {a : Log} (ho : OpLog false op a) (ha : ∀ p ∈ a, Plain p.1) (hi : ¬ HashableIter op) :
    Agrees H (dm.step H op).1.data (log ++ a) ∧ (dm.step H op).2 = .ok () := by
  cases ho with
  | chunk hs =>
    refine ⟨?_, rfl⟩
    simp only [DecMem.step, DecMem.add, addOne_data]
    rw [stamped_traces hs]
    exact agrees_snoc cf h hp (ha (_, _) (List.mem_singleton.mpr rfl)) (.append _)
  | set hs =>
    refine ⟨?_, rfl⟩
    simp only [DecMem.step, DecMem.setItem, setRaw_data]
    rw [stamped_traces hs]
    exact agrees_snoc cf h hp (ha (_, _) (List.mem_singleton.mpr rfl)) (.assign _)
  | @iter b cs t l hs =>
    cases b with
    | true => exact absurd trivial hi
    | false =>
      refine ⟨?_, rfl⟩
      simp only [DecMem.step, DecMem.add]
      rw [stamped_traces hs] at *
      clear hi hs
      induction cs generalizing dm log with
      | nil => simpa using h
      | cons c r ih =>
        simp only [List.foldl_cons, List.map_cons]
        have hc : Plain c := ha (c, .append t.traces) (by simp)
        have h1 : Agrees H (dm.addOne H c t).data (log ++ [(c, .append t.traces)]) := by
          rw [addOne_data]; exact agrees_snoc cf h hp hc (.append _)
        have := ih h1 (by
          intro p hp'
          rcases List.mem_append.mp hp' with h' | h'
          · exact hp p h'
          · rw [List.mem_singleton.mp h']; exact hc) (fun p hp' => ha p (by simp at hp' ⊢; exact .inr hp'))
        simpa using this

theorem run_agrees {H : PyHash} (cf : H.CollisionFree) {ops : List MemOp} {log : Log} (hl : LogOf false ops log)
    (hp : ∀ p ∈ log, Plain p.1) (hi : ∀ op ∈ ops, ¬ HashableIter op) (dm : DecMem) (log₀ : Log) (h : Agrees H dm.data log₀)
    (hp₀ : ∀ p ∈ log₀, Plain p.1) :
    Agrees H (ops.foldl (fun dm op => (dm.step H op).1) dm).data (log₀ ++ log) := by
  induction hl generalizing dm log₀ with
  | nil => simpa using h
  | @cons op r a b ho hr ih =>
    have hpa : ∀ p ∈ a, Plain p.1 := fun p hp' => hp p (by simp [hp'])
    have h1 := (step_agrees cf h hp₀ ho hpa (hi op (by simp))).1
    have := ih (fun p hp' => hp p (by simp [hp'])) (fun o ho' => hi o (by simp [ho'])) (dm.step H op).1 (log₀ ++ a) h1
      (by intro p hp'; rcases List.mem_append.mp hp' with h' | h'
          · exact hp₀ p h'
          · exact hpa p h')
    simpa using this

/-- The whole of C18: all calls succeed and the memory is the log with all times rounded. -/
def C18_full : Prop := ∀ (H : PyHash) (ops : List MemOp) (log : Log), H.CollisionFree → LogOf true ops log →
  (∀ p ∈ log, Plain p.1) → IsLog (runMem H ops).data log

/-- C18 is false: times given as a collection are not rounded. -/
theorem C18_refuted : ¬ C18_full := by
  intro h
  obtain ⟨H, cf⟩ := exists_collisionFree
  have hr : IsRounded (1/100000) 0 := isRounded_iff.mpr (by
    have := round4_of_int 0
    simp only [round4, roundEven]; norm_num)
  have h1 := h H [.add (.chunk ⟨"t", []⟩) (.many [1/100000])] [(⟨"t", []⟩, .append [0])] cf
    (by simpa only [List.append_nil] using LogOf.cons (roundAll := true) (.chunk (t := .many [1/100000]) (l := [0]) (by simp only [Stamped, if_true]; exact .cons hr .nil)) .nil) (by simp [Plain, PlainSlots])
  have h2 := h1.2 ⟨"t", []⟩ [1/100000] (by
    simp [runMem, DecMem.step, DecMem.add, addOne_data, DecMem.empty, cdLook, cdSet, TimeArg.traces])
  norm_num [logTimes, Ev.apply] at h2

/-- Tuples, generators and other hashable iterables of chunks are rejected, although lists and sets are accepted. -/
theorem C18_tuple (H : PyHash) (dm : DecMem) (l : List Chunk) (t : TimeArg) :
    dm.add H (.iter true l) t = (dm, .error .actr) ∧ (dm.add H (.iter false l) t).2 = .ok () := ⟨rfl, rfl⟩

/-- C18 for all histories without hashable iterables: memory is the log of what was added; single times are rounded,
collections of times are stored as they are. All calls succeed. -/
theorem C18_partial (H : PyHash) (ops : List MemOp) (log : Log) (cf : H.CollisionFree) (hl : LogOf false ops log)
    (hp : ∀ p ∈ log, Plain p.1) (hi : ∀ op ∈ ops, ¬ HashableIter op) :
    IsLog (runMem H ops).data log ∧ ∀ (dm : DecMem) op, op ∈ ops → (dm.step H op).2 = .ok () := by
  constructor
  · have h := run_agrees cf hl hp hi DecMem.empty [] (agrees_nil H) (by simp)
    exact ⟨by simpa [runMem] using h.keys, by simpa [runMem] using h.times⟩
  · intro dm op ho
    have := hi op ho
    cases op with
    | set c t => rfl
    | add e t => cases e with
      | chunk c => rfl
      | iter b l => cases b with
        | false => rfl
        | true => exact absurd trivial this

/-- Every history has a log. -/
theorem logOf_total (ops : List MemOp) : ∃ log, LogOf false ops log := by
  have stamp : ∀ t : TimeArg, ∃ l, Stamped false t l := by
    intro t; cases t with
    | one q => exact ⟨_, _, round4_isRounded q, rfl⟩
    | many l => exact ⟨l, rfl⟩
  induction ops with
  | nil => exact ⟨[], .nil⟩
  | cons op r ih =>
    obtain ⟨b, hb⟩ := ih
    have : ∃ a, OpLog false op a := by
      cases op with
      | set c t => obtain ⟨l, hl⟩ := stamp t; exact ⟨_, .set hl⟩
      | add e t =>
        obtain ⟨l, hl⟩ := stamp t
        cases e with
        | chunk c => exact ⟨_, .chunk hl⟩
        | iter b cs => exact ⟨_, .iter hl⟩
    obtain ⟨a, ha⟩ := this
    exact ⟨_, .cons ha hb⟩

/-- Two equal chunks of different types and a different one: the log has three entries, the memory two chunks. -/
example : let a : Chunk := ⟨"t", [("s", .vv ⟨.str "1", Option.none, [], []⟩)]⟩
    let b : Chunk := ⟨"u", [("s", .vv ⟨.str "1", Option.none, [], []⟩)]⟩
    let c : Chunk := ⟨"t", [("s", .vv ⟨.str "2", Option.none, [], []⟩)]⟩
    (∃ l₁ l₂ l₃, LogOf false [.add (.chunk a) (.one 0), .add (.iter false [c, b]) (.one 1), .set c (.many [5])]
      [(a, .append l₁), (c, .append l₂), (b, .append l₂), (c, .assign l₃)]) ∧
    firsts [a, c, b, c] = [a, c] := by
  intro a b c
  constructor
  · refine ⟨[round4 0], [round4 1], [5], ?_⟩
    have := LogOf.cons (.chunk (c := a) (t := .one 0) (l := [round4 0]) (roundAll := false) ⟨_, round4_isRounded 0, rfl⟩)
      (.cons (.iter (b := false) (cs := [c, b]) (t := .one 1) (l := [round4 1]) (roundAll := false) ⟨_, round4_isRounded 1, rfl⟩)
        (.cons (.set (c := c) (l := [5]) (t := .many [5]) (by simp [Stamped])) (LogOf.nil (roundAll := false))))
    simpa using this
  · have h1 : chunkContent a = chunkContent b := rfl
    have h2 : chunkContent c ≠ chunkContent a := by
      simp [chunkContent, contentSlots, contentSlot, content, Noneish, a, c]
    have h3 : chunkContent c ≠ chunkContent b := by rw [← h1]; exact h2
    simp [firsts, List.filter_cons, h1, h2.symm, h3, h3.symm]

/-- The whole of C19. -/
def C19_full : Prop := ∀ (H : PyHash), H.CollisionFree →
  (∀ l : List Chunk, (∀ c ∈ l, Plain c) → ∃ dm, DecMem.ofChunks H l = .ok dm ∧ dm.data = (firsts l).map (fun c => (c, [0]))) ∧
  (∀ (l : CDict TimeArg) (times : List (List ℚ)), l.Pairwise (fun a b => a.1.hash H BV.init ≠ b.1.hash H BV.init) →
    List.Forall₂ (fun p q => Stamped false p.2 q) l times → (DecMem.ofMapping H l).data = (l.map Prod.fst).zip times)

/-- C19 is false: a collection whose first chunk has exactly two slots is rejected. -/
theorem C19_refuted : ¬ C19_full := by
  intro h
  obtain ⟨H, cf⟩ := exists_collisionFree
  obtain ⟨dm, h1, _⟩ := (h H cf).1 [⟨"t", [("a", .empty), ("b", .empty)]⟩] (by simp [Plain, PlainSlots, PlainSlot])
  simp [DecMem.ofChunks] at h1

/-- Exactly when the first chunk has two slots the constructor fails. -/
theorem C19_fails_iff (H : PyHash) (l : List Chunk) :
    (∃ e, DecMem.ofChunks H l = .error e) ↔ ∃ c r, l = c :: r ∧ c.slots.length = 2 := by
  cases l with
  | nil => simp [DecMem.ofChunks]
  | cons c r =>
    simp only [DecMem.ofChunks]
    split
    · next h => simp [h]
    · next h => simp [h]

theorem zeroDict_spec {H : PyHash} (cf : H.CollisionFree) : ∀ (l l₀ : List Chunk) (d : CDict TimeArg),
    (∀ c ∈ l, Plain c) → (∀ c ∈ l₀, Plain c) → d = (firsts l₀).map (fun c => (c, TimeArg.one 0)) →
    l.foldl (fun d c => cdSet H c (.one 0) d) d = (firsts (l₀ ++ l)).map (fun c => (c, TimeArg.one 0))
  | [], l₀, d, _, _, hd => by simpa using hd
  | c :: r, l₀, d, hl, hl₀, hd => by
    have hc : Plain c := hl c (by simp)
    have key : cdSet H c (.one 0) d = (firsts (l₀ ++ [c])).map (fun c => (c, TimeArg.one 0)) := by
      have keys : d.map Prod.fst = firsts l₀ := by rw [hd]; simp [Function.comp_def]
      have vals : ∀ (e : CDict TimeArg), (∀ p ∈ e, p.2 = TimeArg.one 0) → e = (e.map Prod.fst).map (fun c => (c, TimeArg.one 0)) := by
        intro e he
        induction e with
        | nil => rfl
        | cons p r ih =>
          rw [List.map_cons, List.map_cons, ← ih (fun q hq => he q (by simp [hq])), ← he p (by simp)]
      have hv : ∀ p ∈ cdSet H c (.one 0) d, p.2 = TimeArg.one 0 := by
        rintro ⟨e, x⟩ hm
        rcases cdSet_mem hm with h | ⟨h, _⟩
        · rw [hd] at h
          simp only [List.mem_map, Prod.mk.injEq] at h
          obtain ⟨_, _, _, rfl⟩ := h; rfl
        · exact h
      rw [vals _ hv, cdSet_keys, keys]
      have plainF : ∀ e ∈ firsts l₀, Plain e := fun e he => hl₀ e (mem_firsts he)
      by_cases hs : (cdLook H c d).isSome = true
      · rw [if_pos hs]
        obtain ⟨e, he, hce⟩ := cdLook_isSome.mp hs
        rw [keys] at he
        rw [(firsts_snoc c l₀).1 ⟨e, mem_firsts he, (ceq_content cf (plainF e he) hc).mp hce⟩]
      · rw [if_neg hs]
        rw [(firsts_snoc c l₀).2 ?_]
        intro e he hce
        obtain ⟨f, hf, hfc⟩ := firsts_covers he
        exact hs (cdLook_isSome.mpr ⟨f, keys ▸ hf, (ceq_content cf (plainF f hf) hc).mpr (hfc.trans hce)⟩)
    have := zeroDict_spec cf r (l₀ ++ [c]) (cdSet H c (.one 0) d) (fun e he => hl e (by simp [he]))
      (by intro e he; rcases List.mem_append.mp he with h | h
          · exact hl₀ e h
          · rw [List.mem_singleton.mp h]; exact hc) key
    simpa using this

theorem ofMapping_data {H : PyHash} : ∀ (l : CDict TimeArg) (dm : DecMem), CDict.Distinct H l →
    (∀ p ∈ l, cdLook H p.1 dm.data = Option.none) →
    (l.foldl (fun dm p => dm.setItem H p.1 p.2) dm).data = dm.data ++ l.map (fun p => (p.1, p.2.traces))
  | [], dm, _, _ => by simp
  | (c, t) :: r, dm, hd, hn => by
    simp only [CDict.Distinct, List.pairwise_cons] at hd
    have h1 : (dm.setItem H c t).data = dm.data ++ [(c, t.traces)] := by
      rw [DecMem.setItem, setRaw_data, cdSet_new (hn (c, t) (by simp))]
    rw [List.foldl_cons, ofMapping_data r _ hd.2 ?_, h1]
    · simp
    · intro p hp
      rw [DecMem.setItem, setRaw_data, cdLook_cdSet]
      simp [hd.1 p hp, hn p (by simp [hp])]

/-- C19 for collections whose first chunk does not have exactly two slots: every chunk is stored once, with time 0. -/
theorem C19_partial (H : PyHash) (cf : H.CollisionFree) (l : List Chunk) (hp : ∀ c ∈ l, Plain c)
    (h2 : ∀ c r, l = c :: r → c.slots.length ≠ 2) :
    ∃ dm, DecMem.ofChunks H l = .ok dm ∧ dm.data = (firsts l).map (fun c => (c, [0])) := by
  cases l with
  | nil => exact ⟨DecMem.empty, rfl, by simp [DecMem.empty, firsts]⟩
  | cons c r =>
    refine ⟨_, by simp only [DecMem.ofChunks, h2 c r rfl, if_false]; rfl, ?_⟩
    have hz : zeroDict H (c :: r) = (firsts (c :: r)).map (fun c => (c, TimeArg.one 0)) := by
      have := zeroDict_spec cf (c :: r) [] [] hp (by simp) (by simp [firsts])
      simpa [zeroDict] using this
    have hdist : CDict.Distinct H (zeroDict H (c :: r)) := by
      simp only [zeroDict]
      generalize hl : c :: r = l
      have : ∀ (l : List Chunk) (d : CDict TimeArg), CDict.Distinct H d → CDict.Distinct H (l.foldl (fun d c => cdSet H c (.one 0) d) d) := by
        intro l; induction l with
        | nil => intro d h; exact h
        | cons a r ih => intro d h; exact ih _ (cdSet_distinct h)
      exact this l [] (by simp [CDict.Distinct])
    rw [DecMem.ofMapping, ofMapping_data _ _ hdist (by simp [DecMem.empty, cdLook]), hz]
    simp [DecMem.empty, TimeArg.traces, round4_zero]

/-- C19 for mappings: every chunk is stored with its times (a single number rounded). -/
theorem C19_mapping (H : PyHash) (l : CDict TimeArg) (times : List (List ℚ))
    (hd : l.Pairwise (fun a b => a.1.hash H BV.init ≠ b.1.hash H BV.init))
    (ht : List.Forall₂ (fun p q => Stamped false p.2 q) l times) :
    (DecMem.ofMapping H l).data = (l.map Prod.fst).zip times := by
  have hd' : CDict.Distinct H l := hd.imp (fun h => by simpa [ceq] using h)
  rw [DecMem.ofMapping, ofMapping_data _ _ hd' (by simp [DecMem.empty, cdLook])]
  simp only [DecMem.empty, List.nil_append]
  clear hd hd'
  induction ht with
  | nil => rfl
  | cons h _ ih => simp only [List.map_cons, List.zip_cons_cons, ih, stamped_traces h]

/-- A three-slot chunk, given twice with different types. -/
example : let a : Chunk := ⟨"t", [("r", .empty), ("s", .vv ⟨.str "1", Option.none, [], []⟩), ("u", .empty)]⟩
    let b : Chunk := ⟨"u", [("s", .vv ⟨.str "1", Option.none, [], []⟩)]⟩
    (∀ c ∈ [a, b], Plain c) ∧ a.slots.length ≠ 2 ∧ firsts [a, b] = [a] := by
  intro a b
  have h1 : chunkContent a = chunkContent b := by
    simp [chunkContent, contentSlots, contentSlot, content, Noneish, a, b]
  refine ⟨by simp [a, b, Plain, PlainSlots, PlainSlot, PlainVal], by simp [a], by simp [firsts, h1]⟩

end Verif.Props
