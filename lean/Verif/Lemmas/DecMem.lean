import Verif.Model.DecMem
import Verif.Spec.DecMem
import Verif.Lemmas.ChunkProps
/-! Helper lemmas about dictionaries keyed by chunks and declarative memory. -/
namespace Verif
open Verif.Spec

section cdict
variable {α : Type} {H : PyHash}

theorem ceq_iff {c d : Chunk} : ceq H c d = true ↔ c.hash H BV.init = d.hash H BV.init := by simp [ceq]

theorem ceq_refl (c : Chunk) : ceq H c c = true := by simp [ceq]

theorem ceq_comm (c d : Chunk) : ceq H c d = ceq H d c := by
  rw [Bool.eq_iff_iff, ceq_iff, ceq_iff, eq_comm]

theorem ceq_trans {c d e : Chunk} (h : ceq H c d = true) (h' : ceq H d e = true) : ceq H c e = true := by
  rw [ceq_iff] at *; exact h.trans h'

theorem ceq_congr {c d : Chunk} (h : ceq H c d = true) (e : Chunk) : ceq H e c = ceq H e d := by
  rw [Bool.eq_iff_iff, ceq_iff, ceq_iff, ceq_iff.mp h]

theorem cdLook_congr {c d : Chunk} (h : ceq H c d = true) : ∀ l : CDict α, cdLook H c l = cdLook H d l
  | [] => rfl
  | (e, a) :: r => by simp only [cdLook, ceq_congr h e, cdLook_congr h r]

theorem cdLook_cdSet (c d : Chunk) (a : α) : ∀ l : CDict α,
    cdLook H d (cdSet H c a l) = if ceq H c d then some a else cdLook H d l
  | [] => by simp [cdSet, cdLook]
  | (e, b) :: r => by
    simp only [cdSet]
    by_cases h : ceq H e c = true
    · simp only [h, if_true, cdLook]
      have h1 : ceq H e d = ceq H c d := by
        rw [Bool.eq_iff_iff, ceq_iff, ceq_iff, ceq_iff.mp h]
      rw [h1]
      by_cases h2 : ceq H c d = true <;> simp [h2]
    · simp only [h, cdLook, Bool.false_eq_true, if_false]
      by_cases h2 : ceq H e d = true
      · have : ceq H c d = false := by
          rw [← Bool.not_eq_true]; intro h3
          exact h (ceq_trans h2 ((ceq_comm d c).trans h3))
        simp [h2, this]
      · simp [h2, cdLook_cdSet c d a r]

theorem cdSet_cdSet (c : Chunk) (a b : α) : ∀ l : CDict α, cdSet H c b (cdSet H c a l) = cdSet H c b l
  | [] => by simp [cdSet, ceq_refl]
  | (e, x) :: r => by
    by_cases h : ceq H e c = true
    · simp [cdSet, h]
    · simp [cdSet, h, cdSet_cdSet c a b r]

theorem cdSet_keys (c : Chunk) (a : α) : ∀ l : CDict α,
    (cdSet H c a l).map Prod.fst = if (cdLook H c l).isSome then l.map Prod.fst else l.map Prod.fst ++ [c]
  | [] => by simp [cdSet, cdLook]
  | (e, x) :: r => by
    by_cases h : ceq H e c = true
    · simp [cdSet, cdLook, h]
    · simp only [cdSet, cdLook, h, Bool.false_eq_true, if_false, List.map_cons, cdSet_keys c a r]
      split <;> simp

theorem cdSet_new {c : Chunk} {a : α} : ∀ {l : CDict α}, cdLook H c l = Option.none → cdSet H c a l = l ++ [(c, a)]
  | [], _ => rfl
  | (e, x) :: r, h => by
    by_cases h' : ceq H e c = true
    · simp [cdLook, h'] at h
    · simp only [cdLook, h'] at h
      simp [cdSet, h', cdSet_new (l := r) (by simpa using h)]

theorem cdLook_isSome {c : Chunk} : ∀ {l : CDict α}, (cdLook H c l).isSome = true ↔ ∃ d ∈ l.map Prod.fst, ceq H d c = true
  | [] => by simp [cdLook]
  | (e, x) :: r => by
    by_cases h : ceq H e c = true
    · simp [cdLook, h]
    · simp only [cdLook, h, Bool.false_eq_true, if_false, cdLook_isSome (l := r)]
      simp [h]

/-- The keys are pairwise different. -/
def CDict.Distinct (H : PyHash) (l : CDict α) : Prop := l.Pairwise (fun a b => ceq H a.1 b.1 = false)

theorem cdLook_mem {c : Chunk} {a : α} : ∀ {l : CDict α}, cdLook H c l = some a → ∃ d, (d, a) ∈ l ∧ ceq H d c = true
  | [], h => by simp [cdLook] at h
  | (e, x) :: r, h => by
    by_cases h' : ceq H e c = true
    · simp only [cdLook, h', if_true, Option.some.injEq] at h; subst h; exact ⟨e, by simp, h'⟩
    · simp only [cdLook, h', Bool.false_eq_true, if_false] at h
      obtain ⟨d, hd, hc⟩ := cdLook_mem (l := r) h
      exact ⟨d, by simp [hd], hc⟩

theorem cdLook_of_mem {c : Chunk} {a : α} : ∀ {l : CDict α}, CDict.Distinct H l → (c, a) ∈ l → cdLook H c l = some a
  | [], _, h => by simp at h
  | (e, x) :: r, hd, h => by
    simp only [CDict.Distinct, List.pairwise_cons] at hd
    rcases List.mem_cons.mp h with h | h
    · cases h; simp [cdLook, ceq_refl]
    · have : ceq H e c = false := hd.1 (c, a) h
      simp [cdLook, this, cdLook_of_mem (l := r) hd.2 h]

theorem cdSet_mem {c d : Chunk} {a b : α} : ∀ {l : CDict α}, (d, b) ∈ cdSet H c a l → (d, b) ∈ l ∨ (b = a ∧ ceq H d c = true)
  | [], h => by simp [cdSet] at h; obtain ⟨rfl, rfl⟩ := h; exact .inr ⟨rfl, ceq_refl _⟩
  | (e, x) :: r, h => by
    by_cases h' : ceq H e c = true
    · simp only [cdSet, h', if_true, List.mem_cons, Prod.mk.injEq] at h
      rcases h with ⟨rfl, rfl⟩ | h
      · exact .inr ⟨rfl, h'⟩
      · exact .inl (by simp [h])
    · simp only [cdSet, h', Bool.false_eq_true, if_false, List.mem_cons, Prod.mk.injEq] at h
      rcases h with h | h
      · exact .inl (by simp [h])
      · rcases cdSet_mem (l := r) h with h | h
        · exact .inl (by simp [h])
        · exact .inr h

theorem cdSet_distinct {c : Chunk} {a : α} : ∀ {l : CDict α}, CDict.Distinct H l → CDict.Distinct H (cdSet H c a l)
  | [], _ => by simp [cdSet, CDict.Distinct]
  | (e, x) :: r, hd => by
    simp only [CDict.Distinct, List.pairwise_cons] at hd
    by_cases h' : ceq H e c = true
    · simp only [cdSet, h', if_true, CDict.Distinct, List.pairwise_cons]; exact hd
    · simp only [cdSet, h', Bool.false_eq_true, if_false, CDict.Distinct, List.pairwise_cons]
      refine ⟨?_, cdSet_distinct hd.2⟩
      rintro ⟨d, b⟩ hm
      rcases cdSet_mem hm with h | ⟨_, h⟩
      · exact hd.1 _ h
      · simp only; rw [ceq_congr h e]; simpa using h'

end cdict

theorem ceq_content {H : PyHash} (cf : H.CollisionFree) {c d : Chunk} (hc : Plain c) (hd : Plain d) :
    ceq H c d = true ↔ chunkContent c = chunkContent d := by
  have := eq_iff_content cf BV.init c d hc hd
  simp only [Chunk.eq] at this
  simpa [ceq] using this

theorem setRaw_data (H : PyHash) (dm : DecMem) (c : Chunk) (l : List ℚ) : (dm.setRaw H c l).data = cdSet H c l dm.data := rfl

theorem addOne_data (H : PyHash) (dm : DecMem) (c : Chunk) (t : TimeArg) :
    (dm.addOne H c t).data = cdSet H c ((cdLook H c dm.data).getD [] ++ t.traces) dm.data := by
  simp only [DecMem.addOne, DecMem.setDefault]
  cases h : cdLook H c dm.data with
  | none => simp [setRaw_data, cdSet_cdSet]
  | some l => simp [setRaw_data]

theorem logTimes_append (c : Chunk) : ∀ (l m : Log) (acc : List ℚ), logTimes c (l ++ m) acc = logTimes c m (logTimes c l acc)
  | [], m, acc => rfl
  | (d, e) :: r, m, acc => by
    simp only [List.cons_append, logTimes]
    split <;> exact logTimes_append c r m _

theorem logTimes_congr {c d : Chunk} (h : chunkContent c = chunkContent d) : ∀ (l : Log) (acc : List ℚ),
    logTimes c l acc = logTimes d l acc
  | [], acc => rfl
  | (e, x) :: r, acc => by
    by_cases h' : chunkContent e = chunkContent c
    · simp [logTimes, h', ← h, logTimes_congr h r]
    · simp [logTimes, h', ← h, logTimes_congr h r]

theorem logTimes_other {c : Chunk} : ∀ (l : Log) (acc : List ℚ), (∀ p ∈ l, chunkContent p.1 ≠ chunkContent c) → logTimes c l acc = acc
  | [], acc, _ => rfl
  | (e, x) :: r, acc, h => by
    have h' : chunkContent e ≠ chunkContent c := h (e, x) (by simp)
    simp only [logTimes, h', if_false]
    exact logTimes_other r acc (fun p hp => h p (by simp [hp]))

theorem firsts_snoc (c : Chunk) : ∀ l : List Chunk,
    ((∃ d ∈ l, chunkContent d = chunkContent c) → firsts (l ++ [c]) = firsts l) ∧
    ((∀ d ∈ l, chunkContent d ≠ chunkContent c) → firsts (l ++ [c]) = firsts l ++ [c])
  | [] => by simp [firsts]
  | e :: r => by
    obtain ⟨h1, h2⟩ := firsts_snoc c r
    constructor
    · rintro ⟨d, hd, hc⟩
      simp only [List.cons_append, firsts]
      by_cases hr : ∃ d ∈ r, chunkContent d = chunkContent c
      · rw [h1 hr]
      · push Not at hr
        have : d = e := by
          rcases List.mem_cons.mp hd with h | h
          · exact h
          · exact absurd hc (hr d h)
        subst this
        rw [h2 hr, List.filter_append]
        simp [hc]
    · intro hn
      simp only [List.cons_append, firsts]
      rw [h2 (fun d hd => hn d (by simp [hd])), List.filter_append]
      have := hn e (by simp)
      simp [Ne.symm this]

theorem mem_firsts {c : Chunk} : ∀ {l : List Chunk}, c ∈ firsts l → c ∈ l
  | [], h => by simp [firsts] at h
  | e :: r, h => by
    simp only [firsts, List.mem_cons, List.mem_filter] at h
    rcases h with rfl | ⟨h, _⟩
    · simp
    · simp [mem_firsts h]

theorem firsts_covers {c : Chunk} : ∀ {l : List Chunk}, c ∈ l → ∃ d ∈ firsts l, chunkContent d = chunkContent c
  | [], h => by simp at h
  | e :: r, h => by
    by_cases he : chunkContent e = chunkContent c
    · exact ⟨e, by simp [firsts], he⟩
    · rcases List.mem_cons.mp h with rfl | h
      · exact absurd rfl he
      · obtain ⟨d, hd, hc⟩ := firsts_covers h
        refine ⟨d, ?_, hc⟩
        simp only [firsts, List.mem_cons, List.mem_filter]
        exact .inr ⟨hd, by simp [hc, Ne.symm he]⟩

/-- A memory agrees with a log. -/
structure Agrees (H : PyHash) (dm : CDict (List ℚ)) (log : Log) : Prop where
  keys : dm.map Prod.fst = firsts (log.map Prod.fst)
  times : ∀ c l, (c, l) ∈ dm → l = logTimes c log []
  distinct : CDict.Distinct H dm

theorem agrees_nil (H : PyHash) : Agrees H [] [] := ⟨by simp [firsts], by simp, by simp [CDict.Distinct]⟩

theorem agrees_look {H : PyHash} (cf : H.CollisionFree) {dm : CDict (List ℚ)} {log : Log} (h : Agrees H dm log)
    (hp : ∀ p ∈ log, Plain p.1) {c : Chunk} (hc : Plain c) :
    (cdLook H c dm).getD [] = logTimes c log [] ∧
    ((cdLook H c dm).isSome = true ↔ ∃ p ∈ log, chunkContent p.1 = chunkContent c) := by
  have plainKey : ∀ d ∈ dm.map Prod.fst, Plain d := by
    intro d hd
    rw [h.keys] at hd
    obtain ⟨p, hp', rfl⟩ := List.mem_map.mp (mem_firsts hd)
    exact hp p hp'
  have hs : (cdLook H c dm).isSome = true ↔ ∃ p ∈ log, chunkContent p.1 = chunkContent c := by
    rw [cdLook_isSome]
    constructor
    · rintro ⟨d, hd, he⟩
      have he' := (ceq_content cf (plainKey d hd) hc).mp he
      rw [h.keys] at hd
      obtain ⟨p, hp', rfl⟩ := List.mem_map.mp (mem_firsts hd)
      exact ⟨p, hp', he'⟩
    · rintro ⟨p, hp', he⟩
      obtain ⟨d, hd, hdc⟩ := firsts_covers (List.mem_map_of_mem (f := Prod.fst) hp')
      rw [← h.keys] at hd
      exact ⟨d, hd, (ceq_content cf (plainKey d hd) hc).mpr (hdc.trans he)⟩
  refine ⟨?_, hs⟩
  cases hl : cdLook H c dm with
  | none =>
    rw [hl] at hs
    simp only [Option.isSome_none, Bool.false_eq_true, false_iff, not_exists, not_and] at hs
    rw [logTimes_other _ _ (fun p hp' => hs p hp')]; rfl
  | some l =>
    obtain ⟨d, hd, he⟩ := cdLook_mem hl
    have hdk : d ∈ dm.map Prod.fst := List.mem_map_of_mem (f := Prod.fst) hd
    have he' := (ceq_content cf (plainKey d hdk) hc).mp he
    rw [Option.getD_some, h.times d l hd, logTimes_congr he']

/-- One more entry. -/
theorem agrees_snoc {H : PyHash} (cf : H.CollisionFree) {dm : CDict (List ℚ)} {log : Log} (h : Agrees H dm log)
    (hp : ∀ p ∈ log, Plain p.1) {c : Chunk} (hc : Plain c) (e : Ev) :
    Agrees H (cdSet H c (e.apply ((cdLook H c dm).getD [])) dm) (log ++ [(c, e)]) := by
  obtain ⟨h1, h2⟩ := agrees_look cf h hp hc
  have plainKey : ∀ d ∈ dm.map Prod.fst, Plain d := by
    intro d hd
    rw [h.keys] at hd
    obtain ⟨p, hp', rfl⟩ := List.mem_map.mp (mem_firsts hd)
    exact hp p hp'
  refine ⟨?_, ?_, cdSet_distinct h.distinct⟩
  · rw [cdSet_keys, List.map_append, h.keys]
    by_cases hs : (cdLook H c dm).isSome = true
    · rw [if_pos hs]
      obtain ⟨p, hp', he⟩ := h2.mp hs
      exact ((firsts_snoc c _).1 ⟨p.1, List.mem_map_of_mem hp', he⟩).symm
    · rw [if_neg hs]
      refine ((firsts_snoc c _).2 ?_).symm
      intro d hd he
      obtain ⟨p, hp', rfl⟩ := List.mem_map.mp hd
      exact hs (h2.mpr ⟨p, hp', he⟩)
  · intro d l hm
    rw [logTimes_append]
    simp only [logTimes]
    have hpd : Plain d := by
      have hm' : d ∈ (cdSet H c (e.apply ((cdLook H c dm).getD [])) dm).map Prod.fst := List.mem_map_of_mem (f := Prod.fst) hm
      rw [cdSet_keys] at hm'
      split at hm'
      · exact plainKey d hm'
      · rcases List.mem_append.mp hm' with h | h
        · exact plainKey d h
        · rw [List.mem_singleton.mp h]; exact hc
    have hlook := cdLook_of_mem (cdSet_distinct h.distinct) hm
    rw [cdLook_cdSet] at hlook
    by_cases he : ceq H c d = true
    · rw [if_pos he] at hlook
      have hcd := (ceq_content cf hc hpd).mp he
      rw [if_pos hcd, ← logTimes_congr hcd, ← h1]
      exact (Option.some.inj hlook).symm
    · rw [if_neg he] at hlook
      have hcd : chunkContent c ≠ chunkContent d := fun h' => he ((ceq_content cf hc hpd).mpr h')
      rw [if_neg hcd]
      have := (agrees_look cf h hp hpd).1
      rw [hlook] at this
      exact this

end Verif
