import Verif.Spec.Copy
import Verif.Lemmas.DecMem
/-! Lemmas about buffers as objects: no two buffers have the same set, and methods do to the content what they do to a buffer alone. -/
namespace Verif
open Verif.Spec

/-- No two buffers have the same set, all sets are there, and no memory has a key twice. -/
structure OwnSets (H : PyHash) (h : Heap) : Prop where
  lt : ∀ (i : ℕ) (b : HBuf), h.bufs[i]? = some b → b.set < h.sets.length
  inj : ∀ (i k : ℕ) (b d : HBuf), h.bufs[i]? = some b → h.bufs[k]? = some d → b.set = d.set → i = k
  keys : ∀ m ∈ h.mems, CDict.Distinct H m.data

theorem getD_set_self {α : Type} {l : List α} {i : ℕ} (hi : i < l.length) (a d : α) : (l.set i a).getD i d = a := by
  simp [List.getD_eq_getElem?_getD, List.getElem?_set, hi]

theorem getD_set_ne {α : Type} {l : List α} {i k : ℕ} (hk : i ≠ k) (a d : α) : (l.set i a).getD k d = l.getD k d := by
  simp [List.getD_eq_getElem?_getD, List.getElem?_set, hk]

theorem getD_snoc {α : Type} (l : List α) (a d : α) : (l ++ [a]).getD l.length d = a := by
  simp [List.getD_eq_getElem?_getD]

theorem getD_append {α : Type} {l : List α} {k : ℕ} (hk : k < l.length) (m : List α) (d : α) : (l ++ m).getD k d = l.getD k d := by
  simp [List.getD_eq_getElem?_getD, List.getElem?_append_left hk]

/-! ## Memories -/

theorem cdDel_sub {α : Type} {H : PyHash} (c : Chunk) : ∀ l : CDict α, (cdDel H c l).Sublist l
  | [] => .slnil
  | (e, x) :: r => by
    simp only [cdDel]
    split
    · exact List.sublist_cons_self _ _
    · exact (cdDel_sub c r).cons₂ _

theorem addOne_distinct {H : PyHash} {dm : DecMem} {c : Chunk} {t : TimeArg} (h : CDict.Distinct H dm.data) :
    CDict.Distinct H (dm.addOne H c t).data := by
  rw [addOne_data]; exact cdSet_distinct h

theorem mstep_distinct {H : PyHash} {dm : DecMem} (o : MOp) (h : CDict.Distinct H dm.data) :
    CDict.Distinct H (dm.mstep H o).1.data := by
  cases o with
  | op o =>
    cases o with
    | add e t =>
      cases e with
      | chunk c => exact addOne_distinct h
      | iter b l =>
        cases b with
        | true => exact h
        | false =>
          show CDict.Distinct H (l.foldl (fun dm c => dm.addOne H c t) dm).data
          induction l generalizing dm with
          | nil => exact h
          | cons c r ih => exact ih (addOne_distinct h)
    | set c t => exact cdSet_distinct h
  | del c =>
    simp only [DecMem.mstep, DecMem.del]
    split
    · exact List.Pairwise.sublist (cdDel_sub c _) h
    · exact h
  | activate c a =>
    simp only [DecMem.mstep, DecMem.addActivation]
    split <;> exact h
  | count u r => exact h

theorem cdLook_none {α : Type} {H : PyHash} {c : Chunk} {l : CDict α} (h : ∀ p ∈ l, ceq H p.1 c = false) : cdLook H c l = Option.none := by
  rw [← Option.not_isSome_iff_eq_none, cdLook_isSome]
  rintro ⟨d, hd, hc⟩
  obtain ⟨p, hp, rfl⟩ := List.mem_map.mp hd
  rw [h p hp] at hc; cases hc

theorem ofMapping_data {H : PyHash} : ∀ (l : CDict (List ℚ)) (dm : DecMem), CDict.Distinct H (dm.data ++ l) →
    ((l.map (fun p => (p.1, TimeArg.many p.2))).foldl (fun dm p => dm.setItem H p.1 p.2) dm).data = dm.data ++ l
  | [], dm, _ => by simp
  | (c, ts) :: r, dm, h => by
    have h1 : (dm.setItem H c (.many ts)).data = dm.data ++ [(c, ts)] :=
      cdSet_new (cdLook_none (fun p hp => (List.pairwise_append.mp h).2.2 p hp (c, ts) (by simp)))
    have h2 : dm.data ++ (c, ts) :: r = (dm.setItem H c (.many ts)).data ++ r := by rw [h1]; simp
    simp only [List.map_cons, List.foldl_cons]
    rw [ofMapping_data r _ (by rw [← h2]; exact h), ← h2]

theorem copy_eq {H : PyHash} {dm : DecMem} (h : CDict.Distinct H dm.data) : dm.copy H = dm := by
  have := ofMapping_data dm.data DecMem.empty (by simpa [DecMem.empty] using h)
  simp only [DecMem.copy, DecMem.ofMapping]
  cases dm with
  | mk d u r a => simp only [DecMem.mk.injEq, and_true] at *; rw [this]; simp [DecMem.empty]

theorem harvest_distinct {P : Py} {st : BState} {i : ℕ} {c : Chunk} {t : ℚ} (h : ∀ m ∈ st.mems, CDict.Distinct P.H m.data) :
    ∀ m ∈ (st.harvest P i c t).mems, CDict.Distinct P.H m.data := by
  intro m hm
  simp only [BState.harvest] at hm
  obtain ⟨k, hk, rfl⟩ := List.mem_iff_getElem.mp hm
  rw [List.getElem_modify]
  split
  · exact addOne_distinct (h _ (List.getElem_mem _))
  · exact h _ (List.getElem_mem _)

theorem clear_distinct {P : Py} {k : BufKind} {st : BState} {t : ℚ} {hv : Option ℕ} (h : ∀ m ∈ st.mems, CDict.Distinct P.H m.data) :
    ∀ m ∈ (st.clear P k t hv).1.mems, CDict.Distinct P.H m.data := by
  unfold BState.clear
  split
  · exact h
  split
  · exact h
  split
  · exact h
  · exact harvest_distinct h

theorem modify_mems_eq {P : Py} {st : BState} {o : Chunk} {bv : BV} : (st.modify P o bv).1.mems = st.mems := by
  unfold BState.modify
  split
  · rfl
  split
  · rfl
  split <;> rfl

theorem bufferAdd_same {st : BState} {e : Option Chunk} : (st.bufferAdd e).1.mems = st.mems ∧ (st.bufferAdd e).1.dm = st.dm := by
  cases e <;> exact ⟨rfl, rfl⟩

theorem pop_mems {P : Py} {st : BState} : (st.pop P).1.mems = st.mems := by
  unfold BState.pop; split <;> rfl

/-- Clearing reaches no memory but the one of the buffer. -/
theorem clear_frame {P : Py} {k : BufKind} {st : BState} {t : ℚ} {j : ℕ} (h : st.dm ≠ some j) :
    (st.clear P k t Option.none).1.mems[j]? = st.mems[j]? := by
  unfold BState.clear
  split
  · rfl
  split
  · rfl
  split
  · rfl
  · rename_i i hi
    have : i ≠ j := by
      rintro rfl; apply h; revert hi
      split <;> simp
    simp [BState.harvest, List.getElem?_modify, this]

theorem clear_len {P : Py} {k : BufKind} {st : BState} {t : ℚ} {hv : Option ℕ} : (st.clear P k t hv).1.mems.length = st.mems.length := by
  unfold BState.clear
  split
  · rfl
  split
  · rfl
  split
  · rfl
  · simp [BState.harvest]

/-! ## Methods of one buffer -/

/-- The call as one on a buffer alone. -/
def HBufOp.plain : HBufOp → Option BufOp
  | .add e t => some (.add e t Option.none)
  | .clear t => some (.clear t Option.none)
  | .modify o bv => some (.modify o bv)
  | .create o bv => some (.create o bv Option.none)
  | .discard c => some (.discard c)
  | .pop => some .pop
  | .tune .. => Option.none

/-- What a call does to a buffer alone. -/
def aloneStep (P : Py) (k : BufKind) (st : BState) (o : HBufOp) : BResult :=
  match o.plain with
  | some q => st.step P k q
  | Option.none => (st, .ok ())

/-- The buffers after a call: the others are as before, this one has its class and memory; its set is the old one or a new one. -/
structure Moved (P : Py) (h : Heap) (i : ℕ) (b : HBuf) (o : HBufOp) (r : HResult) : Prop where
  others : ∀ k, k ≠ i → r.1.bufs[k]? = h.bufs[k]?
  sets : ∀ n, n < h.sets.length → n ≠ b.set → n < r.1.sets.length ∧ r.1.sets.getD n [] = h.sets.getD n []
  mine : ∃ d, r.1.bufs[i]? = some d ∧ d.retr = b.retr ∧ d.dm = b.dm ∧ (d.set = b.set ∨ h.sets.length ≤ d.set) ∧ d.set < r.1.sets.length ∧
    r.1.view d = (aloneStep P b.kind (h.view b) o).1
  result : r.2 = (aloneStep P b.kind (h.view b) o).2
  len : r.1.bufs.length = h.bufs.length

theorem kind_goal {b : HBuf} (h : b.retr = false) : b.kind = .goal := by simp [HBuf.kind, h]
theorem kind_retr {b : HBuf} (h : b.retr = true) : b.kind = .retrieval := by simp [HBuf.kind, h]

theorem bstate_mk {r : BState} {d : Option ℕ} (h : r.dm = d) : (⟨r.reg, r.data, d, r.mems⟩ : BState) = r := by
  subst h; rfl

theorem moved_inPlace {P : Py} {h : Heap} {i : ℕ} {b : HBuf} {o : HBufOp} (hb : h.bufs[i]? = some b) (hlt : b.set < h.sets.length)
    (hd : (aloneStep P b.kind (h.view b) o).1.dm = b.dm) : Moved P h i b o (h.inPlace b (aloneStep P b.kind (h.view b) o)) where
  others _ _ := rfl
  sets n hn hne := ⟨by simpa [Heap.inPlace] using hn, getD_set_ne (Ne.symm hne) _ _⟩
  mine := by
    refine ⟨b, hb, rfl, rfl, .inl rfl, by simpa [Heap.inPlace] using hlt, ?_⟩
    generalize aloneStep P b.kind (h.view b) o = r at hd ⊢
    simp only [Heap.view, Heap.inPlace, getD_set_self hlt]
    exact bstate_mk hd
  result := rfl
  len := rfl

theorem moved_fresh {P : Py} {h : Heap} {i : ℕ} {b : HBuf} {o : HBufOp} (hb : h.bufs[i]? = some b)
    (hd : (aloneStep P b.kind (h.view b) o).1.dm = b.dm) : Moved P h i b o (h.fresh i b (aloneStep P b.kind (h.view b) o)) where
  others k hk := by simp [Heap.fresh, List.getElem?_set, Ne.symm hk]
  sets n hn hne := ⟨by simp [Heap.fresh]; omega, getD_append hn _ _⟩
  mine := by
    have hi : i < h.bufs.length := (List.getElem?_eq_some_iff.mp hb).1
    refine ⟨{ b with set := h.sets.length }, by simp [Heap.fresh, hi], rfl, rfl, .inr le_rfl, by simp [Heap.fresh], ?_⟩
    generalize aloneStep P b.kind (h.view b) o = r at hd ⊢
    simp only [Heap.view, Heap.fresh, getD_snoc]
    exact bstate_mk hd
  result := rfl
  len := by simp [Heap.fresh]

theorem modify_dm {P : Py} {st : BState} {o : Chunk} {bv : BV} : (st.modify P o bv).1.dm = st.dm := by
  unfold BState.modify
  split
  · rfl
  split
  · rfl
  split <;> rfl

theorem clear_dm {P : Py} {k : BufKind} {st : BState} {t : ℚ} {hv : Option ℕ} : (st.clear P k t hv).1.dm = st.dm := by
  unfold BState.clear
  split
  · rfl
  split
  · rfl
  split <;> rfl

theorem pop_dm {P : Py} {st : BState} : (st.pop P).1.dm = st.dm := by
  unfold BState.pop; split <;> rfl

theorem moved_add {P : Py} {h : Heap} {i : ℕ} {b : HBuf} {e : Option Chunk} {t : ℚ} (hb : h.bufs[i]? = some b)
    (hlt : b.set < h.sets.length) : Moved P h i b (.add e t) (h.add P i b e t) := by
  by_cases hr : b.retr = true
  · have hk := kind_retr hr
    have ha : aloneStep P b.kind (h.view b) (.add e t) = (match (h.view b).clear P .retrieval t Option.none with
        | (st', .ok _) => st'.bufferAdd e | (st', .error x) => (st', .error x)) := by
      rw [hk]; rfl
    unfold Heap.add
    rw [if_pos hr]
    have hdm := clear_dm (P := P) (k := .retrieval) (st := h.view b) (t := t) (hv := Option.none)
    rcases hc : (h.view b).clear P .retrieval t Option.none with ⟨st, _ | u⟩
    · rename_i x
      rw [hc] at ha hdm
      dsimp only at ha hdm ⊢
      rw [← ha]
      exact moved_inPlace hb hlt (by rw [ha]; exact hdm)
    · rw [hc] at ha hdm
      dsimp only at ha hdm ⊢
      have hi : i < h.bufs.length := (List.getElem?_eq_some_iff.mp hb).1
      rw [← ha]
      refine ⟨fun k hk => ?_, fun n hn hne => ?_, ⟨{ b with set := h.sets.length }, ?_, rfl, rfl, .inr le_rfl, ?_, ?_⟩, rfl, ?_⟩
      · simp [Heap.fresh, Heap.inPlace, List.getElem?_set, Ne.symm hk]
      · refine ⟨by simp [Heap.fresh, Heap.inPlace]; omega, ?_⟩
        simp only [Heap.fresh, Heap.inPlace]
        rw [getD_append (by simpa using hn), getD_set_ne (Ne.symm hne)]
      · simp [Heap.fresh, Heap.inPlace, hi]
      · simp [Heap.fresh, Heap.inPlace]
      · have hdd : (aloneStep P b.kind (h.view b) (.add e t)).1.dm = b.dm := by
          rw [ha, bufferAdd_same.2, hdm]; rfl
        generalize aloneStep P b.kind (h.view b) (.add e t) = r at hdd ⊢
        simp only [Heap.view, Heap.fresh, Heap.inPlace]
        have := getD_snoc (h.sets.set b.set st.data) r.1.data []
        rw [List.length_set] at this
        rw [this]
        exact bstate_mk hdd
      · simp [Heap.fresh, Heap.inPlace]
  · have hr' : b.retr = false := by simpa using hr
    have ha : aloneStep P b.kind (h.view b) (.add e t) = (h.view b).bufferAdd e := by rw [kind_goal hr']; rfl
    unfold Heap.add
    rw [if_neg hr, ← ha]
    exact moved_fresh hb (by rw [ha]; exact bufferAdd_same.2)

theorem moved_step {P : Py} {h : Heap} {i : ℕ} {b : HBuf} (hb : h.bufs[i]? = some b) (hlt : b.set < h.sets.length) (o : HBufOp) :
    Moved P h i b o (h.bufStep P i b o) := by
  cases o with
  | add e t => exact moved_add hb hlt
  | clear t => exact moved_inPlace (o := .clear t) hb hlt clear_dm
  | modify o bv => exact moved_inPlace (o := .modify o bv) hb hlt modify_dm
  | discard c => exact moved_inPlace (o := .discard c) hb hlt rfl
  | pop => exact moved_inPlace (o := .pop) hb hlt pop_dm
  | tune d f r a =>
    have hi : i < h.bufs.length := (List.getElem?_eq_some_iff.mp hb).1
    exact ⟨fun k hk => by simp [Heap.bufStep, List.getElem?_set, Ne.symm hk], fun n hn _ => ⟨hn, rfl⟩,
      ⟨{ b with delay := d, finst := f, recent := r, activation := a }, by simp [Heap.bufStep, hi], rfl, rfl, .inl rfl, hlt, rfl⟩, rfl,
      by simp [Heap.bufStep]⟩
  | create o bv =>
    have same : ∀ (reg : Reg) (x : PyErr), aloneStep P b.kind (h.view b) (.create o bv) = ({ h.view b with reg := reg }, .error x) →
        Moved P h i b (.create o bv) ({ h with reg := reg }, .error x) := by
      intro reg x hx
      exact ⟨fun _ _ => rfl, fun n hn _ => ⟨hn, rfl⟩, ⟨b, hb, rfl, rfl, .inl rfl, hlt, by rw [hx]; rfl⟩, by rw [hx], rfl⟩
    simp only [Heap.bufStep, Heap.create]
    by_cases hr : b.retr = true
    · rw [if_pos hr]
      exact same h.reg _ (by rw [kind_retr hr]; rfl)
    · rw [if_neg hr]
      have hk := kind_goal (by simpa using hr : b.retr = false)
      have ha : aloneStep P b.kind (h.view b) (.create o bv) = (h.view b).create P o bv Option.none := by rw [hk]; rfl
      rw [BState.create] at ha
      cases hm : resolveAll P bv true (removeUnused P.H o) with
      | error x => rw [hm] at ha; exact same h.reg x ha
      | ok mods =>
        rw [hm] at ha
        dsimp only at ha ⊢
        rcases hc : createChunk P.toPyEnv h.reg o.typ (mods.map (fun p => (p.1, SlotArg.vv p.2))) with ⟨reg', _ | c⟩
        · rename_i x
          have : (h.view b).reg = h.reg := rfl
          rw [this, hc] at ha
          rw [hc]
          exact same reg' x ha
        · have : (h.view b).reg = h.reg := rfl
          rw [this, hc] at ha
          rw [hc]
          dsimp only at ha ⊢
          have m := moved_add (P := P) (h := { h with reg := reg' }) (e := some c) (t := 0) hb hlt
          have e : aloneStep P b.kind (({ h with reg := reg' } : Heap).view b) (.add (some c) 0) = aloneStep P b.kind (h.view b) (.create o bv) := by
            rw [ha, hk]; rfl
          exact ⟨m.others, m.sets, by rw [← e]; exact m.mine, by rw [← e]; exact m.result, m.len⟩

theorem alone_distinct {P : Py} {k : BufKind} {st : BState} (o : HBufOp) (h : ∀ m ∈ st.mems, CDict.Distinct P.H m.data) :
    ∀ m ∈ (aloneStep P k st o).1.mems, CDict.Distinct P.H m.data := by
  have hadd : ∀ (k : BufKind) (st : BState) e t hv, (∀ m ∈ st.mems, CDict.Distinct P.H m.data) →
      ∀ m ∈ (st.add P k e t hv).1.mems, CDict.Distinct P.H m.data := by
    intro k st e t hv h
    unfold BState.add
    have hcl : ∀ k, ∀ m ∈ (match st.clear P k t hv with
        | (st', .ok _) => st'.bufferAdd e | (st', .error x) => (st', .error x)).1.mems, CDict.Distinct P.H m.data := by
      intro k
      have := clear_distinct (k := k) (t := t) (hv := hv) h
      rcases hc : st.clear P k t hv with ⟨st', _ | u⟩
      · rw [hc] at this; exact this
      · rw [hc] at this; dsimp only; rw [bufferAdd_same.1]; exact this
    cases k with
    | goal => rw [bufferAdd_same.1]; exact h
    | motor => exact h
    | retrieval => exact hcl _
    | visual => exact hcl _
  cases o with
  | add e t => exact hadd k st e t _ h
  | clear t => exact clear_distinct h
  | modify o bv =>
    show ∀ m ∈ (st.modify P o bv).1.mems, _
    rw [modify_mems_eq]; exact h
  | discard c => exact h
  | pop =>
    show ∀ m ∈ (st.pop P).1.mems, _
    rw [pop_mems]; exact h
  | tune => exact h
  | create o bv =>
    show ∀ m ∈ (if k = .goal then st.create P o bv Option.none else (st, .error .attribute)).1.mems, _
    split
    · unfold BState.create
      split
      · exact h
      split
      · exact h
      · exact hadd _ _ _ _ _ h
    · exact h

/-- No method reaches a memory that is not the one of the buffer. -/
theorem alone_frame {P : Py} {b : HBuf} {st : BState} {j : ℕ} (o : HBufOp) (h : st.dm ≠ some j) :
    (aloneStep P b.kind st o).1.mems[j]? = st.mems[j]? := by
  cases hb : b.retr with
  | false =>
    rw [kind_goal hb]
    cases o with
    | add e t => show (st.bufferAdd e).1.mems[j]? = _; rw [bufferAdd_same.1]
    | clear t => exact clear_frame h
    | modify o bv => show (st.modify P o bv).1.mems[j]? = _; rw [modify_mems_eq]
    | discard c => rfl
    | pop => show (st.pop P).1.mems[j]? = _; rw [pop_mems]
    | tune => rfl
    | create o bv =>
      show (st.create P o bv Option.none).1.mems[j]? = _
      unfold BState.create
      split
      · rfl
      split
      · rfl
      · show (BState.bufferAdd _ _).1.mems[j]? = _
        rw [bufferAdd_same.1]
  | true =>
    rw [kind_retr hb]
    cases o with
    | add e t =>
      show (match st.clear P .retrieval t Option.none with
        | (st', .ok _) => st'.bufferAdd e | (st', .error x) => (st', .error x)).1.mems[j]? = _
      have := clear_frame (P := P) (k := .retrieval) (t := t) h
      rcases hc : st.clear P .retrieval t Option.none with ⟨st', _ | u⟩
      · rw [hc] at this; exact this
      · rw [hc] at this; dsimp only; rw [bufferAdd_same.1]; exact this
    | clear t => exact clear_frame h
    | modify o bv => show (st.modify P o bv).1.mems[j]? = _; rw [modify_mems_eq]
    | discard c => rfl
    | pop => show (st.pop P).1.mems[j]? = _; rw [pop_mems]
    | tune => rfl
    | create o bv => rfl

/-! ## Any program -/

theorem own_buf {P : Py} {h : Heap} {i : ℕ} {b : HBuf} {o : HBufOp} {r : HResult} (A : OwnSets P.H h) (hb : h.bufs[i]? = some b)
    (m : Moved P h i b o r) : OwnSets P.H r.1 := by
  obtain ⟨d, hd, _, _, hs, hlt, hv⟩ := m.mine
  have old : ∀ (k : ℕ) (e : HBuf), k ≠ i → r.1.bufs[k]? = some e → h.bufs[k]? = some e := fun k e hk he => by rw [← m.others k hk]; exact he
  have apart : ∀ (k : ℕ) (e : HBuf), k ≠ i → r.1.bufs[k]? = some e → e.set ≠ d.set := by
    intro k e hk he hse
    have he' := old k e hk he
    rcases hs with hs | hs
    · exact hk (A.inj k i e b he' hb (hse.trans hs))
    · have := A.lt k e he'; omega
  refine ⟨fun k e he => ?_, fun k l e f he hf hef => ?_, ?_⟩
  · by_cases hk : k = i
    · subst hk; rw [hd] at he; cases he; exact hlt
    · have he' := old k e hk he
      exact (m.sets e.set (A.lt k e he') (fun hn => hk (A.inj k i e b he' hb hn))).1
  · by_cases hk : k = i
    · by_cases hl : l = i
      · rw [hk, hl]
      · subst hk; rw [hd] at he; cases he
        exact absurd hef.symm (apart l f hl hf)
    · by_cases hl : l = i
      · subst hl; rw [hd] at hf; cases hf
        exact absurd hef (apart k e hk he)
      · exact A.inj k l e f (old k e hk he) (old l f hl hf) hef
  · have : r.1.mems = (r.1.view d).mems := rfl
    rw [this, hv]
    exact alone_distinct o A.keys

theorem own_snoc {H : PyHash} {h : Heap} (A : OwnSets H h) (c : List Chunk) (b : HBuf) (hb : b.set = h.sets.length) :
    OwnSets H { h with sets := h.sets ++ [c], bufs := h.bufs ++ [b] } := by
  have cases' : ∀ (i : ℕ) (e : HBuf), (h.bufs ++ [b])[i]? = some e → (h.bufs[i]? = some e ∧ e.set < h.sets.length) ∨ (i = h.bufs.length ∧ e = b) := by
    intro i e he
    rcases Nat.lt_trichotomy i h.bufs.length with hi | hi | hi
    · rw [List.getElem?_append_left hi] at he; exact .inl ⟨he, A.lt i e he⟩
    · subst hi; simp at he; exact .inr ⟨rfl, he.symm⟩
    · rw [List.getElem?_eq_none (by simp; omega)] at he; cases he
  refine ⟨fun i e he => ?_, fun i k e f he hf hef => ?_, A.keys⟩
  · rcases cases' i e he with ⟨_, h1⟩ | ⟨_, rfl⟩
    · simp; omega
    · simp [hb]
  · rcases cases' i e he with ⟨h1, h2⟩ | ⟨h1, rfl⟩ <;> rcases cases' k f hf with ⟨h3, h4⟩ | ⟨h3, rfl⟩
    · exact A.inj i k e f h1 h3 hef
    · omega
    · omega
    · rw [h1, h3]

theorem own_step {P : Py} {h : Heap} (A : OwnSets P.H h) (o : HOp) : OwnSets P.H (h.step P o) := by
  cases o with
  | newMem =>
    refine ⟨A.lt, A.inj, fun m hm => ?_⟩
    rcases List.mem_append.mp hm with hm | hm
    · exact A.keys m hm
    · rw [List.mem_singleton.mp hm]; exact List.Pairwise.nil
  | copyMem j =>
    simp only [Heap.step]
    cases hj : h.mems[j]? with
    | none => exact A
    | some m =>
      refine ⟨A.lt, A.inj, fun d hd => ?_⟩
      have hm := A.keys m (List.mem_of_getElem? hj)
      rcases List.mem_append.mp hd with hd | hd
      · exact A.keys d hd
      · rw [List.mem_singleton.mp hd, copy_eq hm]; exact hm
  | mem j o =>
    refine ⟨A.lt, A.inj, fun d hd => ?_⟩
    obtain ⟨k, hk, rfl⟩ := List.mem_iff_getElem.mp hd
    simp only [Heap.step, List.getElem_modify]
    split
    · exact mstep_distinct o (A.keys _ (List.getElem_mem _))
    · exact A.keys _ (List.getElem_mem _)
  | newBuf r dm => exact own_snoc A [] _ rfl
  | copyBuf i dm =>
    simp only [Heap.step]
    cases hb : h.bufs[i]? with
    | none => exact A
    | some b => exact own_snoc A _ _ rfl
  | buf i o =>
    simp only [Heap.step]
    cases hb : h.bufs[i]? with
    | none => exact A
    | some b => exact own_buf A hb (moved_step hb (A.lt i b hb) o)
  | setDm i dm =>
    simp only [Heap.step]
    cases hb : h.bufs[i]? with
    | none => exact A
    | some b =>
      have hi : i < h.bufs.length := (List.getElem?_eq_some_iff.mp hb).1
      have old : ∀ (k : ℕ) (e : HBuf), (h.bufs.set i { b with dm := dm })[k]? = some e → ∃ e', h.bufs[k]? = some e' ∧ e'.set = e.set := by
        intro k e he
        rw [List.getElem?_set] at he
        by_cases hk : i = k
        · subst hk; simp [hi] at he; exact ⟨b, hb, by rw [← he]⟩
        · simp [hk] at he; exact ⟨e, he, rfl⟩
      refine ⟨fun k e he => ?_, fun k l e f he hf hef => ?_, A.keys⟩
      · obtain ⟨e', h1, h2⟩ := old k e he; rw [← h2]; exact A.lt k e' h1
      · obtain ⟨e', h1, h2⟩ := old k e he
        obtain ⟨f', h3, h4⟩ := old l f hf
        exact A.inj k l e' f' h1 h3 (by rw [h2, h4, hef])

theorem own_run {P : Py} : ∀ (ops : List HOp) {h : Heap}, OwnSets P.H h → OwnSets P.H (h.run P ops)
  | [], _, A => A
  | o :: r, _, A => own_run r (own_step A o)

theorem own_init {H : PyHash} (reg : Reg) : OwnSets H (Heap.init reg) :=
  ⟨by simp [Heap.init], by simp [Heap.init], by simp [Heap.init]⟩

end Verif
