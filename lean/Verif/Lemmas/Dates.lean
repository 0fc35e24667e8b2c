import Verif.Lemmas.Solvent
import Verif.Spec.Dates
/-! # When something is put into memory: the processes -/
namespace Verif
open Verif.Spec

variable {A B : Type} {C : Cfg} {L T : ℚ} {w w' : Mach} {n : String}

/-! ## Memories -/

theorem cdSet_pairs {α : Type} {H : PyHash} {c x : Chunk} {a y : α} : ∀ {d : CDict α}, (x, y) ∈ cdSet H c a d → (x, y) ∈ d ∨ y = a
  | [], h => by
    rcases List.mem_singleton.1 h with h
    cases h; exact .inr rfl
  | (d, b) :: r, h => by
    unfold cdSet at h
    split at h
    · rcases List.mem_cons.1 h with h | h
      · cases h; exact .inr rfl
      · exact .inl (.tail _ h)
    · rcases List.mem_cons.1 h with h | h
      · cases h; exact .inl (.head _)
      · exact (cdSet_pairs h).imp (.tail _) id

theorem cdLook_pairs {α : Type} {H : PyHash} {c : Chunk} {a : α} : ∀ {d : CDict α}, cdLook H c d = some a → ∃ x, (x, a) ∈ d
  | [], h => by cases h
  | (d, b) :: r, h => by
    unfold cdLook at h
    split at h
    · cases h; exact ⟨d, .head _⟩
    · obtain ⟨x, hx⟩ := cdLook_pairs h
      exact ⟨x, .tail _ hx⟩

/-- What is added to a memory has the rounded time. -/
theorem addOne_traces {H : PyHash} {m : DecMem} {c : Chunk} {t : ℚ} {x : Chunk} {l : List ℚ} {q : ℚ} (h : (x, l) ∈ (m.addOne H c (.one t)).data) (hq : q ∈ l) :
    (∃ x' l', (x', l') ∈ m.data ∧ q ∈ l') ∨ q = round4 t := by
  have key : ∀ (d : CDict (List ℚ)) (old : List ℚ), (∀ x' l', (x', l') ∈ d → (x', l') ∈ m.data ∨ l' = []) → (∀ r ∈ old, ∃ x' l', (x', l') ∈ m.data ∧ r ∈ l') →
      (x, l) ∈ cdSet H c (old ++ [round4 t]) d → (∃ x' l', (x', l') ∈ m.data ∧ q ∈ l') ∨ q = round4 t := by
    intro d old h1 h2 h3
    rcases cdSet_pairs h3 with h3 | h3
    · rcases h1 _ _ h3 with h3 | h3
      · exact .inl ⟨_, _, h3, hq⟩
      · subst h3; cases hq
    · subst h3
      rcases List.mem_append.1 hq with hq | hq
      · exact .inl (h2 q hq)
      · exact .inr (List.mem_singleton.1 hq)
  unfold DecMem.addOne DecMem.setDefault at h
  cases hl : cdLook H c m.data with
  | some old =>
    rw [hl] at h
    obtain ⟨x', hx'⟩ := cdLook_pairs hl
    exact key m.data old (fun _ _ h => .inl h) (fun r hr => ⟨x', old, hx', hr⟩) h
  | none =>
    rw [hl] at h
    exact key _ [] (fun x' l' h => cdSet_pairs h) (fun r hr => by cases hr) h

/-- The times in the memories are among those before, or at most `B`. -/
def NewBy (B : ℚ) (l l' : List DecMem) : Prop := ∀ m' ∈ l', ∀ x s, (x, s) ∈ m'.data → ∀ q ∈ s, (∃ m ∈ l, ∃ x s, (x, s) ∈ m.data ∧ q ∈ s) ∨ q ≤ B

variable {D : ℚ} {P : Py} {st : BState} {l l' : List DecMem}

theorem newBy_refl : NewBy D l l := fun m hm x s hx _ hq => .inl ⟨m, hm, x, s, hx, hq⟩
theorem newBy_eq (h : l' = l) : NewBy D l l' := h ▸ newBy_refl

theorem newBy_harvest {i : ℕ} {c : Chunk} {t : ℚ} (ht : round4 t ≤ D) : NewBy D st.mems (st.harvest P i c t).mems := by
  intro m' hm' x s hx q hq
  have hm' : m' ∈ st.mems.modify i (fun m => m.addOne P.H c (.one t)) := hm'
  obtain ⟨j, hj⟩ := List.mem_iff_getElem?.1 hm'
  rw [List.getElem?_modify] at hj
  cases hs : st.mems[j]? with
  | none => rw [hs] at hj; simp at hj
  | some m =>
    rw [hs] at hj
    have hm : m ∈ st.mems := List.mem_iff_getElem?.2 ⟨j, hs⟩
    have hj : (if i = j then m.addOne P.H c (.one t) else m) = m' := by simpa using hj
    split at hj
    · subst hj
      rcases addOne_traces hx hq with ⟨x', l', h1, h2⟩ | h
      · exact .inl ⟨m, hm, x', l', h1, h2⟩
      · exact .inr (h ▸ ht)
    · subst hj; exact .inl ⟨m, hm, x, s, hx, hq⟩

theorem newBy_clear {k : BufKind} {t : ℚ} {hv : Option ℕ} (ht : round4 t ≤ D) : NewBy D st.mems (st.clear P k t hv).1.mems := by
  unfold BState.clear
  split
  · exact newBy_refl
  · split
    · exact newBy_refl
    · split
      · exact newBy_refl
      · exact newBy_harvest (st := { st with data := _ }) ht

theorem bufferAdd_mems (st : BState) (e : Option Chunk) : (st.bufferAdd e).1.mems = st.mems := by cases e <;> rfl

theorem newBy_add {k : BufKind} {e : Option Chunk} {t : ℚ} {hv : Option ℕ} (ht : round4 t ≤ D) : NewBy D st.mems (st.add P k e t hv).1.mems := by
  have h := newBy_clear (P := P) (st := st) (k := k) (hv := hv) ht
  unfold BState.add
  split
  · rw [bufferAdd_mems]; exact newBy_refl
  · exact newBy_refl
  · split
    · rename_i st' _ hst
      rw [hst] at h
      rw [bufferAdd_mems]; exact h
    · rename_i st' _ hst
      rw [hst] at h
      exact h

theorem modify_mems (P : Py) (st : BState) (c : Chunk) (bv : BV) : (st.modify P c bv).1.mems = st.mems := by
  unfold BState.modify
  split
  · rfl
  · split
    · rfl
    · split <;> rfl

theorem create_mems (P : Py) (st : BState) (c : Chunk) (bv : BV) (hv : Option ℕ) : (st.create P c bv hv).1.mems = st.mems := by
  unfold BState.create
  split
  · rfl
  · split
    · rfl
    · exact bufferAdd_mems _ _

/-! ## The machine -/

@[simp] theorem setState_mems (w : Mach) (n : String) (x : Status) : (w.setState n x).mems = w.mems := upd_mems ..
@[simp] theorem putBst_mems (w : Mach) (n : String) (st : BState) : (w.putBst n st).mems = st.mems := by unfold Mach.putBst; rw [upd_mems]

theorem newBy_onBuf {f : Buf → BState → BResult} (h : ∀ b st, NewBy D st.mems (f b st).1.mems) : NewBy D w.mems (w.onBuf n f).1.mems := by
  unfold Mach.onBuf
  split
  · exact newBy_refl
  · show NewBy D w.mems (w.putBst n _).mems
    rw [putBst_mems]; exact h _ (w.bst _)

theorem onBuf_mems {f : Buf → BState → BResult} (h : ∀ b st, (f b st).1.mems = st.mems) : (w.onBuf n f).1.mems = w.mems := by
  unfold Mach.onBuf
  split
  · rfl
  · show (w.putBst n _).mems = _
    rw [putBst_mems]; exact h _ (w.bst _)

theorem newBy_clearBuf {v : RVal} {t : ℚ} (ht : round4 t ≤ D) : NewBy D w.mems (clearBuf C n v t w).1.mems := by
  have hb : ∀ i, NewBy D w.mems (w.onBuf n (fun b st => st.clear C.P b.cls.kind t (some i))).1.mems := fun i => newBy_onBuf fun _ _ => newBy_clear ht
  have ha : ∀ (b : Buf) (i : ℕ), NewBy D w.mems (if b.cls = .decmem then (w, .error .type)
      else w.onBuf n (fun b st => st.clear C.P b.cls.kind t (some i)) : Mach × Except PyErr Unit).1.mems := by
    intro b i
    split
    · exact newBy_refl
    · exact hb _
  have hn : ∀ (b : Buf), NewBy D w.mems (match alook n w.dms with
      | some i => (if b.cls = .decmem then (w, .error .type)
          else w.onBuf n (fun b st => st.clear C.P b.cls.kind t (some i)))
      | Option.none => (w, .error .actr) : Mach × Except PyErr Unit).1.mems := by
    intro b
    split
    · exact ha _ _
    · exact newBy_refl
  unfold clearBuf
  dsimp only
  split
  · exact newBy_refl
  · rename_i b _
    split
    · exact newBy_refl
    · split
      · rename_i st _ hst
        have := newBy_clear (P := C.P) (st := w.bst b) (k := b.cls.kind) (hv := Option.none) ht
        rw [hst] at this
        show NewBy D w.mems (w.putBst n st).mems
        rw [putBst_mems]; exact this
      · split
        · exact ha _ _
        · split
          · exact hn _
          · split
            · exact hn _
            · exact newBy_refl
          · split
            · exact hn _
            · exact newBy_refl
          · split
            · exact hn _
            · exact newBy_refl

theorem execAll_mems (C : Cfg) (n : String) : ∀ l w, (execAll C n l w).1.mems = w.mems
  | [], w => rfl
  | c :: r, w => by
    simp only [execAll]
    split
    · rfl
    · split
      · rw [execAll_mems C n r]; exact upd_mems ..
      · exact upd_mems ..

theorem modifyBuf_mems (C : Cfg) (n : String) (c : Chunk) (bv : BV) (w : Mach) : (modifyBuf C n c bv w).1.mems = w.mems := by
  unfold modifyBuf
  split
  · rfl
  · have h1 : ∀ bv, (w.onBuf n (fun _ st => st.modify C.P c bv)).1.mems = w.mems := fun bv => onBuf_mems fun _ st => modify_mems _ st _ _
    split
    · have := h1 BV.init
      split
      · rename_i hw; rw [hw] at this; rw [upd_mems]; exact this
      · rename_i hw; rw [hw] at this; exact this
    · exact h1 bv

theorem createIn_mems (C : Cfg) (n : String) (c : Chunk) (bv : BV) (w : Mach) : (createIn C n c bv w).1.mems = w.mems := by
  unfold createIn
  split
  · rfl
  · split
    · rfl
    · split
      · rfl
      · split
        · rfl
        · exact onBuf_mems fun _ st => create_mems _ st _ _ _

theorem firstOf_mems (n : String) (w : Mach) : (firstOf n w).1.mems = w.mems := by
  unfold firstOf
  split
  · split <;> rfl
  · rfl

theorem findIn_mems (C : Cfg) (n : String) (c : Chunk) (bv : BV) (w : Mach) : (findIn C n c bv w).1.mems = w.mems := by
  unfold findIn
  split <;> rfl

theorem newBy_addLocation {c : Chunk} {s : Option Stim} {t : ℚ} (ht : round4 t ≤ D) : NewBy D w.mems (addLocation C n c s t w).1.mems := by
  have h : NewBy D w.mems (w.onBuf n (fun b st => st.add C.P b.cls.kind (some c) t Option.none)).1.mems := newBy_onBuf fun _ _ => newBy_add ht
  unfold addLocation
  split
  · rename_i hw; rw [hw] at h; rw [upd_mems]; exact h
  · rename_i hw; rw [hw] at h; exact h

theorem shiftIn_mems (C : Cfg) (c : Chunk) (bv : BV) (w : Mach) : (shiftIn C c bv w).1.mems = w.mems := by
  unfold shiftIn
  split
  · rfl
  · split
    · rfl
    · split
      · rfl
      · rfl
      · split
        · rfl
        · dsimp only; split <;> rfl

theorem autoBufferLoop_mems (C : Cfg) (data : List Chunk) (cf : ℚ × ℚ) : ∀ (l : List Stim) (w : Mach) (acc : Option (Chunk × ℚ)), (autoBufferLoop C data cf l w acc).1.mems = w.mems
  | [], w, _ => rfl
  | s :: r, w, acc => by
    unfold autoBufferLoop
    split
    · rfl
    · split
      · split
        · rfl
        · exact autoBufferLoop_mems C data cf r w acc
        · split
          · rfl
          · exact autoBufferLoop_mems C data cf r _ _
      · exact autoBufferLoop_mems C data cf r w acc

theorem motorCreateIn_mems (C : Cfg) (c : Chunk) (bv : BV) (w : Mach) : (motorCreateIn C c bv w).1.mems = w.mems := by
  unfold motorCreateIn
  split
  · rfl
  · split <;> rfl

/-! ## Retrieval does not change the traces -/

theorem strengthAssoc_data (H : PyHash) (dm : DecMem) (S : ℝ) (r : String) (only : Bool) (j : Val) (i : Chunk) : (strengthAssoc H dm S r only j i).1.data = dm.data := by
  unfold strengthAssoc
  dsimp only
  split
  · rfl
  · split
    · split
      · split <;> rfl
      · rfl
    · split <;> rfl

theorem spreadFrom_data (H : PyHash) (S : ℝ) (restricted only : Bool) (i : Chunk) : ∀ (l : List (String × Val)) (dm : DecMem) (acc : ℝ), (spreadFrom H S restricted only i l dm acc).1.data = dm.data
  | [], _, _ => rfl
  | p :: r, dm, acc => by
    unfold spreadFrom
    dsimp only
    rw [spreadFrom_data H S restricted only i r, strengthAssoc_data]

theorem spreading_data (H : PyHash) (S : ℝ) (restricted only : Bool) (bufs : List (String × Option Chunk)) (i : Chunk) :
    ∀ (l : List (String × ℝ)) (dm : DecMem) (acc : ℝ), (spreading H S restricted only bufs i l dm acc).1.data = dm.data
  | [], _, _ => rfl
  | (b, W) :: r, dm, acc => by
    unfold spreading
    split
    · rfl
    · exact spreading_data H S restricted only bufs i r dm acc
    · dsimp only
      rw [spreading_data H S restricted only bufs i r, spreadFrom_data]

theorem candidate_data (H : PyHash) (p : RParams) (req : Chunk) (now : ℚ) (bufs : List (String × Option Chunk)) (draw : ℝ) (dm : DecMem) (c : Chunk) (l : List ℚ) :
    (candidateActivation H p req now bufs draw dm c l).1.data = dm.data := by
  unfold candidateActivation
  split
  · rfl
  · split
    · rfl
    · rfl
    · have h := spreading_data H p.S p.restricted p.only bufs c p.weights dm 0
      split
      · rename_i hs; rw [hs] at h; exact h
      · rename_i hs; rw [hs] at h
        split <;> exact h

theorem subLoop_data (H : PyHash) (p : RParams) (req : Chunk) (now : ℚ) (skip : Chunk → Bool) (bufs : List (String × Option Chunk)) (draws : ℕ → ℝ) :
    ∀ (l : List (Chunk × List ℚ)) (k : ℕ) (dm : DecMem) (best : Best), (subLoop H p req now skip bufs draws k l dm best).1.data = dm.data
  | [], _, _, _ => rfl
  | (c, tr) :: r, k, dm, best => by
    unfold subLoop
    split
    · exact subLoop_data H p req now skip bufs draws r _ _ _
    · have h := candidate_data H p req now bufs (draws k) dm c tr
      split
      · rename_i hc; rw [hc] at h; exact h
      · rename_i hc; rw [hc] at h
        rw [subLoop_data H p req now skip bufs draws r]; exact h
      · rename_i hc; rw [hc] at h
        rw [subLoop_data H p req now skip bufs draws r]; exact h

theorem retrieve_data (P : Py) (p : RParams) (st : RBuf) (now : ℚ) (other : Chunk) (bv : BV) (bufs : List (String × Option Chunk)) (want : Option Bool) (draws : ℕ → ℝ) :
    (RBuf.retrieve P p st now other bv bufs want draws).1.dm.data = st.dm.data := by
  unfold RBuf.retrieve
  split
  · rfl
  · dsimp only
    split
    · rename_i reg' req _ _
      have h := subLoop_data P.H p req now (recencySkips P.H st.finst st.recent want) bufs draws st.dm.data 0 st.dm Option.none
      split
      · rename_i hs; rw [hs] at h; exact h
      · rename_i hs; rw [hs] at h; exact h
    · split <;> rfl

theorem newBy_retrieveIn {c : Chunk} {bv : BV} {t : ℚ} : NewBy D w.mems (retrieveIn C n c bv t w).1.mems := by
  unfold retrieveIn
  dsimp only
  split
  · exact newBy_refl
  · rename_i b hb
    split
    · split <;> exact newBy_refl
    · rename_i i m him
      have hm : w.mems[i]? = some m := by
        cases hd : b.dm with
        | none => rw [hd] at him; cases him
        | some j =>
          rw [hd] at him
          cases hj : w.mems[j]? with
          | none => simp [hj] at him
          | some m' => simp [hj] at him; obtain ⟨rfl, rfl⟩ := him; exact hj
      rw [upd_mems]
      intro m' hm' x s hx q hq
      rcases List.mem_or_eq_of_mem_set hm' with hm' | rfl
      · exact .inl ⟨m', hm', x, s, hx, hq⟩
      · rw [retrieve_data] at hx
        exact .inl ⟨m, List.mem_iff_getElem?.2 ⟨i, hm⟩, x, s, hx, hq⟩

end Verif
