import Verif.Lemmas.Atoms
import Verif.Spec.Storage
/-! # All that happens to buffers and memories -/
namespace Verif
open Verif.Spec Relation

variable {C : Cfg} {w w' : Mach} {n : String}

/-! ## Memory -/

theorem cdSet_twice {α : Type} (H : PyHash) (c : Chunk) (a b : α) : ∀ d : CDict α, cdSet H c b (cdSet H c a d) = cdSet H c b d
  | [] => by simp [cdSet, ceq]
  | (e, x) :: r => by
    by_cases h : ceq H e c = true
    · simp [cdSet, h]
    · simp [cdSet, h, cdSet_twice H c a b r]

theorem memorise_eq (H : PyHash) (c : Chunk) (q : ℚ) : ∀ d : CDict (List ℚ), memorise H c q d = cdSet H c ((cdLook H c d).getD [] ++ [q]) d
  | [] => rfl
  | (e, x) :: r => by
    by_cases h : ceq H e c = true
    · simp [memorise, cdSet, cdLook, h]
    · simp [memorise, cdSet, cdLook, h, memorise_eq H c q r]

theorem addOne_memorise (H : PyHash) (m : DecMem) (c : Chunk) (t : ℚ) : (m.addOne H c (.one t)).data = memorise H c (round4 t) m.data := by
  rw [memorise_eq]
  unfold DecMem.addOne DecMem.setDefault
  split
  · rename_i l hl; simp only [DecMem.setRaw, hl, TimeArg.traces, Option.getD_some]
  · rename_i hl; simp only [DecMem.setRaw, hl, TimeArg.traces, Option.getD_none, cdSet_twice]

/-! ## Buffers -/

theorem held_upd {f : Buf → Buf} (hf : ∀ b, (f b).data = b.data) (m : String) : held (w.upd n f) m = held w m := by
  unfold held
  rw [buf_upd]
  split
  · rename_i h; subst h
    cases w.buf m with
    | none => rfl
    | some b => exact congrArg some (hf b)
  · rfl

theorem held_of_bufs (h : w'.bufs = w.bufs) (m : String) : held w' m = held w m := by
  unfold held Mach.buf; rw [h]

theorem kept_of_mems (h : w'.mems = w.mems) : NoStore w w' := fun i => by unfold kept; rw [h]

theorem holds_putBst {b : Buf} (hb : w.buf n = some b) (st : BState) : HoldsNow w (w.putBst n st) n st.data := by
  refine ⟨?_, fun m hm => ?_⟩
  · unfold held; rw [putBst_buf hb]; rfl
  · unfold held Mach.putBst; rw [buf_upd_ne _ hm]; rfl

theorem handled_bmove {b : Buf} {st : BState} {G : Reg → Reg → Prop} (hb : w.buf n = some b) (h : BMove C.P G (fun i => i ∈ w.dms.map Prod.snd) (w.bst b) st) : Handled C w (w.putBst n st) := by
  have hn : ∀ {st : BState}, st.mems = w.mems → NoStore w (w.putBst n st) := fun h => kept_of_mems (by rw [putBst_mems, h])
  have hh : held w n = some b.data := by unfold held; rw [hb]; rfl
  have hp := fun st => holds_putBst hb st
  cases h with
  | reg r hr =>
    refine .other (fun m => ?_) (hn rfl)
    by_cases hm : m = n
    · subst hm; rw [(hp _).1, hh]; rfl
    · exact (hp _).2 m hm
  | put c => exact .put n c b.data hh (hp _) (hn rfl)
  | empty => exact .empty n b.data hh (hp _) (hn rfl)
  | drop e l hd => exact .drop n e l (by rw [hh]; exact congrArg some hd) (hp _) (hn rfl)
  | change e c l hd =>
    by_cases hc : l.any (fun d => ceq C.P.H d c) = true
    · have : setAddChunk C.P.H l c = l := by unfold setAddChunk; rw [if_pos hc]
      rw [this]
      exact .drop n e l (by rw [hh]; exact congrArg some hd) (hp _) (hn rfl)
    · have : setAddChunk C.P.H l c = l ++ [c] := by unfold setAddChunk; rw [if_neg hc]
      rw [this]
      exact .change n e c l (by rw [hh]; exact congrArg some hd) (hp _) (hn rfl)
  | store c l i t hd hi =>
    refine .store n c l i (round4 t) (by rw [hh]; exact congrArg some hd) (hp _) ?_ ?_ fun j hj => ?_
    · rcases hi with hi | hi
      · exact .inr hi
      · exact .inl (by rw [hb]; exact hi)
    · unfold kept
      rw [putBst_mems]
      show Option.map _ ((w.mems.modify i _)[i]?) = _
      rw [List.getElem?_modify_eq]
      cases w.mems[i]? with
      | none => rfl
      | some m => exact congrArg some (addOne_memorise C.P.H m c t)
    · unfold kept
      rw [putBst_mems]
      show Option.map _ ((w.mems.modify i _)[j]?) = _
      rw [List.getElem?_modify]
      simp only [if_neg (Ne.symm hj)]
      exact congrArg _ Option.map_id'

/-! ## Simulations -/

theorem mint_any (P : Py) : Minting P (fun _ _ => True) := ⟨fun _ => trivial, fun _ _ _ _ _ => trivial, fun _ _ _ => trivial⟩

theorem handled_same (h1 : w'.bufs = w.bufs) (h2 : w'.mems = w.mems) : Course C w w' := .single (.other (held_of_bufs h1) (kept_of_mems h2))

theorem rewardStep_bufs (n : String) (t : ℚ) (w : Mach) : (rewardStep C n t w).bufs = w.bufs ∧ (rewardStep C n t w).mems = w.mems := by
  unfold rewardStep
  split
  · split <;> exact ⟨rfl, rfl⟩
  · exact ⟨rfl, rfl⟩

theorem compileIn_bufs (w : Mach) : (compileIn C w).1.bufs = w.bufs ∧ (compileIn C w).1.mems = w.mems := by
  unfold compileIn
  split
  · dsimp only
    split <;> exact ⟨rfl, rfl⟩
  · exact ⟨rfl, rfl⟩

theorem atoms_course (C : Cfg) : Atoms C (fun _ _ => True) (Course C) where
  mint := mint_any C.P
  refl _ := .refl
  trans _ _ _ h1 h2 := h1.trans h2
  upd w n f hf := .single (.other (held_upd fun b => (hf b).2.1) (kept_of_mems (upd_mems ..)))
  other w w' _ h1 _ h2 _ _ _ := handled_same h2 h1
  environ w e := handled_same rfl rfl
  reg w r _ := handled_same rfl rfl
  mems w l h := .single (.other (held_of_bufs rfl) fun i => by
    have := congrArg (fun x => x[i]?) h
    simpa [kept] using this)
  buf w n b st hb h := .single (handled_bmove hb h)
  exec w n b c hb := .single (.command n b c hb ⟨by unfold held; rw [buf_upd_self, hb]; rfl, fun m hm => by unfold held; rw [buf_upd_ne _ hm]⟩ (kept_of_mems (upd_mems ..)))
  reward n t w := handled_same (rewardStep_bufs n t w).1 (rewardStep_bufs n t w).2
  compile w := handled_same (compileIn_bufs w).1 (compileIn_bufs w).2

/-! ## What follows -/

theorem mem_memorise {H : PyHash} {c : Chunk} {q : ℚ} : ∀ {d : CDict (List ℚ)} {e : Chunk} {l : List ℚ}, (e, l) ∈ d → ∃ l', (e, l') ∈ memorise H c q d ∧ l <+: l'
  | (f, x) :: r, e, l, h => by
    by_cases hc : ceq H f c = true
    · simp only [memorise, hc, if_true]
      rcases List.mem_cons.1 h with h | h
      · cases h; exact ⟨_, .head _, List.prefix_append _ _⟩
      · exact ⟨l, .tail _ h, List.prefix_rfl⟩
    · rw [show memorise H c q ((f, x) :: r) = (f, x) :: memorise H c q r from by simp [memorise, hc]]
      rcases List.mem_cons.1 h with h | h
      · cases h; exact ⟨_, .head _, List.prefix_rfl⟩
      · obtain ⟨l', h1, h2⟩ := mem_memorise (H := H) (c := c) (q := q) h
        exact ⟨l', .tail _ h1, h2⟩

theorem memorise_mem {H : PyHash} {c : Chunk} {q : ℚ} : ∀ {d : CDict (List ℚ)} {e : Chunk} {l : List ℚ}, (e, l) ∈ memorise H c q d → (e, l) ∈ d ∨ ceq H e c = true
  | [], e, l, h => by
    cases List.mem_singleton.1 h
    exact .inr (by simp [ceq])
  | (f, x) :: r, e, l, h => by
    by_cases hc : ceq H f c = true
    · simp only [memorise, hc, if_true] at h
      rcases List.mem_cons.1 h with h | h
      · cases h; exact .inr hc
      · exact .inl (.tail _ h)
    · rw [show memorise H c q ((f, x) :: r) = (f, x) :: memorise H c q r from by simp [memorise, hc]] at h
      rcases List.mem_cons.1 h with h | h
      · cases h; exact .inl (.head _)
      · rcases memorise_mem h with h | h
        · exact .inl (.tail _ h)
        · exact .inr h

theorem handled_grows {i : ℕ} {d : CDict (List ℚ)} {e : Chunk} {l : List ℚ} (h : Handled C w w') (hd : kept w i = some d) (hm : (e, l) ∈ d) : ∃ d' l', kept w' i = some d' ∧ (e, l') ∈ d' ∧ l <+: l' := by
  have same : kept w' i = kept w i → ∃ d' l', kept w' i = some d' ∧ (e, l') ∈ d' ∧ l <+: l' := fun h => ⟨d, l, h.trans hd, hm, List.prefix_rfl⟩
  cases h with
  | other _ h | put _ _ _ _ _ h | empty _ _ _ _ h | drop _ _ _ _ _ h | change _ _ _ _ _ _ h | command _ _ _ _ _ h => exact same (h i)
  | store n c l0 j q _ _ _ h1 h2 =>
    by_cases hj : i = j
    · subst hj
      rw [hd] at h1
      obtain ⟨l', h3, h4⟩ := mem_memorise (H := C.P.H) (c := c) (q := q) hm
      exact ⟨_, l', h1, h3, h4⟩
    · exact same (h2 i hj)

theorem course_grows {i : ℕ} {d : CDict (List ℚ)} {e : Chunk} {l : List ℚ} (h : Course C w w') (hd : kept w i = some d) (hm : (e, l) ∈ d) : ∃ d' l', kept w' i = some d' ∧ (e, l') ∈ d' ∧ l <+: l' := by
  induction h with
  | refl => exact ⟨d, l, hd, hm, List.prefix_rfl⟩
  | tail _ h ih =>
    obtain ⟨d1, l1, h1, h2, h3⟩ := ih
    obtain ⟨d2, l2, h4, h5, h6⟩ := handled_grows h h1 h2
    exact ⟨d2, l2, h4, h5, h3.trans h6⟩

theorem course_source {i : ℕ} {d' : CDict (List ℚ)} {e : Chunk} {l : List ℚ} (h : Course C w w') (hd : kept w' i = some d') (hm : (e, l) ∈ d') :
    (∃ d, kept w i = some d ∧ (e, l) ∈ d) ∨ ∃ w1 w2 n c r, Course C w w1 ∧ Handled C w1 w2 ∧ Course C w2 w' ∧ held w1 n = some (c :: r) ∧ held w2 n = some r ∧ Feeds w1 n i ∧ ceq C.P.H e c = true := by
  induction h generalizing d' l with
  | refl => exact .inl ⟨d', hd, hm⟩
  | @tail w1 w2 hc h ih =>
    have same : kept w2 i = kept w1 i → (∃ d, kept w i = some d ∧ (e, l) ∈ d) ∨ ∃ w1 w2' n c r, Course C w w1 ∧ Handled C w1 w2' ∧ Course C w2' w2 ∧ held w1 n = some (c :: r) ∧ held w2' n = some r ∧ Feeds w1 n i ∧ ceq C.P.H e c = true := fun hs => by
      rcases ih (hs ▸ hd) hm with h' | ⟨v1, v2, n, c, r, h1, h2, h3, h4⟩
      · exact .inl h'
      · exact .inr ⟨v1, v2, n, c, r, h1, h2, h3.tail h, h4⟩
    have h0 := h
    cases h with
    | other _ h | put _ _ _ _ _ h | empty _ _ _ _ h | drop _ _ _ _ _ h | change _ _ _ _ _ _ h | command _ _ _ _ _ h => exact same (h i)
    | store n c l0 j q g1 g2 g3 h1 h2 =>
      by_cases hj : i = j
      · subst hj
        cases hk : kept w1 i with
        | none => rw [hk] at h1; rw [hd] at h1; cases h1
        | some d1 =>
          rw [hk, hd] at h1
          cases h1
          rcases memorise_mem hm with hm | hm
          · rcases ih hk hm with h' | ⟨v1, v2, n, c, r, h1, h2, h3, h4⟩
            · exact .inl h'
            · exact .inr ⟨v1, v2, n, c, r, h1, h2, h3.tail h0, h4⟩
          · exact .inr ⟨w1, w2, n, c, l0, hc, h0, .refl, g1, g2.1, g3, hm⟩
      · exact same (h2 i hj)

theorem handled_single (hx : ∀ x b, b.data.length ≤ 1 → (C.exec x b).1.data.length ≤ 1) (h : Handled C w w') (hw : ∀ n l, held w n = some l → l.length ≤ 1) :
    ∀ n l, held w' n = some l → l.length ≤ 1 := by
  have one : ∀ {n : String} {l : List Chunk}, l.length ≤ 1 → HoldsNow w w' n l → ∀ m k, held w' m = some k → k.length ≤ 1 := fun {n l} hl hh m k hk => by
    by_cases hm : m = n
    · subst hm; rw [hh.1] at hk; cases hk; exact hl
    · rw [hh.2 m hm] at hk; exact hw m k hk
  cases h with
  | other h _ => intro n l hl; rw [h n] at hl; exact hw n l hl
  | put n c l _ h _ => exact one (by simp) h
  | empty n l _ h _ => exact one (by simp) h
  | drop n e l h0 h _ => exact one (by have := hw _ _ h0; simp at this; simp [this]) h
  | change n e c l h0 h _ => exact one (by have := hw _ _ h0; simp at this; simp [this]) h
  | store n c l i q h0 h _ _ _ => exact one (by have := hw _ _ h0; simp at this; simp [this]) h
  | command n b x h0 h _ => exact one (hx x b (hw n _ (by unfold held; rw [h0]; rfl))) h

theorem course_single (hx : ∀ x b, b.data.length ≤ 1 → (C.exec x b).1.data.length ≤ 1) (h : Course C w w') (hw : ∀ n l, held w n = some l → l.length ≤ 1) :
    ∀ n l, held w' n = some l → l.length ≤ 1 := by
  induction h with
  | refl => exact hw
  | tail _ h ih => exact handled_single hx h ih

end Verif
