import Verif.Spec.Layout
import Verif.Props.Storage
/-! # The buffers and memories of a simulation (property C92) -/
namespace Verif.Props
open Verif Verif.Spec

variable {s s' : Sim} {C : Cfg} {w w' : Mach} {args : Option EnvArgs} {t : ℚ}

/-- The relation for states of the model. -/
def LaidOut (w w' : Mach) : Prop := layout w' = layout w ∧ stores w' = stores w

theorem laidOut_same (h1 : w'.bufs = w.bufs) (h2 : w'.dms = w.dms) (h3 : w'.mems.length = w.mems.length) : LaidOut w w' :=
  ⟨by unfold layout; rw [h1], by unfold stores; rw [h2, h3]⟩

theorem map_aset_same {α β : Type} {g : String × α → β} {n : String} {a b : α} : ∀ {l : List (String × α)}, alook n l = some b → g (n, a) = g (n, b) → (aset n a l).map g = l.map g
  | [], h, _ => by cases h
  | (m, c) :: r, h, hg => by
    by_cases e : m = n
    · simp only [alook, e, if_true, Option.some.injEq] at h
      subst h
      simp only [aset, e, if_true, List.map_cons, hg]
    · simp only [alook, e, if_false] at h
      simp only [aset, e, if_false, List.map_cons, map_aset_same h hg]

/-- A buffer that is changed, but not its class and its memory. -/
theorem laidOut_upd {n : String} {f : Buf → Buf} (hf : ∀ b, w.buf n = some b → (f b).cls = b.cls ∧ (f b).dm = b.dm) : LaidOut w (w.upd n f) := by
  refine ⟨?_, by unfold stores; rw [upd_dms, upd_mems]⟩
  unfold layout Mach.upd
  split
  · rename_i b hb
    refine map_aset_same hb ?_
    rw [(hf b hb).1, (hf b hb).2]
  · rfl

theorem LaidOut.trans {a b c : Mach} (h1 : LaidOut a b) (h2 : LaidOut b c) : LaidOut a c := ⟨h2.1.trans h1.1, h2.2.trans h1.2⟩

theorem atoms_laidOut (hx : ∀ c b, (C.exec c b).1.dm = b.dm) : Atoms C (fun _ _ => True) LaidOut where
  mint := mint_any C.P
  refl _ := laidOut_same rfl rfl rfl
  trans _ _ _ h1 h2 := h1.trans h2
  upd w n f hf := laidOut_upd fun b _ => ⟨(hf b).1, (hf b).2.2⟩
  other w w' _ h1 h2 h3 _ _ _ := laidOut_same h3 h2 (by rw [h1])
  environ w e := laidOut_same rfl rfl rfl
  reg w r _ := laidOut_same rfl rfl rfl
  mems w l h := laidOut_same rfl rfl (by simpa using congrArg List.length h)
  buf w n b st hb h := by
    have hl : st.mems.length = w.mems.length := by
      generalize hst : w.bst b = st0 at h
      have e0 : w.mems = st0.mems := by rw [← hst]; rfl
      rw [e0]
      cases h <;> simp [BState.harvest]
    unfold Mach.putBst
    exact (laidOut_same (w := w) (w' := { w with reg := st.reg, mems := st.mems }) rfl rfl hl).trans (laidOut_upd fun _ _ => ⟨rfl, rfl⟩)
  exec w n b c hb := laidOut_upd fun b' hb' => ⟨rfl, by rw [hb] at hb'; cases hb'; exact hx c b⟩
  reward n t w := laidOut_same (rewardStep_bufs n t w).1 (by unfold rewardStep; split <;> [split <;> rfl; rfl]) (by rw [(rewardStep_bufs n t w).2])
  compile w := laidOut_same (compileIn_bufs w).1 (by
    unfold compileIn
    split
    · dsimp only
      split <;> rfl
    · rfl) (by rw [(compileIn_bufs w).2])

/-- C92: in all states of a simulation the model has the buffers that it had at the beginning, each of its class and with its memory, and
the memories that it had; provided that no method that a rule calls gives a buffer another memory. -/
theorem C92 (hx : ∀ c b, (C.exec c b).1.dm = b.dm) (h : Reachable C w args t s) : layout s.w = layout w ∧ stores s.w = stores w :=
  regime_reachable (atoms_laidOut hx).regime h

/-- C92, an instance: although the memory has changed and the buffer is empty. -/
example : ∃ s, Reachable exFullC exDropper Option.none 0 s ∧ held (Sim.init exDropper Option.none 0).w "g" ≠ held s.w "g" ∧ layout s.w = [("g", .goal, some 0)] ∧ stores s.w = ([], 1) := by
  obtain ⟨s, hs, h1⟩ := exDropper_stores
  have h := C92 (fun _ _ => rfl) hs
  refine ⟨s, hs, fun e => ?_, h.1, h.2⟩
  have h2 := (Prod.mk.inj h1).2
  have h3 := (Prod.mk.inj exDropper_start).2
  rw [← e] at h2
  rw [h2] at h3
  cases h3

end Verif.Props
