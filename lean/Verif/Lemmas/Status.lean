import Verif.Lemmas.Carried
/-! # The states of buffers under operations -/
namespace Verif
open Verif.Spec

/-- All the attributes of a buffer that say what it is doing. -/
def Buf.doing (b : Buf) : Status × Status × Status × Status × Status := (b.state, b.preparation, b.processor, b.execution, b.autoattending)

/-- The same for the buffer with a name. -/
def Mach.doing (w : Mach) (n : String) : Option (Status × Status × Status × Status × Status) := (w.buf n).map Buf.doing

theorem doing_alone {n : String} {w w' : Mach} (h : Alone n w w') : w'.doing n = w.doing n := congrArg (Option.map Buf.doing) h

theorem doing_upd {n : String} {w : Mach} {f : Buf → Buf} {g : Status × Status × Status × Status × Status → Status × Status × Status × Status × Status}
    (h : ∀ b, (f b).doing = g b.doing) : (w.upd n f).doing n = (w.doing n).map g := by
  unfold Mach.doing
  rw [buf_upd_self]
  cases w.buf n with
  | none => rfl
  | some b => simp [h]

theorem doing_same {n : String} {w : Mach} {f : Buf → Buf} (h : ∀ b, (f b).doing = b.doing) : (w.upd n f).doing n = w.doing n := by
  rw [doing_upd (g := id) h]; simp

theorem doing_setState {n : String} {w : Mach} {s : Status} : (w.setState n s).doing n = (w.doing n).map (fun q => (s, q.2)) := doing_upd fun _ => rfl

theorem doing_putBst {n : String} {w : Mach} {st : BState} : (w.putBst n st).doing n = w.doing n := doing_same fun _ => rfl

theorem doing_onBuf {n : String} {w : Mach} {f : Buf → BState → BResult} : (w.onBuf n f).1.doing n = w.doing n := by
  unfold Mach.onBuf
  split
  · rfl
  · exact doing_putBst

theorem doing_onBuf' {n : String} {w w1 : Mach} {f : Buf → BState → BResult} {r : Except PyErr Unit} (h : w.onBuf n f = (w1, r)) : w1.doing n = w.doing n := by
  have := doing_onBuf (n := n) (w := w) (f := f)
  rwa [h] at this

theorem doing_clearBuf {C : Cfg} {n : String} {v : RVal} {t : ℚ} {w : Mach} : (clearBuf C n v t w).1.doing n = w.doing n := by
  cases hb : w.buf n with
  | none => unfold clearBuf; rw [hb]
  | some b =>
    obtain ⟨d, hd⟩ := clearBuf_buf (r := (clearBuf C n v t w).2) (w1 := (clearBuf C n v t w).1) hb rfl
    unfold Mach.doing
    rw [hd, hb]; rfl

theorem doing_modifyBuf {C : Cfg} {n : String} {c : Chunk} {bv : BV} {w : Mach} : (modifyBuf C n c bv w).1.doing n = w.doing n := by
  unfold modifyBuf
  split
  · rfl
  · split
    · split
      · exact Eq.trans (doing_same (by intro b; rfl)) (doing_onBuf' (by assumption))
      · exact doing_onBuf' (by assumption)
    · exact doing_onBuf

theorem doing_createIn {C : Cfg} {n : String} {c : Chunk} {bv : BV} {w : Mach} : (createIn C n c bv w).1.doing n = w.doing n := by
  unfold createIn
  split
  · rfl
  · split
    · rfl
    · split
      · rfl
      · split
        · rfl
        · exact doing_onBuf

theorem doing_firstOf {n m : String} {w : Mach} : (firstOf m w).1.doing n = w.doing n := by
  unfold firstOf
  split
  · split <;> rfl
  · rfl

theorem doing_retrieveIn {C : Cfg} {n : String} {c : Chunk} {bv : BV} {t : ℚ} {w : Mach} : (retrieveIn C n c bv t w).1.doing n = w.doing n := by
  unfold retrieveIn
  dsimp only
  split
  · rfl
  · split
    · split <;> rfl
    · exact doing_same fun _ => rfl

theorem doing_findIn {C : Cfg} {n m : String} {c : Chunk} {bv : BV} {w : Mach} : (findIn C m c bv w).1.doing n = w.doing n := by
  unfold findIn
  split <;> rfl

theorem doing_addLocation {C : Cfg} {n : String} {c : Chunk} {s : Option Stim} {t : ℚ} {w : Mach} : (addLocation C n c s t w).1.doing n = w.doing n := by
  unfold addLocation
  split
  · exact Eq.trans (doing_same (by intro b; rfl)) (doing_onBuf' (by assumption))
  · exact doing_onBuf' (by assumption)

theorem doing_shiftIn {C : Cfg} {n : String} {c : Chunk} {bv : BV} {w : Mach} : (shiftIn C c bv w).1.doing n = w.doing n := by
  unfold shiftIn
  split
  · rfl
  · split
    · rfl
    · split
      · rfl
      · rfl
      · split
        · rfl
        · dsimp only
          split <;> rfl

theorem doing_motorCreateIn {C : Cfg} {n : String} {c : Chunk} {bv : BV} {w : Mach} : (motorCreateIn C c bv w).1.doing n = w.doing n := by
  unfold motorCreateIn
  split
  · rfl
  · split <;> rfl

theorem doing_autoBufferLoop {C : Cfg} {n : String} {data : List Chunk} {cf : ℚ × ℚ} : ∀ (l : List Stim) (w : Mach) (acc : Option (Chunk × ℚ)),
    (autoBufferLoop C data cf l w acc).1.doing n = w.doing n
  | [], w, acc => rfl
  | s :: r, w, acc => by
    unfold autoBufferLoop
    split
    · rfl
    · split
      · split
        · rfl
        · exact doing_autoBufferLoop r w acc
        · split
          · rfl
          · exact doing_autoBufferLoop r _ _
      · exact doing_autoBufferLoop r w acc

/-- An operation that leaves the state of the buffer alone. -/
theorem ends_quiet {A : Type} {Rel : Mach → Mach → Prop} {n : String} {f : Mach → Mach × Except PyErr A} {w : Mach} {acc : List Verif.Ev}
    {Q : List Verif.Ev → Mach → A → Prop} {K : List Verif.Ev → Mach → Desc → Prop} (hf : ∀ w, (f w).1.doing n = w.doing n)
    (h : ∀ w1 a, w1.doing n = w.doing n → f w = (w1, .ok a) → Q acc w1 a) : (GenM.act f w).ends Rel Q K acc := by
  rw [ends_act]
  intro w1 a hw
  exact h w1 a (by have := hf w; rwa [hw] at this) hw

end Verif
