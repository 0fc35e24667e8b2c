import Verif.Lemmas.Gen
import Verif.Lemmas.Match
import Verif.Model.Procedural
/-!
# Facts about the state of a running model
-/
namespace Verif

@[simp] theorem buf_upd_self (w : Mach) (n : String) (f : Buf → Buf) : (w.upd n f).buf n = (w.buf n).map f := by
  unfold Mach.upd Mach.buf
  cases h : alook n w.bufs with
  | none => simp [h]
  | some b => simp [alook_aset]

theorem buf_upd_ne (w : Mach) {n m : String} (h : m ≠ n) (f : Buf → Buf) : (w.upd n f).buf m = w.buf m := by
  unfold Mach.upd Mach.buf
  cases hb : alook n w.bufs with
  | none => rfl
  | some b => simp [alook_aset, h]

@[simp] theorem buf_setState_self (w : Mach) (n : String) (s : Status) :
    (w.setState n s).buf n = (w.buf n).map (fun b => { b with state := s }) := buf_upd_self w n _

theorem upd_eq (w : Mach) (n : String) (f : Buf → Buf) : w.upd n f = { w with bufs := (w.upd n f).bufs } := by
  unfold Mach.upd; split <;> rfl

/-- Changing a buffer leaves everything else as it was. -/
@[simp] theorem upd_motorPrepared (w : Mach) (n : String) (f : Buf → Buf) : (w.upd n f).motorPrepared = w.motorPrepared := by
  rw [upd_eq]
@[simp] theorem upd_reg (w : Mach) (n : String) (f : Buf → Buf) : (w.upd n f).reg = w.reg := by rw [upd_eq]
@[simp] theorem upd_mems (w : Mach) (n : String) (f : Buf → Buf) : (w.upd n f).mems = w.mems := by rw [upd_eq]
@[simp] theorem upd_dms (w : Mach) (n : String) (f : Buf → Buf) : (w.upd n f).dms = w.dms := by rw [upd_eq]
@[simp] theorem upd_bv (w : Mach) (n : String) (f : Buf → Buf) : (w.upd n f).bv = w.bv := by rw [upd_eq]
@[simp] theorem upd_procs (w : Mach) (n : String) (f : Buf → Buf) : (w.upd n f).procs = w.procs := by rw [upd_eq]
@[simp] theorem upd_env (w : Mach) (n : String) (f : Buf → Buf) : (w.upd n f).env = w.env := by rw [upd_eq]
@[simp] theorem upd_nextId (w : Mach) (n : String) (f : Buf → Buf) : (w.upd n f).nextId = w.nextId := by rw [upd_eq]
@[simp] theorem upd_interaction (w : Mach) (n : String) (f : Buf → Buf) : (w.upd n f).interaction = w.interaction := by rw [upd_eq]

theorem buf_upd (w : Mach) (n m : String) (f : Buf → Buf) : (w.upd n f).buf m = if m = n then (w.buf n).map f else w.buf m := by
  by_cases h : m = n
  · subst h; simp
  · simp [h, buf_upd_ne]

end Verif
