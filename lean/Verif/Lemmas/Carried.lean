import Verif.Lemmas.Machine
import Verif.Lemmas.Rounding
import Verif.Spec.Machine
/-! # Processes that are carried out to their end -/
namespace Verif
open Verif.Spec

section
variable {A B : Type} {Rel : Mach → Mach → Prop}

/-- When the generator has returned, `Q` holds of the events reported so far; when it leaves a continuation, `K` does. -/
def Out.ends (Rel : Mach → Mach → Prop) (Q : List Verif.Ev → Mach → A → Prop) (K : List Verif.Ev → Mach → Desc → Prop) :
    List Verif.Ev → Out Mach YV A → Prop
  | acc, .ret w a => Q acc w a
  | _, .raise _ _ => True
  | acc, .yield w (.ev e) k => ∀ w1, Rel w w1 → Out.ends Rel Q K (acc ++ [e]) (k w1)
  | acc, .yield w (.cont d) _ => K acc w d
  | _, .yield _ _ _ => True

theorem carried_ends {C : Cfg} {Q : List Verif.Ev → Mach → Unit → Prop} {K : List Verif.Ev → Mach → Desc → Prop} {o : Out Mach YV Unit}
    {evs : List Verif.Ev} {w' : Mach} (h : Carried C Rel o evs w') : ∀ {acc}, o.ends Rel Q K acc →
    Q (acc ++ evs) w' () ∨ ∃ evs1 evs2 w1 w2 d, evs = evs1 ++ evs2 ∧ K (acc ++ evs1) w1 d ∧ Rel w1 w2 ∧ Carried C Rel (d.run C w2) evs2 w' := by
  induction h with
  | ret => intro acc h; left; simpa [Out.ends] using h
  | @ev w w1 w' e k evs hw _ ih =>
    intro acc h
    rcases ih (h w1 hw) with h | ⟨e1, e2, a, b, d, rfl, hk, hr, hc⟩
    · left; simpa using h
    · right; exact ⟨e :: e1, e2, a, b, d, rfl, by simpa using hk, hr, hc⟩
  | cont hw hc ih => intro acc h; right; exact ⟨[], _, _, _, _, rfl, by simpa [Out.ends] using h, hw, hc⟩

theorem ends_bind {Q : List Verif.Ev → Mach → B → Prop} {K : List Verif.Ev → Mach → Desc → Prop} {f : A → Gen Mach YV B} {o : Out Mach YV A} :
    ∀ {acc}, (o.bind f).ends Rel Q K acc ↔ o.ends Rel (fun acc w a => (f a w).ends Rel Q K acc) K acc := by
  induction o with
  | yield w y k ih =>
    intro acc
    cases y with
    | ev e => exact forall_congr' fun w1 => imp_congr_right fun _ => ih w1
    | cont d => exact Iff.rfl
    | nothing => exact Iff.rfl
    | procs => exact Iff.rfl
  | ret w a => intro acc; exact Iff.rfl
  | raise w e => intro acc; exact Iff.rfl

variable {Q : List Verif.Ev → Mach → A → Prop} {K : List Verif.Ev → Mach → Desc → Prop} {acc : List Verif.Ev} {w : Mach}

theorem ends_bindM {Q : List Verif.Ev → Mach → B → Prop} {g : GenM A} {f : A → GenM B} :
    ((g >>= f) w).ends Rel Q K acc ↔ (g w).ends Rel (fun acc w a => (f a w).ends Rel Q K acc) K acc := ends_bind
theorem ends_set {Q : List Verif.Ev → Mach → Unit → Prop} {f : Mach → Mach} : (GenM.set f w).ends Rel Q K acc ↔ Q acc (f w) () := Iff.rfl
theorem ends_get {f : Mach → A} : (GenM.get f w).ends Rel Q K acc ↔ Q acc w (f w) := Iff.rfl
theorem ends_pure {a : A} : ((Pure.pure a : GenM A) w).ends Rel Q K acc ↔ Q acc w a := Iff.rfl
theorem ends_throw {e : PyErr} : ((GenM.throw e : GenM A) w).ends Rel Q K acc ↔ True := Iff.rfl
theorem ends_event {Q : List Verif.Ev → Mach → Unit → Prop} {t : ℚ} {n : String} {a : Act} :
    (GenM.event t n a w).ends Rel Q K acc ↔ ∀ w1, Rel w w1 → Q (acc ++ [⟨round4 t, n, a⟩]) w1 () := Iff.rfl
theorem ends_cont {Q : List Verif.Ev → Mach → Unit → Prop} {d : Desc} : (GenM.yield (.cont d) w).ends Rel Q K acc ↔ K acc w d := Iff.rfl
theorem ends_nothing {Q : List Verif.Ev → Mach → Unit → Prop} : (GenM.yield .nothing w).ends Rel Q K acc ↔ True := Iff.rfl
theorem ends_act {f : Mach → Mach × Except PyErr A} : (GenM.act f w).ends Rel Q K acc ↔ ∀ w1 a, f w = (w1, .ok a) → Q acc w1 a := by
  rcases h : f w with ⟨w1, x | a⟩
  · rw [genM_act_error h]
    simp [Out.ends]
  · rw [genM_act_ok h]
    simp only [Out.ends, Prod.mk.injEq, Except.ok.injEq, and_imp]
    constructor
    · rintro hq w2 b rfl rfl; exact hq
    · intro hq; exact hq w1 a rfl rfl
theorem ends_lift {x : Except PyErr A} : (GenM.lift x w).ends Rel Q K acc ↔ ∀ a, x = .ok a → Q acc w a := by
  unfold GenM.lift
  rw [ends_act]
  constructor
  · intro h a hx; exact h w a (by rw [hx])
  · intro h w1 a hx; cases hx; exact h a rfl

theorem ends_mono {Q Q' : List Verif.Ev → Mach → A → Prop} {K K' : List Verif.Ev → Mach → Desc → Prop} (hq : ∀ a w x, Q a w x → Q' a w x)
    (hk : ∀ a w x, K a w x → K' a w x) {o : Out Mach YV A} : ∀ {acc}, o.ends Rel Q K acc → o.ends Rel Q' K' acc := by
  induction o with
  | yield w y k ih =>
    intro acc h
    cases y with
    | ev e => exact fun w1 hw => ih w1 (h w1 hw)
    | cont d => exact hk _ _ _ h
    | nothing => trivial
    | procs => trivial
  | ret w a => intro acc h; exact hq _ _ _ h
  | raise w e => intro acc h; trivial

end

/-! ## Carrying processes out -/

/-- The process can be carried out to its end, and all events are as `P` says. -/
def Finishes (C : Cfg) (Rel : Mach → Mach → Prop) (P : Verif.Ev → Prop) (o : Out Mach YV Unit) : Prop :=
  ∃ evs w', Carried C Rel o evs w' ∧ ∀ e ∈ evs, P e

section
variable {C : Cfg} {Rel : Mach → Mach → Prop} {P : Verif.Ev → Prop} {w w1 : Mach} {k : Mach → Out Mach YV Unit}

theorem finishes_ret : Finishes C Rel P (.ret w ()) := ⟨_, _, .ret, by simp⟩
theorem finishes_ev {e : Verif.Ev} (h : Rel w w1) (he : P e) (hk : Finishes C Rel P (k w1)) : Finishes C Rel P (.yield w (.ev e) k) := by
  obtain ⟨evs, w', hk, hp⟩ := hk
  exact ⟨_, _, .ev h hk, by simpa using ⟨he, hp⟩⟩
theorem finishes_cont {d : Desc} (h : Rel w w1) (hk : Finishes C Rel P (d.run C w1)) : Finishes C Rel P (.yield w (.cont d) k) := by
  obtain ⟨evs, w', hk, hp⟩ := hk
  exact ⟨_, _, .cont h hk, hp⟩
end

/-! ## Operations on the buffer -/

theorem buf_with_regmems (w : Mach) (r : Reg) (m : List DecMem) (n : String) : ({ w with reg := r, mems := m } : Mach).buf n = w.buf n := rfl

theorem putBst_buf {w : Mach} {n : String} {b : Buf} (hb : w.buf n = some b) (st : BState) : (w.putBst n st).buf n = some { b with data := st.data } := by
  unfold Mach.putBst
  rw [buf_upd_self, buf_with_regmems, hb]
  rfl

theorem onBuf_buf {w w1 : Mach} {n : String} {b : Buf} {f : Buf → BState → BResult} {r : Except PyErr Unit} (hb : w.buf n = some b)
    (h : w.onBuf n f = (w1, r)) : w1.buf n = some { b with data := (f b (w.bst b)).1.data } := by
  unfold Mach.onBuf at h
  rw [hb] at h
  cases h
  exact putBst_buf hb _

theorem clearBuf_buf {C : Cfg} {n : String} {v : RVal} {t : ℚ} {w w1 : Mach} {b : Buf} {r : Except PyErr Unit} (hb : w.buf n = some b)
    (h : clearBuf C n v t w = (w1, r)) : ∃ d, w1.buf n = some { b with data := d } := by
  have keep : ∃ d, w.buf n = some { b with data := d } := ⟨b.data, hb⟩
  have again : ∀ i, ∃ d, (if b.cls = .decmem then (w, .error .type)
      else w.onBuf n (fun b st => st.clear C.P b.cls.kind t (some i)) : Mach × Except PyErr Unit).1.buf n = some { b with data := d } := by
    intro i
    split
    · exact keep
    · exact ⟨_, onBuf_buf (r := (w.onBuf n (fun b st => st.clear C.P b.cls.kind t (some i))).2) hb (Prod.mk.eta).symm⟩
  have byName : ∃ d, (match alook n w.dms with
      | some i => (if b.cls = .decmem then (w, .error .type) else w.onBuf n (fun b st => st.clear C.P b.cls.kind t (some i)))
      | Option.none => (w, .error .actr) : Mach × Except PyErr Unit).1.buf n = some { b with data := d } := by
    split
    · exact again _
    · exact keep
  have key : ∃ d, (clearBuf C n v t w).1.buf n = some { b with data := d } := by
    unfold clearBuf
    rw [hb]
    dsimp only
    split
    · exact keep
    · split
      · exact ⟨_, putBst_buf hb _⟩
      · split
        · exact again _
        · split
          · exact byName
          · split
            · exact byName
            · exact keep
          · split
            · exact byName
            · exact keep
          · split
            · exact byName
            · exact keep
  rw [h] at key
  exact key

/-- What `clear` does, seen from its buffer. -/
theorem ends_clear {C : Cfg} {n : String} {v : RVal} {t : ℚ} {f : Bool} {w : Mach} {b : Buf} {K : List Verif.Ev → Mach → Desc → Prop} {acc : List Verif.Ev}
    {Q : List Verif.Ev → Mach → Unit → Prop} (hb : w.buf n = some b)
    (h : ∀ w1 d, w1.buf n = some { b with data := d, state := if f then .free else .busy } → Q (acc ++ [⟨round4 t, n, .cleared⟩]) w1 ()) :
    (genClear C n v t f w).ends (Alone n) Q K acc := by
  unfold genClear
  simp only [ends_bindM, ends_set, ends_act, ends_event]
  intro w1 _ hc w2 hw
  obtain ⟨d, hd⟩ := clearBuf_buf (b := { b with state := .busy }) (by rw [buf_setState_self, hb]; rfl) hc
  have hw : w2.buf n = w1.buf n := hw
  rw [hd] at hw
  cases f with
  | true =>
    simp only [if_true] at h ⊢
    exact h _ d (by rw [buf_setState_self, hw]; rfl)
  | false => exact h _ d hw

end Verif
