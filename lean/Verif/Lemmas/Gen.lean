import Verif.Model.Machine
/-!
# Reasoning about generators
-/
namespace Verif

section
variable {W Y A B : Type} {Rel : W → W → Prop}

/-- `Q` holds of all traces and ends of a generator, if `acc` has been yielded before. -/
def Out.wp (Rel : W → W → Prop) (Q : List (W × Y) → GEnd W A → Prop) : List (W × Y) → Out W Y A → Prop
  | acc, .yield w y k => Q (acc ++ [(w, y)]) .cut ∧ ∀ w', Rel w w' → Out.wp Rel Q (acc ++ [(w, y)]) (k w')
  | acc, .ret w r => Q acc (.ret w r)
  | acc, .raise w e => Q acc (.raise w e)

theorem wp_of_runs (Q : List (W × Y) → GEnd W A → Prop) (o : Out W Y A) : ∀ acc, (∀ l e, Runs Rel o l e → Q (acc ++ l) e) → o.wp Rel Q acc := by
  induction o with
  | yield w y k ih =>
    intro acc h
    refine ⟨h [(w, y)] .cut .cut, fun w' hw => ih w' _ fun l e hr => ?_⟩
    have := h _ _ (Runs.yield hw hr)
    simpa using this
  | ret w r => intro acc h; simpa [Out.wp] using h [] _ .ret
  | raise w e => intro acc h; simpa [Out.wp] using h [] _ .raise

theorem runs_of_wp {Q : List (W × Y) → GEnd W A → Prop} {o : Out W Y A} {l : List (W × Y)} {e : GEnd W A}
    (hr : Runs Rel o l e) : ∀ acc, o.wp Rel Q acc → Q (acc ++ l) e := by
  induction hr with
  | ret => intro acc h; simpa [Out.wp] using h
  | raise => intro acc h; simpa [Out.wp] using h
  | cut => intro acc h; exact h.1
  | yield hw _ ih =>
    intro acc h
    have := ih _ (h.2 _ hw)
    simpa using this

/-- The calculus is complete for the runs of a generator. -/
theorem wp_iff (Q : List (W × Y) → GEnd W A → Prop) (o : Out W Y A) :
    o.wp Rel Q [] ↔ ∀ l e, Runs Rel o l e → Q l e :=
  ⟨fun h l e hr => by simpa using runs_of_wp hr [] h, fun h => wp_of_runs Q o [] (by simpa using h)⟩

theorem wp_mono {Q Q' : List (W × Y) → GEnd W A → Prop} (h : ∀ l e, Q l e → Q' l e) (o : Out W Y A) :
    ∀ acc, o.wp Rel Q acc → o.wp Rel Q' acc := by
  induction o with
  | yield w y k ih => intro acc ho; exact ⟨h _ _ ho.1, fun w' hw => ih w' _ (ho.2 w' hw)⟩
  | ret w r => intro acc ho; exact h _ _ ho
  | raise w e => intro acc ho; exact h _ _ ho

/-- What has to hold at the end of the first part of a sequence. -/
def seqPost (Rel : W → W → Prop) (f : A → Gen W Y B) (Q : List (W × Y) → GEnd W B → Prop) (l : List (W × Y)) : GEnd W A → Prop
  | .ret w a => (f a w).wp Rel Q l
  | .raise w e => Q l (.raise w e)
  | .cut => Q l .cut

theorem wp_bind (f : A → Gen W Y B) (Q : List (W × Y) → GEnd W B → Prop) (o : Out W Y A) :
    ∀ acc, (o.bind f).wp Rel Q acc ↔ o.wp Rel (seqPost Rel f Q) acc := by
  induction o with
  | yield w y k ih =>
    intro acc
    simp only [Out.bind, Out.wp, seqPost]
    exact and_congr_right fun _ => forall_congr' fun w' => imp_congr_right fun _ => ih w' _
  | ret w r => intro acc; simp only [Out.bind, Out.wp, seqPost]
  | raise w e => intro acc; simp only [Out.bind, Out.wp, seqPost]

/-- A run of a sequence is a run of the first part that does not return, or a run of the first part followed by one of the
second. -/
theorem runs_bind {f : A → Gen W Y B} {o : Out W Y A} {l : List (W × Y)} {e : GEnd W B} (h : Runs Rel (o.bind f) l e) :
    (∃ w a l1 l2, Runs Rel o l1 (.ret w a) ∧ Runs Rel (f a w) l2 e ∧ l = l1 ++ l2) ∨
    (∃ w x, Runs Rel o l (.raise w x) ∧ e = .raise w x) ∨ (Runs Rel o l .cut ∧ e = .cut) := by
  induction o generalizing l with
  | yield w y k ih =>
    rw [Out.bind] at h
    cases h with
    | cut => exact Or.inr (Or.inr ⟨.cut, rfl⟩)
    | yield hw hr =>
      rcases ih _ hr with ⟨w1, a, l1, l2, h1, h2, rfl⟩ | ⟨w1, x, h1, rfl⟩ | ⟨h1, rfl⟩
      · exact Or.inl ⟨w1, a, _, l2, .yield hw h1, h2, rfl⟩
      · exact Or.inr (Or.inl ⟨w1, x, .yield hw h1, rfl⟩)
      · exact Or.inr (Or.inr ⟨.yield hw h1, rfl⟩)
  | ret w a => exact Or.inl ⟨w, a, [], l, .ret, h, rfl⟩
  | raise w x =>
    rw [Out.bind] at h
    cases h
    exact Or.inr (Or.inl ⟨w, x, .raise, rfl⟩)

/-! ## Everything that is yielded, and what a generator changes -/

/-- All that is yielded satisfies `P`, whatever others do. -/
def Out.Yields (P : Y → Prop) : Out W Y A → Prop
  | .yield _ y k => P y ∧ ∀ w', (k w').Yields P
  | .ret _ _ => True
  | .raise _ _ => True

theorem yields_bind {P : Y → Prop} {f : A → Gen W Y B} {o : Out W Y A} (ho : o.Yields P) (hf : ∀ a w, (f a w).Yields P) : (o.bind f).Yields P := by
  induction o with
  | yield w y k ih => exact ⟨ho.1, fun w' => ih w' (ho.2 w')⟩
  | ret w a => exact hf a w
  | raise w e => trivial

theorem runs_yields {P : Y → Prop} {o : Out W Y A} {l : List (W × Y)} {e : GEnd W A} (hr : Runs Rel o l e) (ho : o.Yields P) : ∀ x ∈ l, P x.2 := by
  induction hr with
  | ret => simp
  | raise => simp
  | cut => simpa using ho.1
  | yield _ _ ih =>
    intro x hx
    rcases List.mem_cons.1 hx with rfl | hx
    · exact ho.1
    · exact ih (ho.2 _) x hx

/-- From one state to the next one seen by others, a generator changes things only as `R` allows. -/
def Out.Moves (R : W → W → Prop) : W → Out W Y A → Prop
  | w0, .yield w _ k => R w0 w ∧ ∀ w', (k w').Moves R w'
  | w0, .ret w _ => R w0 w
  | w0, .raise w _ => R w0 w

theorem moves_trans {R : W → W → Prop} (ht : ∀ a b c, R a b → R b c → R a c) {w0 w1 : W} {o : Out W Y A} (h : R w0 w1) (ho : o.Moves R w1) :
    o.Moves R w0 := by
  cases o with
  | yield w y k => exact ⟨ht _ _ _ h ho.1, ho.2⟩
  | ret w a => exact ht _ _ _ h ho
  | raise w e => exact ht _ _ _ h ho

theorem moves_bind {R : W → W → Prop} (ht : ∀ a b c, R a b → R b c → R a c) {f : A → Gen W Y B} {o : Out W Y A} :
    ∀ {w0 : W}, o.Moves R w0 → (∀ a w, (f a w).Moves R w) → (o.bind f).Moves R w0 := by
  induction o with
  | yield w y k ih => intro w0 ho hf; exact ⟨ho.1, fun w' => ih w' (ho.2 w') hf⟩
  | ret w a => intro w0 ho hf; exact moves_trans ht ho (hf a w)
  | raise w e => intro w0 ho _; exact ho

/-- If others keep to `R` as well, all states of a run are reached by `R`. -/
theorem runs_moves {R : W → W → Prop} (ht : ∀ a b c, R a b → R b c → R a c) (hrel : ∀ a b, Rel a b → R a b) {o : Out W Y A}
    {l : List (W × Y)} {e : GEnd W A} (hr : Runs Rel o l e) : ∀ {w0 : W}, o.Moves R w0 →
    (∀ x ∈ l, R w0 x.1) ∧ (∀ w r, e = .ret w r → R w0 w) ∧ ∀ w x, e = .raise w x → R w0 w := by
  induction hr with
  | ret => intro w0 ho; exact ⟨by simp, fun w r h => by cases h; exact ho, by simp⟩
  | raise => intro w0 ho; exact ⟨by simp, by simp, fun w r h => by cases h; exact ho⟩
  | cut => intro w0 ho; exact ⟨by simpa using ho.1, by simp, by simp⟩
  | yield hw _ ih =>
    intro w0 ho
    have h1 := ht _ _ _ ho.1 (hrel _ _ hw)
    obtain ⟨a, b, c⟩ := ih (ho.2 _)
    refine ⟨fun x hx => ?_, fun w r h => ht _ _ _ h1 (b w r h), fun w r h => ht _ _ _ h1 (c w r h)⟩
    rcases List.mem_cons.1 hx with rfl | hx
    · exact ho.1
    · exact ht _ _ _ h1 (a x hx)

end

/-! ## Particular runs, for examples -/

section
variable {W Y A : Type}

/-- The run of a generator when others change the world by `f i` after the event number `i`. -/
def Out.under (f : ℕ → W → W) : ℕ → Out W Y A → List (W × Y) × GEnd W A
  | i, .yield w y k => ((w, y) :: ((k (f i w)).under f (i + 1)).1, ((k (f i w)).under f (i + 1)).2)
  | _, .ret w a => ([], .ret w a)
  | _, .raise w e => ([], .raise w e)

theorem runs_under {Rel : W → W → Prop} {f : ℕ → W → W} (hr : ∀ i w, Rel w (f i w)) (o : Out W Y A) : ∀ i, Runs Rel o (o.under f i).1 (o.under f i).2 := by
  induction o with
  | yield w y k ih => intro i; exact .yield (hr i w) (ih _ _)
  | ret w a => intro i; exact .ret
  | raise w e => intro i; exact .raise

theorem under_ne_cut (f : ℕ → W → W) (o : Out W Y A) : ∀ i, (o.under f i).2 ≠ .cut := by
  induction o with
  | yield w y k ih => intro i; exact ih _ _
  | ret w a => intro i; simp [Out.under]
  | raise w e => intro i; simp [Out.under]

/-- The run of a generator when nobody else changes anything. -/
def Out.solo (o : Out W Y A) : List (W × Y) × GEnd W A := o.under (fun _ w => w) 0

theorem runs_solo {Rel : W → W → Prop} (hr : ∀ w, Rel w w) (o : Out W Y A) : Runs Rel o o.solo.1 o.solo.2 := runs_under (fun _ w => hr w) o 0

end

/-! ## The combinators -/

variable {A B : Type} {Rel : Mach → Mach → Prop} {Q : List (Mach × YV) → GEnd Mach A → Prop} {acc : List (Mach × YV)} {w : Mach}

@[simp] theorem genM_bind_apply (g : GenM A) (f : A → GenM B) (w : Mach) : (g >>= f) w = (g w).bind f := rfl
@[simp] theorem genM_pure_apply (a : A) (w : Mach) : (Pure.pure a : GenM A) w = .ret w a := rfl
@[simp] theorem genM_pure'_apply (a : A) (w : Mach) : (GenM.pure a) w = .ret w a := rfl
@[simp] theorem genM_throw_apply (e : PyErr) (w : Mach) : (GenM.throw e : GenM A) w = .raise w e := rfl
@[simp] theorem genM_set_apply (f : Mach → Mach) (w : Mach) : GenM.set f w = .ret (f w) () := rfl
@[simp] theorem genM_get_apply (f : Mach → A) (w : Mach) : GenM.get f w = .ret w (f w) := rfl
@[simp] theorem out_bind_ret (w : Mach) (a : A) (f : A → GenM B) : (Out.ret w a : Out Mach YV A).bind f = f a w := rfl
@[simp] theorem out_bind_raise (w : Mach) (e : PyErr) (f : A → GenM B) : (Out.raise w e : Out Mach YV A).bind f = .raise w e := rfl
@[simp] theorem out_bind_yield (w : Mach) (y : YV) (k : GenM A) (f : A → GenM B) :
    (Out.yield w y k : Out Mach YV A).bind f = .yield w y (fun w' => (k w').bind f) := rfl
@[simp] theorem genM_event_apply (t : ℚ) (n : String) (a : Act) (w : Mach) :
    GenM.event t n a w = .yield w (.ev ⟨round4 t, n, a⟩) (fun w' => .ret w' ()) := rfl
@[simp] theorem genM_yield_apply (y : YV) (w : Mach) : GenM.yield y w = .yield w y (fun w' => .ret w' ()) := rfl
theorem genM_act_apply (f : Mach → Mach × Except PyErr A) (w : Mach) :
    GenM.act f w = match f w with | (w', .ok a) => .ret w' a | (w', .error e) => .raise w' e := rfl
theorem genM_act_ok {f : Mach → Mach × Except PyErr A} {w w' : Mach} {a : A} (h : f w = (w', .ok a)) : GenM.act f w = .ret w' a := by
  rw [genM_act_apply, h]
theorem genM_act_error {f : Mach → Mach × Except PyErr A} {w w' : Mach} {e : PyErr} (h : f w = (w', .error e)) :
    GenM.act f w = .raise w' e := by rw [genM_act_apply, h]
@[simp] theorem genM_lift_ok (a : A) (w : Mach) : GenM.lift (.ok a) w = .ret w a := rfl
@[simp] theorem genM_lift_error (e : PyErr) (w : Mach) : (GenM.lift (.error e) : GenM A) w = .raise w e := rfl

/-- An operation either returns or raises. -/
theorem wp_act {f : Mach → Mach × Except PyErr A} (h : ∀ w' r, f w = (w', r) → match r with
    | .ok a => Q acc (.ret w' a) | .error e => Q acc (.raise w' e)) : (GenM.act f w).wp Rel Q acc := by
  rw [genM_act_apply]
  rcases hf : f w with ⟨w', r | r⟩
  · exact h _ _ hf
  · exact h _ _ hf

theorem yields_event {P : YV → Prop} {t : ℚ} {n : String} {a : Act} (h : P (.ev ⟨round4 t, n, a⟩)) (w : Mach) : (GenM.event t n a w).Yields P :=
  ⟨h, fun _ => trivial⟩
theorem yields_act {P : YV → Prop} (f : Mach → Mach × Except PyErr A) (w : Mach) : (GenM.act f w).Yields P := by
  rw [genM_act_apply]; split <;> trivial

theorem moves_event {R : Mach → Mach → Prop} (hr : ∀ w, R w w) (t : ℚ) (n : String) (a : Act) (w : Mach) : (GenM.event t n a w).Moves R w :=
  ⟨hr w, fun w' => hr w'⟩
theorem moves_yield {R : Mach → Mach → Prop} (hr : ∀ w, R w w) (y : YV) (w : Mach) : (GenM.yield y w).Moves R w :=
  ⟨hr w, fun w' => hr w'⟩
theorem moves_act {R : Mach → Mach → Prop} {f : Mach → Mach × Except PyErr A} {w : Mach} (h : R w (f w).1) : (GenM.act f w).Moves R w := by
  rw [genM_act_apply]
  rcases hf : f w with ⟨w', r | r⟩ <;> (rw [hf] at h; exact h)

end Verif
