import Verif.Spec.Emma
import Verif.Spec.Shift
import Verif.Props.Shift
import Verif.Props.Vision
import Mathlib.Analysis.Real.Pi.Bounds
/-! # Visual angles, EMMA and the fovea: C58 and C59 -/
namespace Verif.Props
open Verif Verif.Spec

theorem pixels_unique {a b : ℝ × ℝ} {d e : ℝ} (h : PixelsApart a b d) (h' : PixelsApart a b e) : d = e := by
  have := h.2.trans h'.2.symm
  exact (pow_left_inj₀ h.1 h'.1 (by norm_num)).1 this

theorem pixelDistance_spec (a b : ℝ × ℝ) : PixelsApart a b (pixelDistance a b) := by
  refine ⟨Real.sqrt_nonneg _, ?_⟩
  unfold pixelDistance
  rw [Real.sq_sqrt (by positivity)]
  ring

theorem seen_unique {S : Screening} {a b : ℝ × ℝ} {θ η : ℝ} (h : SeenUnder S a b θ) (h' : SeenUnder S a b η) : θ = η := by
  obtain ⟨h1, h2, d, h3, h4⟩ := h
  obtain ⟨k1, k2, e, k3, k4⟩ := h'
  have := pixels_unique h3 k3
  subst this
  have hp := Real.pi_pos
  exact Real.injOn_tan ⟨by linarith, h2⟩ ⟨by linarith, k2⟩ (h4.trans k4.symm)

theorem visualAngle_seen {S : Screening} (hS : RealScreen S) (a b : ℝ × ℝ) : ∃ θ, visualAngle S a b = .ok θ ∧ SeenUnder S a b θ := by
  obtain ⟨h1, h2, h3⟩ := hS
  have hpx : S.width / S.cm ≠ 0 := by positivity
  refine ⟨pyAtan2 (pixelDistance a b / (S.width / S.cm)) S.view, ?_, ?_, ?_, pixelDistance a b, pixelDistance_spec a b, ?_⟩
  · simp only [visualAngle, Screening.pxPerCm, if_neg h2.ne', if_neg hpx]
  · unfold pyAtan2
    rw [Complex.arg_nonneg_iff]
    exact div_nonneg (pixelDistance_spec a b).1 (by positivity)
  · unfold pyAtan2
    exact (abs_lt.1 (Complex.abs_arg_lt_pi_div_two_iff.2 (Or.inl h3))).2
  · unfold pyAtan2
    rw [Complex.tan_arg]
    simp only
    congr 1
    field_simp

/-- C58, angles: on every screen the visual angle between two points is computed, it is the angle under which they are seen, and no
other is. -/
theorem C58_angle {S : Screening} (hS : RealScreen S) (a b : ℝ × ℝ) (θ : ℝ) : visualAngle S a b = .ok θ ↔ SeenUnder S a b θ := by
  obtain ⟨η, h1, h2⟩ := visualAngle_seen hS a b
  constructor
  · intro h
    rw [h1] at h
    cases h
    exact h2
  · intro h
    rw [h1, seen_unique h2 h]

theorem seen_symm {S : Screening} {a b : ℝ × ℝ} {θ : ℝ} (h : SeenUnder S a b θ) : SeenUnder S b a θ := by
  obtain ⟨h1, h2, d, ⟨h3, h4⟩, h5⟩ := h
  exact ⟨h1, h2, d, ⟨h3, by rw [h4]; ring⟩, h5⟩

/-- C58, angles do not depend on the order of the points and are the same everywhere on the screen. -/
theorem C58_angle_symmetric {S : Screening} (hS : RealScreen S) (a b m : ℝ × ℝ) :
    visualAngle S a b = visualAngle S b a ∧ visualAngle S (a + m) (b + m) = visualAngle S a b := by
  obtain ⟨θ, h1, h2⟩ := visualAngle_seen hS a b
  refine ⟨?_, ?_⟩
  · rw [h1]
    exact ((C58_angle hS b a θ).2 (seen_symm h2)).symm
  · rw [h1]
    refine (C58_angle hS _ _ θ).2 ?_
    obtain ⟨k1, k2, d, ⟨k3, k4⟩, k5⟩ := h2
    exact ⟨k1, k2, d, ⟨k3, by rw [k4]; simp⟩, k5⟩

/-- The distance of two points on the screen in terms of the angle. -/
theorem seen_dist {S : Screening} (hS : RealScreen S) {a b : ℝ × ℝ} {θ : ℝ} (h : SeenUnder S a b θ) :
    PixelsApart a b (S.width / S.cm * Real.tan θ * S.view) := by
  obtain ⟨h1, h2, h3⟩ := hS
  obtain ⟨_, _, d, k3, k4⟩ := h
  have : S.width / S.cm * Real.tan θ * S.view = d := by rw [k4]; field_simp
  rw [this]
  exact k3

theorem seen_le {S : Screening} (hS : RealScreen S) {f a b : ℝ × ℝ} {θ η : ℝ} (h : SeenUnder S f a θ) (h' : SeenUnder S f b η) :
    NearerTo f a b ↔ θ < η := by
  have e1 := seen_dist hS h
  have e2 := seen_dist hS h'
  obtain ⟨h1, h2, h3⟩ := hS
  have hp := Real.pi_pos
  have c : 0 < S.width / S.cm := by positivity
  have key : NearerTo f a b ↔ Real.tan θ < Real.tan η := by
    have k1 : (a.1 - f.1) ^ 2 + (a.2 - f.2) ^ 2 = (S.width / S.cm * Real.tan θ * S.view) ^ 2 := by rw [e1.2]; ring
    have k2 : (b.1 - f.1) ^ 2 + (b.2 - f.2) ^ 2 = (S.width / S.cm * Real.tan η * S.view) ^ 2 := by rw [e2.2]; ring
    unfold NearerTo
    rw [k1, k2, pow_lt_pow_iff_left₀ e1.1 e2.1 (by norm_num)]
    constructor
    · intro hh
      exact lt_of_mul_lt_mul_left (lt_of_mul_lt_mul_right hh h3.le) c.le
    · intro hh
      exact mul_lt_mul_of_pos_right (mul_lt_mul_of_pos_left hh c) h3
  rw [key]
  exact Real.strictMonoOn_tan.lt_iff_lt ⟨by linarith [h.1], h.2.1⟩ ⟨by linarith [h'.1], h'.2.1⟩

/-- C58, inverse: `calculate_distance` gives the distance in pixels of points that are seen under the given angle. -/
theorem C58_distance {S : Screening} (hS : RealScreen S) (a b : ℝ × ℝ) (θ deg x : ℝ) (h0 : 0 ≤ θ) (h1 : θ < Real.pi / 2)
    (hd : InDegrees θ deg) (hx : angleDistance S deg = .ok x) : visualAngle S a b = .ok θ ↔ PixelsApart a b x := by
  have hθ : deg * Real.pi / 180 = θ := by rw [hd]; ring
  simp only [angleDistance, Screening.pxPerCm, if_neg hS.2.1.ne', Except.ok.injEq, hθ] at hx
  rw [C58_angle hS]
  constructor
  · intro h
    rw [← hx]
    exact seen_dist hS h
  · intro h
    refine ⟨h0, h1, x, h, ?_⟩
    obtain ⟨k1, k2, k3⟩ := hS
    rw [← hx]
    field_simp

/-- C58 as documented: without noise, an object at `site` that is seen under an angle of `deg` degrees from the focus is encoded in
K * vis_delay * e^(k * deg) seconds, the movement of the eye is prepared in 0.135 s and takes 0.07 s and 0.002 s for every degree, and it
ends at the object. -/
def C58_full : Prop := ∀ (S : Screening) (E : EmmaParams) (focus site : ℝ × ℝ) (v θ deg : ℝ),
  RealScreen S → SeenUnder S focus site θ → InDegrees θ deg → v ≠ 0 →
  emmaShift S E EmmaNoise.off focus site (some v) = .ok ((E.K * v * Real.exp (E.k * deg), 0.135, 0.07 + 0.002 * deg), site)

/-- What is computed: the time of encoding depends on the angle in radians. -/
theorem emma_exact {S : Screening} (E : EmmaParams) {focus site : ℝ × ℝ} {v θ deg : ℝ} (hS : RealScreen S) (h : SeenUnder S focus site θ)
    (hd : InDegrees θ deg) (hv : v ≠ 0) :
    emmaShift S E EmmaNoise.off focus site (some v) = .ok ((E.K * v * Real.exp (E.k * θ), 0.135, 0.07 + 0.002 * deg), site) := by
  have hp := Real.pi_pos
  have hdeg : 180 * θ / Real.pi = deg := by rw [← hd]; field_simp
  simp only [emmaShift, (C58_angle hS focus site θ).2 h, EmmaNoise.off, attentionDelay, preparationTime, executionTime, maybeNoisy,
    landingSite, if_neg hv, hdeg]

/-- C58, partial: as documented except that the time of encoding is K * vis_delay * e^(k * angle) with the angle in radians (missing:
degrees, see `C58_refuted`). -/
theorem C58_partial (S : Screening) (E : EmmaParams) (focus site : ℝ × ℝ) (v θ deg : ℝ) (hS : RealScreen S)
    (h : SeenUnder S focus site θ) (hd : InDegrees θ deg) (hv : v ≠ 0) :
    emmaShift S E EmmaNoise.off focus site (some v) = .ok ((E.K * v * Real.exp (E.k * θ), 0.135, 0.07 + 0.002 * deg), site) :=
  emma_exact E hS h hd hv

/-- An example of a screen: 640 pixels and 64 cm wide, 50 cm away. -/
def exScreen : Screening := ⟨640, 64, 50⟩

theorem exScreen_real : RealScreen exScreen := by unfold RealScreen exScreen; norm_num

/-- Two points 500 pixels (50 cm) apart are seen under an angle of 45 degrees. -/
theorem exScreen_seen : SeenUnder exScreen (0, 0) (300, 400) (Real.pi / 4) := by
  have hp := Real.pi_pos
  refine ⟨by positivity, by linarith, 500, ⟨by norm_num, by norm_num⟩, ?_⟩
  rw [Real.tan_pi_div_four]
  norm_num [exScreen]

example : InDegrees (Real.pi / 4) 45 := by unfold InDegrees; ring

/-- C58 does not hold: an object 45 degrees away is encoded as if it were less than one degree away. -/
theorem C58_refuted : ¬ C58_full := by
  intro h
  have hd : InDegrees (Real.pi / 4) 45 := by unfold InDegrees; ring
  have h1 := h exScreen ⟨1, 1⟩ (0, 0) (300, 400) 1 (Real.pi / 4) 45 exScreen_real exScreen_seen hd one_ne_zero
  rw [emma_exact ⟨1, 1⟩ exScreen_real exScreen_seen hd one_ne_zero] at h1
  simp only [Except.ok.injEq, Prod.mk.injEq, one_mul, Real.exp_eq_exp, and_true] at h1
  linarith [Real.pi_lt_four]

/-- C58, order: what is farther from the focus takes longer to encode and to move to, whatever the delay of the object; and nothing is
encoded faster than an object at the focus. -/
theorem C58_farther (S : Screening) (E : EmmaParams) (focus a b : ℝ × ℝ) (v : ℝ) (ra rb : (ℝ × ℝ × ℝ) × (ℝ × ℝ)) (hS : RealScreen S)
    (hK : 0 < E.K) (hk : 0 < E.k) (hv : 0 < v) (ha : emmaShift S E EmmaNoise.off focus a (some v) = .ok ra)
    (hb : emmaShift S E EmmaNoise.off focus b (some v) = .ok rb) :
    (NearerTo focus a b ↔ ra.1.1 < rb.1.1) ∧ (NearerTo focus a b ↔ ra.1.2.2 < rb.1.2.2) ∧ ra.1.2.1 = rb.1.2.1 ∧ E.K * v ≤ ra.1.1 := by
  obtain ⟨θ, _, hθ⟩ := visualAngle_seen hS focus a
  obtain ⟨η, _, hη⟩ := visualAngle_seen hS focus b
  have hp := Real.pi_pos
  have hdθ : InDegrees θ (180 * θ / Real.pi) := by unfold InDegrees; field_simp
  have hdη : InDegrees η (180 * η / Real.pi) := by unfold InDegrees; field_simp
  rw [emma_exact E hS hθ hdθ hv.ne'] at ha
  rw [emma_exact E hS hη hdη hv.ne'] at hb
  cases ha
  cases hb
  have hKv : 0 < E.K * v := by positivity
  rw [seen_le hS hθ hη]
  refine ⟨?_, ?_, rfl, ?_⟩
  · show θ < η ↔ E.K * v * Real.exp (E.k * θ) < E.K * v * Real.exp (E.k * η)
    rw [mul_lt_mul_iff_right₀ hKv, Real.exp_lt_exp, mul_lt_mul_iff_right₀ hk]
  · show θ < η ↔ 0.07 + 0.002 * (180 * θ / Real.pi) < 0.07 + 0.002 * (180 * η / Real.pi)
    rw [add_lt_add_iff_left, mul_lt_mul_iff_right₀ (by norm_num), div_lt_div_iff_of_pos_right hp, mul_lt_mul_iff_right₀ (by norm_num)]
  · show E.K * v ≤ E.K * v * Real.exp (E.k * θ)
    have : 1 ≤ Real.exp (E.k * θ) := Real.one_le_exp (mul_nonneg hk.le hθ.1)
    nlinarith

example : NearerTo (0, 0) (3, 4) (300, 400) := by unfold NearerTo; norm_num

theorem maybeNoisy_nonneg {noise : Option ℝ} {m : ℝ} (hm : 0 ≤ m) (hn : ∀ x, noise = some x → 0 ≤ x) :
    ∃ r, maybeNoisy noise m = .ok r ∧ 0 ≤ r := by
  cases noise with
  | none => exact ⟨m, rfl, hm⟩
  | some d =>
    refine ⟨m / 9 * d, ?_, mul_nonneg (by positivity) (hn d rfl)⟩
    simp only [maybeNoisy, gammaDraw]
    rw [if_neg (by have : 0 ≤ m / 9 := by positivity
                   linarith)]

/-- C58, noise: with or without noise, on every screen and for every object, the shift has times and none of them is negative. -/
theorem C58_times (S : Screening) (E : EmmaParams) (N : EmmaNoise) (focus site : ℝ × ℝ) (v : Option ℝ) (hS : RealScreen S)
    (hK : 0 ≤ E.K) (hv : ∀ x, v = some x → 0 ≤ x) (hN : NonNegNoise N) :
    ∃ r, emmaShift S E N focus site v = .ok r ∧ 0 ≤ r.1.1 ∧ 0 ≤ r.1.2.1 ∧ 0 ≤ r.1.2.2 := by
  obtain ⟨θ, h1, h2⟩ := visualAngle_seen hS focus site
  have hp := Real.pi_pos
  have hm : 0 ≤ (match v with
    | some x => if x = 0 then 0 else E.K * x * Real.exp (E.k * θ)
    | Option.none => (0 : ℝ)) := by
    cases v with
    | none => exact le_refl _
    | some x =>
      dsimp only
      split
      · exact le_refl _
      · exact mul_nonneg (mul_nonneg hK (hv x rfl)) (Real.exp_pos _).le
  have hx : (0 : ℝ) ≤ 0.07 + 0.002 * (180 * θ / Real.pi) := by
    have : 0 ≤ 180 * θ / Real.pi := div_nonneg (by linarith [h2.1]) hp.le
    linarith
  obtain ⟨e, e1, e2⟩ : ∃ e, attentionDelay θ E.K E.k N.encoding v = .ok e ∧ 0 ≤ e := maybeNoisy_nonneg hm (fun x h => hN x (Or.inl h))
  obtain ⟨p, p1, p2⟩ := maybeNoisy_nonneg (m := 0.135) (by norm_num) (fun x h => hN x (Or.inr (Or.inl h)))
  obtain ⟨x, x1, x2⟩ := maybeNoisy_nonneg hx (fun x h => hN x (Or.inr (Or.inr h)))
  refine ⟨((e, p, x), landingSite site θ N.site), ?_, e2, p2, x2⟩
  simp only [emmaShift, h1, e1, preparationTime, p1, executionTime, x1]

/-- C58 in a simulation whose numbers are computed in this way: no time of a shift is negative, as C41 assumes. -/
theorem C58_clock (C : Cfg) (S : Screening) (E : EmmaParams) (N : ℕ → EmmaNoise) (hC : Computes C S E N) (hfl : KeepsSign C.fl)
    (hS : RealScreen S) (hK : 0 ≤ E.K) (hN : ∀ i, NonNegNoise (N i)) (i : ℕ) (f s : ℚ × ℚ) (d : Option ℚ) (hd : ∀ q, d = some q → 0 ≤ q) :
    ∃ r, C.emma i f s d = .ok r ∧ 0 ≤ r.1.1 ∧ 0 ≤ r.1.2.1 ∧ 0 ≤ r.1.2.2 := by
  obtain ⟨r, h1, h2, h3, h4⟩ := C58_times S E (N i) (toReal2 f) (toReal2 s) (d.map (fun q : ℚ => (q : ℝ))) hS hK
    (by
      intro x hx
      cases d with
      | none => cases hx
      | some q => cases hx; show (0 : ℝ) ≤ ((q : ℚ) : ℝ); exact_mod_cast hd q rfl) (hN i)
  refine ⟨_, by rw [hC.emma, h1]; rfl, hfl _ h2, hfl _ h3, hfl _ h4⟩

/-- The hypotheses of `C58_clock` are met by a simulation on the screen of the example, with noise. -/
example (P : Py) : ∃ C S E N, Computes C S E N ∧ KeepsSign C.fl ∧ RealScreen S ∧ 0 ≤ E.K ∧ (∀ i, NonNegNoise (N i)) := by
  refine ⟨{ exCfg P with emma := fun _ f s d => (emmaShift exScreen ⟨1, 1⟩ ⟨some 8, some 9, some 10, Option.none⟩ (toReal2 f) (toReal2 s)
      (d.map (fun q : ℚ => (q : ℝ)))).map (fun r => (((exCfg P).fl r.1.1, (exCfg P).fl r.1.2.1, (exCfg P).fl r.1.2.2),
        ((exCfg P).fl r.2.1, (exCfg P).fl r.2.2))), foveal := 1 / 20 }, exScreen, ⟨1, 1⟩, fun _ => ⟨some 8, some 9, some 10, Option.none⟩,
    ⟨fun _ _ _ _ => rfl, ?_⟩, ?_, exScreen_real, by norm_num, ?_⟩
  · exact ⟨_, by simp only [angleDistance, Screening.pxPerCm, if_neg exScreen_real.2.1.ne']; rfl, rfl⟩
  · intro x _; norm_num [exCfg]
  · intro _ x h; rcases h with h | h | h <;> cases h <;> norm_num

/-- C58, automatic buffering: it takes at least as long as encoding the same object by a shift, and longer unless the object is at the
focus. -/
theorem C58_buffering (S : Screening) (E : EmmaParams) (focus p : ℝ × ℝ) (v enc : ℝ) (r : (ℝ × ℝ × ℝ) × (ℝ × ℝ)) (hS : RealScreen S)
    (hK : 0 < E.K) (hk : 0 < E.k) (hv : 0 < v) (hb : bufferingTime S E Option.none focus p (some v) = .ok enc)
    (hs : emmaShift S E EmmaNoise.off focus p (some v) = .ok r) : r.1.1 ≤ enc ∧ (r.1.1 = enc ↔ p = focus) := by
  obtain ⟨θ, h1, hθ⟩ := visualAngle_seen hS focus p
  have hp := Real.pi_pos
  rw [emma_exact E hS hθ (deg := 180 * θ / Real.pi) (by unfold InDegrees; field_simp) hv.ne'] at hs
  cases hs
  simp only [bufferingTime, h1, attentionDelay, maybeNoisy, if_neg hv.ne', Except.ok.injEq] at hb
  subst hb
  have hKv : 0 < E.K * v := by positivity
  constructor
  · show E.K * v * Real.exp (E.k * θ) ≤ E.K * v * Real.exp (E.k * (2 * θ))
    rw [mul_le_mul_iff_right₀ hKv, Real.exp_le_exp, mul_le_mul_iff_right₀ hk]
    linarith [hθ.1]
  · show E.K * v * Real.exp (E.k * θ) = E.K * v * Real.exp (E.k * (2 * θ)) ↔ _
    rw [mul_right_inj' hKv.ne', Real.exp_eq_exp, mul_right_inj' hk.ne']
    have hd := seen_dist hS hθ
    constructor
    · intro h
      have h0 : θ = 0 := by linarith
      rw [h0, Real.tan_zero] at hd
      have h2 := hd.2
      have e1 : focus.1 - p.1 = 0 := by nlinarith [sq_nonneg (focus.1 - p.1), sq_nonneg (focus.2 - p.2)]
      have e2 : focus.2 - p.2 = 0 := by nlinarith [sq_nonneg (focus.1 - p.1), sq_nonneg (focus.2 - p.2)]
      exact Prod.ext (by linarith) (by linarith)
    · rintro rfl
      have : SeenUnder S p p 0 := ⟨le_refl _, by positivity, 0, ⟨le_refl _, by ring⟩, by simp⟩
      have h0 := seen_unique hθ this
      rw [h0]
      ring

/-! ## C59 -/

/-- Automatic buffering is about the fovea: what is buffered is an object in the fovea, and if there is one whose text is not in the
buffer yet then something is buffered. -/
def C59_full : Prop := ∀ (C : Cfg) (S : Screening) (name : String) (objects : List Stim) (t : ℚ) (w w' : Mach) (b : Buf) (evs : List Verif.Ev),
  C.P.H.CollisionFree → RegOk C.P.toPyEnv w.reg → (∀ s ∈ objects, (s.attrs.map Prod.fst).Nodup) → (∀ c ∈ b.data, PlainSlots c.slots) →
  RealScreen S → angleDistance S 1 = .ok (C.foveal : ℝ) →
  w.buf name = some b → Carried C (Alone name) (genAutoBuffer C name objects t w) evs w' →
  (∀ e ∈ evs, ∀ c, e.act = .autoObj c → ∃ s ∈ objects, InFovea S b.focus s ∧ ShowsText c s) ∧
  ((∃ s ∈ objects, InFovea S b.focus s ∧ ¬ KnownText b.data s) → ∃ e ∈ evs, ∃ c, e.act = .autoObj c)

theorem visChunk_shows {P : Py} {reg : Reg} (hr : RegOk P.toPyEnv reg) {s : Stim} (hn : (s.attrs.map Prod.fst).Nodup) {p : ℚ × ℚ}
    (hp : s.pos = some p) {reg' : Reg} {c : Chunk} (h : visChunk P reg s Option.none = (reg', .ok c)) :
    ShowsText c s ∧ c.slots ≠ [] ∧ RegOk P.toPyEnv reg' := by
  unfold visChunk at h
  dsimp only at h
  rcases hl : locChunk P reg s true with ⟨reg1, e | loc⟩
  · rw [hl] at h; cases h
  rw [hl] at h
  dsimp only at h
  have hr1 := (locChunk_located hr hn hp hl).2
  set dict := aset "value" (SlotArg.text (s.text.getD "")) (aset "screen_pos" (SlotArg.chunk loc) (s.attrs.map (fun p => (p.1, SlotArg.text p.2))))
    with hdict
  have hnd : (dict.map Prod.fst).Nodup := nodup_aset _ _ _ (nodup_aset _ _ _ (by simpa [List.map_map, Function.comp_def] using hn))
  cases hv : convertAll P.toPyEnv dict with
  | error e => simp only [createChunk, hv] at h; cases h
  | ok vals =>
    rcases createChunk_cases hr1 (typ := s.visType.getD "_visual") hnd hv with ⟨_, sl, r', e, _, hl, _, _, hr'⟩ | ⟨_, er, e, _⟩
    swap
    · rw [e] at h; cases h
    rw [e] at h
    cases h
    obtain ⟨hkeys, hc⟩ := convertAll_ok hv
    have hk : alook "value" dict = some (SlotArg.text (s.text.getD "")) := by rw [hdict, alook_aset]; simp
    obtain ⟨x, hx, hm⟩ := hc "value" _ (mem_of_alook' hk)
    have hm' : ("value", (SlotOf.vv x : Slot)) ∈ vals.map (fun p => (p.1, SlotOf.vv p.2)) := List.mem_map.2 ⟨_, hm, rfl⟩
    have := alook_of_mem (by simpa [List.map_map, Function.comp_def, hkeys] using hnd) hm'
    have hlf := hl "value"
    rw [this] at hlf
    have hmem := mem_of_alook' hlf
    refine ⟨?_, ?_, hr'⟩
    swap
    · intro h0
      have h0 : sl = [] := h0
      rw [h0] at hmem
      cases hmem
    intro t ht hpl
    rw [ht] at hx
    simp only [SlotArg.convert, Option.getD_some] at hx
    rw [C11_plain _ _ hpl] at hx
    cases hx
    exact hmem

theorem plain_looked {sl : Slots} {n : String} {x : VarVal} (h : PlainSlots sl) (hx : alook n sl = some (.vv x)) : PlainVal x.values := by
  induction sl with
  | nil => cases hx
  | cons q r ih =>
    obtain ⟨m, y⟩ := q
    simp only [PlainSlots] at h
    rw [alook] at hx
    split at hx
    · cases hx
      exact h.1.1
    · exact ih h.2 hx

/-- What the loop does. -/
theorem autoBufferLoop_spec {C : Cfg} (cf : C.P.H.CollisionFree) {data : List Chunk} (hpl : ∀ c ∈ data, PlainSlots c.slots) {cf' : ℚ × ℚ} :
    ∀ (objects : List Stim) (w w' : Mach) (acc r : Option (Chunk × ℚ)), (∀ s ∈ objects, (s.attrs.map Prod.fst).Nodup) →
    RegOk C.P.toPyEnv w.reg → autoBufferLoop C data cf' objects w acc = (w', .ok r) →
    (r = acc ∧ ∀ s ∈ objects, ∀ p, s.pos = some p → nearFocus C.foveal (toReal2 cf') (toReal2 p) → KnownText data s) ∨
    ∃ s ∈ objects, ∃ p c d, s.pos = some p ∧ nearFocus C.foveal (toReal2 cf') (toReal2 p) ∧ r = some (c, d) ∧ ShowsText c s ∧ c.slots ≠ [] := by
  intro objects
  induction objects with
  | nil =>
    intro w w' acc r _ _ h
    simp only [autoBufferLoop, Prod.mk.injEq, Except.ok.injEq] at h
    exact .inl ⟨h.2.symm, by simp⟩
  | cons s rest ih =>
    intro w w' acc r hn hr h
    have hn' : ∀ s ∈ rest, (s.attrs.map Prod.fst).Nodup := fun s hs => hn s (List.mem_cons_of_mem _ hs)
    set Goal : Prop := (r = acc ∧ ∀ s' ∈ s :: rest, ∀ p, s'.pos = some p → nearFocus C.foveal (toReal2 cf') (toReal2 p) → KnownText data s') ∨
      ∃ s' ∈ s :: rest, ∃ p c d, s'.pos = some p ∧ nearFocus C.foveal (toReal2 cf') (toReal2 p) ∧ r = some (c, d) ∧ ShowsText c s' ∧ c.slots ≠ []
    show Goal
    have later : ∀ {w1 : Mach} {acc1 : Option (Chunk × ℚ)}, RegOk C.P.toPyEnv w1.reg → autoBufferLoop C data cf' rest w1 acc1 = (w', .ok r) →
        (acc1 = acc ∧ (∀ p, s.pos = some p → nearFocus C.foveal (toReal2 cf') (toReal2 p) → KnownText data s)) ∨
          (∃ p c d, s.pos = some p ∧ nearFocus C.foveal (toReal2 cf') (toReal2 p) ∧ acc1 = some (c, d) ∧ ShowsText c s ∧ c.slots ≠ []) → Goal := by
      intro w1 acc1 hr1 h1 hs
      rcases ih w1 w' acc1 r hn' hr1 h1 with ⟨rfl, hk⟩ | ⟨s', hs', hrest⟩
      · rcases hs with ⟨rfl, hs⟩ | ⟨p, c, d, h2, h3, h4, h5⟩
        · left
          refine ⟨rfl, ?_⟩
          intro s' hs'
          rcases List.mem_cons.1 hs' with rfl | hs'
          · exact hs
          · exact hk s' hs'
        · exact .inr ⟨s, List.mem_cons_self, p, c, d, h2, h3, h4, h5⟩
      · exact .inr ⟨s', List.mem_cons_of_mem _ hs', hrest⟩
    unfold autoBufferLoop at h
    cases hp : s.pos with
    | none => rw [hp] at h; cases h
    | some p =>
      rw [hp] at h
      dsimp only at h
      have hnear : nearFocus C.foveal (toReal2 cf') (toReal2 p) ↔
          (cf'.1 - C.foveal < p.1 ∧ p.1 < cf'.1 + C.foveal ∧ cf'.2 - C.foveal < p.2 ∧ p.2 < cf'.2 + C.foveal) := by
        unfold nearFocus toReal2
        dsimp only
        norm_cast
      split at h
      · next hc =>
        split at h
        · cases h
        · next hk =>
          refine later hr h (.inl ⟨rfl, ?_⟩)
          intro _ _ _
          cases data with
          | nil => cases hk
          | cons c l =>
            dsimp only at hk
            cases hv : slotValue c "value" with
            | error e => rw [hv] at hk; cases hk
            | ok v =>
              rw [hv] at hk
              dsimp only at hk
              cases ht : s.text with
              | none => rw [ht] at hk; cases hk
              | some txt =>
                rw [ht] at hk
                simp only [Except.ok.injEq, Bool.not_eq_false'] at hk
                unfold slotValue at hv
                split at hv
                · next x hx =>
                  cases hv
                  refine ⟨c, x, txt, rfl, hx, ht, ?_⟩
                  exact (pyEq_iff cf _ _ (plain_looked (hpl c List.mem_cons_self) hx) (plainVal_str _)).1 hk
                · cases hv
        · next hk =>
          rcases hvc : visChunk C.P w.reg s Option.none with ⟨reg1, e | c⟩
          · rw [hvc] at h; cases h
          · rw [hvc] at h
            obtain ⟨h1, h2, h3⟩ := visChunk_shows hr (hn s List.mem_cons_self) hp hvc
            exact later (w1 := { w with reg := reg1, tick := w.tick + 1 }) h3 h (.inr ⟨p, c, _, hp, hnear.2 hc, rfl, h1, h2⟩)
      · next hc =>
        refine later hr h (.inl ⟨rfl, ?_⟩)
        intro p' hp' hn'
        rw [hp] at hp'
        cases hp'
        exact absurd (hnear.1 hn') hc

/-- What automatic buffering reports. -/
theorem ends_autoBuffer {C : Cfg} (cf : C.P.H.CollisionFree) {name : String} {objects : List Stim} {t : ℚ} {w : Mach} {b : Buf}
    (hr : RegOk C.P.toPyEnv w.reg) (hn : ∀ s ∈ objects, (s.attrs.map Prod.fst).Nodup) (hpl : ∀ c ∈ b.data, PlainSlots c.slots)
    (hb : w.buf name = some b) {K : List Verif.Ev → Mach → Desc → Prop} : (genAutoBuffer C name objects t w).ends (Alone name) (fun evs _ _ =>
      ((∀ e ∈ evs, ∀ c, e.act ≠ .autoObj c) ∧
          ∀ s ∈ objects, ∀ p, s.pos = some p → nearFocus C.foveal (toReal2 b.focus) (toReal2 p) → KnownText b.data s) ∨
        ∃ s ∈ objects, ∃ p c, s.pos = some p ∧ nearFocus C.foveal (toReal2 b.focus) (toReal2 p) ∧ ShowsText c s ∧
          (∃ e ∈ evs, e.act = .autoObj c) ∧ ∀ e ∈ evs, ∀ c', e.act = .autoObj c' → c' = c) K [] := by
  unfold genAutoBuffer
  simp only [ends_bindM, ends_set, ends_event, ends_act]
  intro w1 r h1
  have hb1 : (w.upd name fun b => { b with state := .busy, autoattending := .busy }).buf name = some { b with state := .busy, autoattending := .busy } := by
    rw [buf_upd, hb]; simp
  rw [hb1] at h1
  have h2 := autoBufferLoop_spec cf hpl _ _ _ _ _ hn (by simpa [upd_reg] using hr) h1
  intro w2 hw
  rcases h2 with ⟨rfl, h2⟩ | ⟨s, hs, p, c, d, hp, hnear, rfl, hsh, hne⟩
  · dsimp only
    rw [ends_pure]
    left
    exact ⟨by simp, h2⟩
  · dsimp only
    rw [if_neg (by simpa using hne)]
    simp only [ends_bindM, ends_event, ends_act]
    intro w3 _ _ w4 _
    right
    refine ⟨s, hs, p, c, hp, hnear, hsh, ⟨_, List.mem_append_right _ (List.mem_singleton.2 rfl), rfl⟩, ?_⟩
    simp

theorem nearFocus_iff {f : ℝ} {focus pos : ℝ × ℝ} : nearFocus f focus pos ↔ |pos.1 - focus.1| < f ∧ |pos.2 - focus.2| < f := by
  unfold nearFocus
  rw [abs_lt, abs_lt]
  constructor
  · rintro ⟨h1, h2, h3, h4⟩; exact ⟨⟨by linarith, by linarith⟩, by linarith, by linarith⟩
  · rintro ⟨⟨h1, h2⟩, h3, h4⟩; exact ⟨by linarith, by linarith, by linarith, by linarith⟩

/-- One degree. -/
theorem one_degree {θ deg : ℝ} (h : InDegrees θ deg) : deg < 1 ↔ θ < Real.pi / 180 := by
  have hp := Real.pi_pos
  have e : θ = deg * Real.pi / 180 := by rw [h]; ring
  rw [e]
  constructor
  · intro h; rw [div_lt_div_iff_of_pos_right (by norm_num)]; nlinarith
  · intro h; rw [div_lt_div_iff_of_pos_right (by norm_num)] at h; nlinarith

theorem deg_lt : Real.pi / 180 < Real.pi / 2 := by have := Real.pi_pos; linarith

/-- Points within `x` pixels, where `x` is seen under one degree, are those seen under less than a degree. -/
theorem fovea_iff {S : Screening} (hS : RealScreen S) {x : ℝ} (hx : angleDistance S 1 = .ok x) {a b : ℝ × ℝ} {θ d : ℝ}
    (h : SeenUnder S a b θ) (hd : PixelsApart a b d) : θ < Real.pi / 180 ↔ d < x := by
  have hp := Real.pi_pos
  have e := pixels_unique hd (seen_dist hS h)
  obtain ⟨h1, h2, h3⟩ := hS
  simp only [angleDistance, Screening.pxPerCm, if_neg h2.ne', Except.ok.injEq, one_mul] at hx
  have c : 0 < S.width / S.cm := by positivity
  rw [e, ← hx, ← Real.strictMonoOn_tan.lt_iff_lt (a := θ) (b := Real.pi / 180) ⟨by linarith [h.1], h.2.1⟩ ⟨by linarith, deg_lt⟩]
  rw [mul_lt_mul_iff_left₀ h3, mul_lt_mul_iff_right₀ c]

theorem infovea_near {S : Screening} (hS : RealScreen S) {x : ℝ} (hx : angleDistance S 1 = .ok x) {focus p : ℚ × ℚ} {s : Stim}
    (hs : InFovea S focus s) (hp : s.pos = some p) : nearFocus x (toReal2 focus) (toReal2 p) := by
  obtain ⟨q, θ, deg, hq, h1, h2, h3⟩ := hs
  rw [hp] at hq
  cases hq
  have hd := pixelDistance_spec (toReal2 focus) (toReal2 p)
  have := (fovea_iff hS hx h1 hd).1 ((one_degree h2).1 h3)
  rw [nearFocus_iff]
  constructor
  · refine lt_of_le_of_lt (abs_le_of_sq_le_sq ?_ hd.1) this
    rw [hd.2]; nlinarith [sq_nonneg ((toReal2 focus).2 - (toReal2 p).2)]
  · refine lt_of_le_of_lt (abs_le_of_sq_le_sq ?_ hd.1) this
    rw [hd.2]; nlinarith [sq_nonneg ((toReal2 focus).1 - (toReal2 p).1)]

/-- C59, partial: what is buffered is seen under less than a degree in each direction, so under an angle whose tangent is less than √2
times that of one degree (missing: one degree in any direction, see `C59_refuted`); and if there is an object in the fovea whose text is
not in the buffer yet then something is buffered. -/
theorem C59_partial : ∀ (C : Cfg) (S : Screening) (name : String) (objects : List Stim) (t : ℚ) (w w' : Mach) (b : Buf) (evs : List Verif.Ev),
    C.P.H.CollisionFree → RegOk C.P.toPyEnv w.reg → (∀ s ∈ objects, (s.attrs.map Prod.fst).Nodup) → (∀ c ∈ b.data, PlainSlots c.slots) →
    RealScreen S → angleDistance S 1 = .ok (C.foveal : ℝ) →
    w.buf name = some b → Carried C (Alone name) (genAutoBuffer C name objects t w) evs w' →
    (∀ e ∈ evs, ∀ c, e.act = .autoObj c → ∃ s ∈ objects, ShowsText c s ∧ ∃ p, s.pos = some p ∧
      InFovea S b.focus { s with pos := some (p.1, b.focus.2) } ∧ InFovea S b.focus { s with pos := some (b.focus.1, p.2) } ∧
      ∃ θ, SeenUnder S (toReal2 b.focus) (toReal2 p) θ ∧ Real.tan θ < Real.sqrt 2 * Real.tan (Real.pi / 180)) ∧
    ((∃ s ∈ objects, InFovea S b.focus s ∧ ¬ KnownText b.data s) → ∃ e ∈ evs, ∃ c, e.act = .autoObj c) := by
  intro C S name objects t w w' b evs cf hr hn hpl hS hf hb hcar
  rcases carried_ends hcar (ends_autoBuffer (K := fun _ _ _ => False) cf hr hn hpl hb) with h | ⟨_, _, _, _, _, _, h, _⟩
  swap
  · exact h.elim
  rw [List.nil_append] at h
  rcases h with ⟨h1, h2⟩ | ⟨s, hs, p, c, hp, hnear, hsh, ⟨e0, he0, ha0⟩, hall⟩
  · refine ⟨fun e he c hc => absurd hc (h1 e he c), ?_⟩
    rintro ⟨s, hs, hfov, hk⟩
    have hfov' := hfov
    obtain ⟨p, _, _, hp, _⟩ := hfov
    exact absurd (h2 s hs p hp (infovea_near hS hf hfov' hp)) hk
  · refine ⟨?_, fun _ => ⟨e0, he0, c, ha0⟩⟩
    intro e he c' hc'
    rw [hall e he c' hc']
    refine ⟨s, hs, hsh, p, hp, ?_, ?_, ?_⟩
    all_goals rw [nearFocus_iff] at hnear
    · obtain ⟨θ, _, hθ⟩ := visualAngle_seen hS (toReal2 b.focus) (toReal2 (p.1, b.focus.2))
      have hd : InDegrees θ (180 * θ / Real.pi) := by have := Real.pi_pos; unfold InDegrees; field_simp
      refine ⟨_, θ, _, rfl, hθ, hd, (one_degree hd).2 ((fovea_iff hS hf hθ (d := |(toReal2 p).1 - (toReal2 b.focus).1|) ⟨abs_nonneg _, ?_⟩).2 hnear.1)⟩
      rw [sq_abs]; simp only [toReal2]; ring
    · obtain ⟨θ, _, hθ⟩ := visualAngle_seen hS (toReal2 b.focus) (toReal2 (b.focus.1, p.2))
      have hd : InDegrees θ (180 * θ / Real.pi) := by have := Real.pi_pos; unfold InDegrees; field_simp
      refine ⟨_, θ, _, rfl, hθ, hd, (one_degree hd).2 ((fovea_iff hS hf hθ (d := |(toReal2 p).2 - (toReal2 b.focus).2|) ⟨abs_nonneg _, ?_⟩).2 hnear.2)⟩
      rw [sq_abs]; simp only [toReal2]; ring
    · obtain ⟨θ, _, hθ⟩ := visualAngle_seen hS (toReal2 b.focus) (toReal2 p)
      refine ⟨θ, hθ, ?_⟩
      have e1 := seen_dist hS hθ
      obtain ⟨g1, g2, g3⟩ := hS
      simp only [angleDistance, Screening.pxPerCm, if_neg g2.ne', Except.ok.injEq, one_mul] at hf
      have c : 0 < S.width / S.cm := by positivity
      have hfp : (0 : ℝ) < C.foveal := lt_of_le_of_lt (abs_nonneg _) hnear.1
      have key : (S.width / S.cm * Real.tan θ * S.view) < Real.sqrt 2 * C.foveal := by
        refine lt_of_pow_lt_pow_left₀ 2 (by positivity) ?_
        rw [e1.2, mul_pow, Real.sq_sqrt (by norm_num)]
        have k1 := sq_lt_sq.2 (show |(toReal2 p).1 - (toReal2 b.focus).1| < |(C.foveal : ℝ)| by rw [abs_of_pos hfp]; exact hnear.1)
        have k2 := sq_lt_sq.2 (show |(toReal2 p).2 - (toReal2 b.focus).2| < |(C.foveal : ℝ)| by rw [abs_of_pos hfp]; exact hnear.2)
        nlinarith
      rw [← hf] at key
      have : S.width / S.cm * S.view * Real.tan θ < S.width / S.cm * S.view * (Real.sqrt 2 * Real.tan (Real.pi / 180)) := by nlinarith
      exact lt_of_mul_lt_mul_left this (by positivity)

/-! ### An example -/

/-- A screen on which one degree is fifty pixels. -/
noncomputable def exFine : Screening := ⟨1, 1, 50 / Real.tan (Real.pi / 180)⟩

theorem tan_degree_pos : 0 < Real.tan (Real.pi / 180) :=
  Real.tan_pos_of_pos_of_lt_pi_div_two (by have := Real.pi_pos; positivity) deg_lt

theorem exFine_real : RealScreen exFine := by
  have := tan_degree_pos
  refine ⟨?_, ?_, ?_⟩ <;> simp only [exFine] <;> positivity

theorem exFine_fovea (P : Py) : angleDistance exFine 1 = .ok ((exCfg P).foveal : ℝ) := by
  have := tan_degree_pos
  simp only [angleDistance, Screening.pxPerCm, exFine, exCfg, one_ne_zero, if_false, Except.ok.injEq, one_mul, div_one]
  push_cast
  field_simp

/-- An object at the corner: 49 pixels to the right and 49 down. -/
def exCorner : Stim := exStim "a" 49 49

/-- A model that looks at the middle. -/
def exLooker : Mach := exMach exShiftReg [("visual", exBuf .visual)]

theorem truncQ_nat (n : ℕ) : truncQ (n : ℚ) = n := by simp [truncQ]

/-- What is seen there. -/
def exCornerChunk : Chunk := ⟨"_visual", [("cmd", .empty), ("color", .empty), ("screen_pos", .vv ⟨.chunk "_visuallocation"
  [("color", .empty), ("screen_x", .vv (exLit "49")), ("screen_y", .vv (exLit "49")), ("value", .empty)], Option.none, [], []⟩), ("value", .vv (exLit "a"))]⟩

theorem exCorner_seen (H : PyHash) : visChunk (exPy H) exShiftReg exCorner Option.none = (exShiftReg, .ok exCornerChunk) := by
  have h49 : truncQ 49 = 49 := truncQ_nat 49
  simp only [visChunk, locChunk, exCorner, exStim, h49]
  rfl

theorem exCorner_carried (H : PyHash) : Finishes (exCfg (exPy H)) (Alone "visual") (fun _ => True)
    (genAutoBuffer (exCfg (exPy H)) "visual" [exCorner] 0 exLooker) := by
  have hl : ∀ w : Mach, w.reg = exShiftReg → autoBufferLoop (exCfg (exPy H)) [] (0, 0) [exCorner] w Option.none =
      ({ w with reg := exShiftReg, tick := w.tick + 1 }, .ok (some (exCornerChunk, 1 / 20))) := by
    intro w hw
    unfold autoBufferLoop
    rw [show exCorner.pos = some (49, 49) from rfl]
    dsimp only
    rw [if_pos (by norm_num [exCfg]), show (exCfg (exPy H)).P = exPy H from rfl, hw, exCorner_seen H]
    rfl
  unfold genAutoBuffer
  simp only [genM_bind_apply]
  rw [show GenM.set (fun w => w.upd "visual" (fun b => { b with state := .busy, autoattending := .busy })) exLooker =
    .ret (exLooker.upd "visual" (fun b => { b with state := .busy, autoattending := .busy })) () from rfl]
  rw [out_bind_ret, genM_bind_apply, genM_act_ok (by
    rw [show (exLooker.upd "visual" fun b => { b with state := .busy, autoattending := .busy }).buf "visual" =
      some { exBuf .visual with state := .busy, autoattending := .busy } from rfl]
    exact hl _ rfl)]
  refine finishes_ev rfl ⟨⟩ (finishes_ev rfl ⟨⟩ finishes_ret)

theorem exReg_ok (H : PyHash) : RegOk (exPy H).toPyEnv exShiftReg := by
  intro t fs h
  simp only [exShiftReg, alook] at h
  split at h
  · rename_i e
    subst e
    cases h
    refine ⟨?_, ?_, ?_⟩
    · unfold FieldsSorted; decide
    · simp [exPy]
    · simp [exPy]
  split at h
  · rename_i e
    subst e
    cases h
    refine ⟨?_, ?_, ?_⟩
    · unfold FieldsSorted; decide
    · simp [exPy]
    · simp [exPy]
  · cases h

/-- C59 is false: an object at the corner of the square is farther than a degree from the focus. -/
theorem C59_refuted : ¬ C59_full := by
  obtain ⟨H, cf⟩ := exists_collisionFree
  intro h
  obtain ⟨evs, w', hc, _⟩ := exCorner_carried H
  have hn : ∀ s ∈ [exCorner], (s.attrs.map Prod.fst).Nodup := by simp [exCorner, exStim]
  have hpl : ∀ c ∈ (exBuf .visual).data, PlainSlots c.slots := by simp [exBuf]
  obtain ⟨h1, -⟩ := h (exCfg (exPy H)) exFine "visual" [exCorner] 0 exLooker w' (exBuf .visual) evs cf (exReg_ok H) hn hpl exFine_real
    (exFine_fovea _) rfl hc
  have hnear : nearFocus ((exCfg (exPy H)).foveal : ℝ) (toReal2 (exBuf .visual).focus) (toReal2 (49, 49)) := by
    simp [nearFocus, exCfg, toReal2, exBuf]; norm_num
  rcases carried_ends hc (ends_autoBuffer (K := fun _ _ _ => False) cf (exReg_ok H) hn hpl rfl) with h | ⟨_, _, _, _, _, _, h, _⟩
  swap
  · exact h.elim
  rw [List.nil_append] at h
  rcases h with ⟨_, h2⟩ | ⟨s, hs, p, c, hp, _, _, ⟨e, he, ha⟩, _⟩
  · obtain ⟨_, _, _, h, _⟩ := h2 exCorner (by simp) _ rfl hnear
    simp [exBuf] at h
  · obtain ⟨s', hs', ⟨p', θ, deg, hp', hθ, hd, hlt⟩, _⟩ := h1 e he c ha
    rw [List.mem_singleton] at hs'
    subst hs'
    cases hp'
    have hpx := pixelDistance_spec (toReal2 (exBuf .visual).focus) (toReal2 (49, 49))
    have h3 := (fovea_iff exFine_real (exFine_fovea (exPy H)) hθ hpx).1 ((one_degree hd).1 hlt)
    have h4 := hpx.2
    simp only [toReal2, exBuf, exCfg] at h3 h4
    push_cast at h3 h4
    have h5 := hpx.1
    simp only [toReal2, exBuf] at h5
    push_cast at h5
    nlinarith

/-- The hypotheses of `C59_partial` are met: an object is buffered. -/
example (H : PyHash) (cf : H.CollisionFree) : ∃ C S name objects t w w' b evs, C.P.H.CollisionFree ∧ RegOk C.P.toPyEnv w.reg ∧
    (∀ s ∈ objects, (s.attrs.map Prod.fst).Nodup) ∧ (∀ c ∈ b.data, PlainSlots c.slots) ∧ RealScreen S ∧
    angleDistance S 1 = .ok (C.foveal : ℝ) ∧ w.buf name = some b ∧ Carried C (Alone name) (genAutoBuffer C name objects t w) evs w' := by
  obtain ⟨evs, w', hc, _⟩ := exCorner_carried H
  exact ⟨exCfg (exPy H), exFine, "visual", [exCorner], 0, exLooker, w', exBuf .visual, evs, cf, exReg_ok H, by simp [exCorner, exStim],
    by simp [exBuf], exFine_real, exFine_fovea _, rfl, hc⟩

end Verif.Props
