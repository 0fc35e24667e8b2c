import Verif.Model.Rules
import Verif.Spec.Rules
import Verif.Props.Chunk
/-! Left-hand sides. -/
namespace Verif
open Verif.Spec Verif.Props

theorem testBuffer_some {H : PyHash} {bufs : Faces} {n : String} {p : Chunk} {bv bv' : BV} :
    testBuffer H bufs n p bv = some bv' ↔ ∃ b d r bv1, alook n bufs = some b ∧ b.data = d :: r ∧
      (∀ v, bv.get n = some v → pyEq H d.val v = true) ∧ p.le H bv d = (true, bv1) ∧ bv' = bv1.bind n d.val := by
  constructor
  · intro h
    unfold testBuffer at h
    cases hb : alook n bufs with
    | none => rw [hb] at h; simp at h
    | some b =>
      rw [hb] at h
      simp only at h
      cases hd : b.data with
      | nil => rw [hd] at h; simp at h
      | cons d r =>
        rw [hd] at h
        simp only at h
        cases hl : p.le H bv d with
        | mk ok bv1 =>
          rw [hl] at h
          cases hg : bv.get n with
          | none =>
            rw [hg] at h
            cases ok with
            | false => simp at h
            | true =>
              simp only [Bool.false_eq_true, if_false, Option.some.injEq] at h
              exact ⟨b, d, r, bv1, rfl, hd, by simp, hl, h.symm⟩
          | some v =>
            rw [hg] at h
            cases hq : pyEq H d.val v with
            | false => simp [hq] at h
            | true =>
              cases ok with
              | false => simp at h
              | true =>
                simp only [hq, Bool.not_true, Bool.false_eq_true, if_false, Option.some.injEq] at h
                exact ⟨b, d, r, bv1, rfl, hd, by simp [hq], hl, h.symm⟩
  · rintro ⟨b, d, r, bv1, hb, hd, heq, hle, rfl⟩
    unfold testBuffer
    rw [hb]
    simp only [hd]
    rw [if_neg, hle]
    cases hg : bv.get n with
    | none => simp
    | some v => simp [heq v hg]

theorem queryBuffer_true {b : Option BufFace} {q : List (String × String)} :
    queryBuffer b q = .ok true ↔ ∀ a v, (a, v) ∈ q → ∃ f, b = some f ∧ QueryHolds f a v := by
  induction q with
  | nil => simp [queryBuffer]
  | cons x r ih =>
    obtain ⟨a, v⟩ := x
    have hc : (∀ a' v', (a', v') ∈ (a, v) :: r → ∃ f, b = some f ∧ QueryHolds f a' v') ↔
        (∃ f, b = some f ∧ QueryHolds f a v) ∧ ∀ a' v', (a', v') ∈ r → ∃ f, b = some f ∧ QueryHolds f a' v' := by
      constructor
      · intro h; exact ⟨h a v (by simp), fun a' v' h' => h a' v' (by simp [h'])⟩
      · rintro ⟨h1, h2⟩ a' v' h'
        simp only [List.mem_cons, Prod.mk.injEq] at h'
        rcases h' with ⟨rfl, rfl⟩ | h'
        · exact h1
        · exact h2 a' v' h'
    rw [hc, ← ih]
    simp only [queryBuffer]
    generalize queryBuffer b r = X
    cases b with
    | none => simp
    | some f =>
      simp only [Option.some.injEq, exists_eq_left', QueryHolds]
      by_cases ha : a = "buffer"
      · simp only [ha, if_true, BufFace.testContent]
        by_cases hd : f.data = []
        · by_cases hv : v = "empty" <;> simp [hd, hv]
        · by_cases hv : v = "full" <;> simp [hd, hv]
      · simp only [ha, if_false]
        cases hl : alook a f.attrs with
        | none => simp
        | some s => by_cases hs : s = v <;> simp [hs]

/-- What bindings made while testing the conditions `L` look like. -/
structure Within (D : Val → Prop) (L : List (Key × LVal)) (bv : BV) : Prop where
  good : GoodBV D bv
  names : ∀ y v, bv.get y = some v → PosVar L y ∨ Tested L y
  negs : ∀ y w, w ∈ bv.negGet y → NegVar L y

/-- Later bindings keep the values of earlier ones, up to content. -/
structure Keeps (bv bv' : BV) : Prop where
  pos : ∀ y v, bv.get y = some v → ∃ v', bv'.get y = some v' ∧ dkey v' = dkey v
  neg : ∀ y w, w ∈ bv.negGet y → w ∈ bv'.negGet y

theorem Keeps.refl (bv : BV) : Keeps bv bv := ⟨fun _ v h => ⟨v, h, rfl⟩, fun _ _ h => h⟩
theorem Keeps.trans {a b c : BV} (h : Keeps a b) (h' : Keeps b c) : Keeps a c :=
  ⟨fun y v hv => by
    obtain ⟨v', h1, h2⟩ := h.pos y v hv
    obtain ⟨v'', h3, h4⟩ := h'.pos y v' h1
    exact ⟨v'', h3, h4.trans h2⟩, fun y w hw => h'.neg y w (h.neg y w hw)⟩

section
variable {H : PyHash} (cf : H.CollisionFree) {D : Val → Prop} (hD : Domain D) {bufs : Faces} {L : List (Key × LVal)}
  (hB : GoodBuffers D bufs L) (hP : GoodPatterns L) (hS : SafeNames L)
include cf hD hB hP hS

theorem shortcutSafe {n : String} {p : Chunk} (hm : ((⟨'=', n⟩ : Key), LVal.chunk p) ∈ L) {bv : BV} (W : Within D L bv) :
    ShortcutSafe bv p := by
  intro m x hx
  refine ⟨fun y hy => ?_, hS.noNone n p m x hm hx⟩
  rcases hS.letters y ⟨n, p, m, x, hm, hx, hy⟩ with h | ⟨c, hc, h1, h2⟩
  · exact Or.inl h
  · refine Or.inr ⟨c, hc, ?_⟩
    cases hb : bv.get c.toString with
    | none => rfl
    | some v => rcases W.names _ v hb with h | h
                · exact absurd h h1
                · exact absurd h h2

/-- What a successful test of a buffer gives. -/
theorem testBuffer_facts {n : String} {p : Chunk} (hm : ((⟨'=', n⟩ : Key), LVal.chunk p) ∈ L) {bv bv' : BV}
    (W : Within D L bv) (h : testBuffer H bufs n p bv = some bv') :
    ∃ b d r, alook n bufs = some b ∧ b.data = d :: r ∧ Within D L bv' ∧ Keeps bv bv' ∧ bv'.get n = some d.val ∧ Means p d ∧
      (∀ m x y, (m, SlotOf.vv x) ∈ p.slots → x.vars = some y → y ≠ "" →
        ∃ v, bv'.get y = some v ∧ dkey v = dkey (matchingVal d m)) ∧
      (∀ m x y, (m, SlotOf.vv x) ∈ p.slots → y ∈ x.negvars → ∃ w ∈ bv'.negGet y, dkey w = dkey (matchingVal d m)) := by
  obtain ⟨b, d, r, bv1, hb, hd, heq, hle, rfl⟩ := testBuffer_some.mp h
  obtain ⟨hpl, hnd, hdom, hnf, hdd⟩ := hB.chunk n p b d r hm hb hd
  have hh : ∀ n, SlotHas d n (matchingVal d n) := fun n => (slotHas_iff hnd n _).mpr rfl
  obtain ⟨S, G, hnew, hnk, hno, hnonly⟩ := C03_sound_partial cf hD bv bv1 p d hpl hnd hdom (hP n p hm).1 (hP n p hm).2 hnf W.good
    (shortcutSafe cf hD hB hP hS hm W) hle
  have hneg1 : ∀ y w, w ∈ bv1.negGet y → NegVar L y := by
    intro y w hw
    rcases hnonly y w hw with h1 | ⟨m, x, hx, hy, _⟩
    · exact W.negs y w h1
    · exact ⟨n, p, m, x, hm, hx, hy⟩
  have hneg : ∀ y w, w ∈ (bv1.bind n d.val).negGet y → NegVar L y := by
    intro y w hw; rw [negGet_bind] at hw; exact hneg1 y w hw
  refine ⟨b, d, r, hb, hd, ⟨⟨?_, ?_, ?_⟩, ?_, hneg⟩, ⟨?_, ?_⟩, by rw [get_bind]; simp, S.lit, ?_, ?_⟩
  · intro y v hv
    rw [get_bind] at hv
    split at hv
    · cases hv; exact hdd
    · exact G.pos y v hv
  · intro y w hw; rw [negGet_bind] at hw; exact G.neg y w hw
  · intro y v w hv hw
    have hny := hneg y w hw
    rw [get_bind] at hv
    rw [negGet_bind] at hw
    split at hv
    · next he => subst he; exact absurd hny (hS.neg y ⟨p, hm⟩)
    · exact G.ok y v w hv hw
  · intro y v hv
    rw [get_bind] at hv
    split at hv
    · next he => subst he; exact Or.inr ⟨p, hm⟩
    · rcases hnew y v hv with h1 | ⟨m, x, hx, hy, _⟩
      · exact W.names y v h1
      · exact Or.inl ⟨n, p, m, x, hm, hx, hy⟩
  · intro y v hv
    rw [get_bind]
    split
    · next he =>
      subst he
      exact ⟨_, rfl, (pyEq_dkey hD cf hdd (W.good.pos _ v hv)).mp (heq v hv)⟩
    · exact ⟨v, S.ext y v hv, rfl⟩
  · intro y w hw; rw [negGet_bind]; exact hnk y w hw
  · intro m x y hx hy hy'
    obtain ⟨v, hv, hs⟩ := S.pos m x y _ hx hy hy' (hh m)
    refine ⟨v, ?_, sameVal_dkey hs⟩
    rw [get_bind, if_neg]
    · exact hv
    · rintro rfl; exact hS.own y p m x hm hx hy
  · intro m x y hx hy
    obtain ⟨w, hw, hs⟩ := hno m x y _ hx hy (hh m)
    exact ⟨w, by rw [negGet_bind]; exact hw, sameVal_dkey hs⟩

/-- The conditions hold under the bindings found. -/
theorem lhsTest_sound (l : List (Key × LVal)) : (∀ c ∈ l, c ∈ L) → ∀ bv bv', Within D L bv →
    lhsTest H bufs l bv = .ok (some bv') →
    Within D L bv' ∧ Keeps bv bv' ∧ ∀ c ∈ l, CondTrue bufs bv'.get c := by
  induction l with
  | nil =>
    intro _ bv bv' W h
    simp only [lhsTest, Except.ok.injEq, Option.some.injEq] at h
    subst h
    exact ⟨W, Keeps.refl _, by simp⟩
  | cons c r ih =>
    obtain ⟨⟨code, n⟩, v⟩ := c
    intro hmem bv bv' W h
    have hm0 := hmem _ (List.mem_cons_self ..)
    have hmr : ∀ c ∈ r, c ∈ L := fun c hc => hmem c (List.mem_cons_of_mem _ hc)
    simp only [lhsTest] at h
    cases ht : testCond H bufs ⟨code, n⟩ v bv with
    | error e => rw [ht] at h; simp at h
    | ok o =>
      rw [ht] at h
      cases o with
      | none => simp at h
      | some bv1 =>
        simp only at h
        unfold testCond at ht
        simp only at ht
        split at ht
        · next hcode =>
          subst hcode
          cases v with
          | dict q => simp at ht
          | chunk p =>
            simp only [Except.ok.injEq] at ht
            obtain ⟨b, d, rd, hb, hd, W1, K1, hn, hlit, hpos, hneg⟩ := testBuffer_facts cf hD hB hP hS hm0 W ht
            obtain ⟨W2, K2, hc2⟩ := ih hmr bv1 bv' W1 h
            refine ⟨W2, K1.trans K2, ?_⟩
            intro c hc
            rcases List.mem_cons.mp hc with rfl | hc
            · obtain ⟨hpl, hnd, hdom, hnf, hdd⟩ := hB.chunk n p b d rd hm0 hb hd
              refine .test hb hd ⟨?_, ?_, hlit⟩ ?_
              · intro m x y w hx hy hy' hw
                rw [(slotHas_iff hnd m w).mp hw]
                obtain ⟨v, hv, hk⟩ := hpos m x y hx hy hy'
                obtain ⟨v', hv', hk'⟩ := K2.pos y v hv
                exact ⟨v', hv', dkey_sameVal hD (W2.good.pos y v' hv') (matchingVal_data hnd hdom hx) (hk'.trans hk)⟩
              · intro m x y w v hx hy hw hv hs
                rw [(slotHas_iff hnd m w).mp hw] at hs
                obtain ⟨w', hw', hk⟩ := hneg m x y hx hy
                have hw2 := K2.neg y w' hw'
                exact W2.good.ok y v w' hv hw2
                  (dkey_sameVal hD (W2.good.pos y v hv) (W2.good.neg y w' hw2) ((sameVal_dkey hs).trans hk.symm))
              · obtain ⟨v', hv', hk'⟩ := K2.pos n _ hn
                exact ⟨v', hv', dkey_sameVal hD (W2.good.pos n v' hv') hdd hk'⟩
            · exact hc2 c hc
        · split at ht
          · next hcode =>
            subst hcode
            cases v with
            | chunk p => simp at ht
            | dict q =>
              simp only at ht
              cases hq : queryBuffer (alook n bufs) q with
              | error e => rw [hq] at ht; simp at ht
              | ok o =>
                rw [hq] at ht
                cases o with
                | false => simp at ht
                | true =>
                  simp only [Except.ok.injEq, Option.some.injEq] at ht
                  subst ht
                  obtain ⟨W2, K2, hc2⟩ := ih hmr bv bv' W h
                  refine ⟨W2, K2, ?_⟩
                  intro c hc
                  rcases List.mem_cons.mp hc with rfl | hc
                  · exact .query (queryBuffer_true.mp hq)
                  · exact hc2 c hc
          · cases ht

/-- If the conditions hold under an assignment, the test succeeds, with bindings that agree with it. -/
theorem lhsTest_complete {σ : String → Option Val} (hσ : ∀ y v, σ y = some v → D v) (l : List (Key × LVal)) :
    (∀ c ∈ l, c ∈ L) → (∀ c ∈ l, CondTrue bufs σ c) → ∀ bv, Within D L bv →
    (∀ y b, bv.get y = some b → ∃ v, σ y = some v ∧ dkey v = dkey b) →
    (∀ y v w, σ y = some v → w ∈ bv.negGet y → dkey v ≠ dkey w) →
    ∃ bv', lhsTest H bufs l bv = .ok (some bv') ∧
      (∀ y b, bv'.get y = some b → ∃ v, σ y = some v ∧ dkey v = dkey b) := by
  induction l with
  | nil => intro _ _ bv _ h _; exact ⟨bv, rfl, h⟩
  | cons c r ih =>
    intro hmem htrue bv W hcompat hexcl
    have hm0 := hmem _ (List.mem_cons_self ..)
    have hmr : ∀ c ∈ r, c ∈ L := fun c hc => hmem c (List.mem_cons_of_mem _ hc)
    have htr : ∀ c ∈ r, CondTrue bufs σ c := fun c hc => htrue c (List.mem_cons_of_mem _ hc)
    have ht0 := htrue _ (List.mem_cons_self ..)
    cases ht0 with
    | @query n q hq =>
      obtain ⟨bv', h1, h2⟩ := ih hmr htr bv W hcompat hexcl
      refine ⟨bv', ?_, h2⟩
      have hq' := queryBuffer_true.mpr hq
      simp [lhsTest, testCond, hq', h1]
    | @test n p b d rd hb hd hc hn =>
      obtain ⟨hpl, hnd, hdom, hnf, hdd⟩ := hB.chunk n p b d rd hm0 hb hd
      have hh : ∀ n, SlotHas d n (matchingVal d n) := fun n => (slotHas_iff hnd n _).mpr rfl
      have hok : AllOK H d bv p.slots :=
        solution_allOK cf hD σ hσ p.slots (fun n s h => matchingVal_data hnd hdom h) (hP n p hm0).2
          (fun n x y h hy hy' => hc.pos n x y _ h hy hy' (hh n)) (fun n x y v h hy => hc.neg n x y _ v h hy (hh n))
          (fun n x h => hc.lit n x _ h (hh n)) bv W.good hcompat hexcl
      have hle : (p.le H bv d).1 = true := (le_fst_iff ..).mpr (Or.inr hok)
      obtain ⟨vn, hvn, hsn⟩ := hn
      have hbuf : testBuffer H bufs n p bv = some ((p.le H bv d).2.bind n d.val) := by
        refine testBuffer_some.mpr ⟨b, d, rd, (p.le H bv d).2, hb, hd, ?_, Prod.ext hle rfl, rfl⟩
        intro v hv
        obtain ⟨v', hv', hk⟩ := hcompat n v hv
        rw [hvn] at hv'; cases hv'
        exact (pyEq_dkey hD cf hdd (W.good.pos n v hv)).mpr ((sameVal_dkey hsn).symm.trans hk)
      obtain ⟨b', d', rd', hb', hd', W1, _, hn1, _, _, _⟩ := testBuffer_facts cf hD hB hP hS hm0 W hbuf
      have hloop := C03_sound_partial cf hD bv (p.le H bv d).2 p d hpl hnd hdom (hP n p hm0).1 (hP n p hm0).2 hnf W.good
        (shortcutSafe cf hD hB hP hS hm0 W) (Prod.ext hle rfl)
      obtain ⟨S, G, hnew, _, _, hnonly⟩ := hloop
      obtain ⟨bv', h1, h2⟩ := ih hmr htr _ W1 (by
        intro y v hv
        rw [get_bind] at hv
        split at hv
        · next he => subst he; cases hv; exact ⟨vn, hvn, sameVal_dkey hsn⟩
        · rcases hnew y v hv with h1 | ⟨m, x, hx, hy, hy', hw⟩
          · exact hcompat y v h1
          · obtain ⟨v', hv', hs⟩ := hc.pos m x y v hx hy hy' hw
            exact ⟨v', hv', sameVal_dkey hs⟩) (by
        intro y v w hv hw hk
        rw [negGet_bind] at hw
        rcases hnonly y w hw with h1 | ⟨m, x, hx, hy, hw'⟩
        · exact hexcl y v w hv h1 hk
        · have := (slotHas_iff hnd m w).mp hw'
          exact hc.neg m x y w v hx hy hw' hv (dkey_sameVal hD (hσ y v hv) (by rw [this]; exact matchingVal_data hnd hdom hx) hk))
      refine ⟨bv', ?_, h2⟩
      simp [lhsTest, testCond, hbuf, h1]

end
end Verif
