import Verif.Spec.Retrieve
import Verif.Props.Buffer
import Verif.Props.Assoc
import Verif.Props.Chunk
/-! # Lemmas about retrieval -/
namespace Verif
open Verif.Spec Verif.Props

theorem resolveChunk_spec {P : Py} {bv : BV} {ni : Bool} {reg reg' : Reg} {other r : Chunk} (cf : P.H.CollisionFree)
    (hreach : Reach P.toPyEnv reg) (ho : Named other) (h : resolveChunk P bv ni reg other = (reg', .ok r)) :
    RequestOf bv ni other r ∧ Reach P.toPyEnv reg' := by
  simp only [resolveChunk] at h
  split at h
  · simp at h
  · next mods hmods =>
    obtain ⟨hk, hall, hback⟩ := resolveAll_ok hmods
    have hmk : ((mods.map (fun p => (p.1, SlotArg.vv p.2))).map Prod.fst) = mods.map Prod.fst := by simp [Function.comp_def]
    have hkn : (mods.map Prod.fst).Nodup := by rw [hk]; exact (removeUnused_sublist P.H other).nodup ho
    have hnd : ((mods.map (fun p => (p.1, SlotArg.vv p.2))).map Prod.fst).Nodup := by rw [hmk]; exact hkn
    obtain ⟨ht, hsort, hslots, hgiven, hempty, _, _⟩ := C09_slots hreach other.typ _ hnd r reg' h
    have hsn : (r.slots.map Prod.fst).Nodup := hsort.nodup
    have hreach' : Reach P.toPyEnv reg' := by
      have := Reach.chunk (typ := other.typ) hreach hnd
      rwa [h] at this
    have hin : ∀ n y, (n, y) ∈ mods → (n, SlotOf.vv y) ∈ r.slots := by
      intro n y hm
      obtain ⟨z, hz, hz'⟩ := hgiven n (.vv y) (List.mem_map.mpr ⟨(n, y), hm, rfl⟩)
      simp only [Holds] at hz; subst hz; exact hz'
    have huniq : ∀ n s s', (n, s) ∈ r.slots → (n, s') ∈ r.slots → s = s' := by
      intro n s s' h1 h2
      have h1 := alook_of_mem hsn h1
      have h2 := alook_of_mem hsn h2
      rw [h1] at h2; exact Option.some.inj h2
    have hcase : ∀ n s, (n, s) ∈ r.slots → (∃ y, (n, y) ∈ mods ∧ s = .vv y) ∨ s = .empty := by
      intro n s hs
      by_cases hn : n ∈ mods.map Prod.fst
      · obtain ⟨⟨m, y⟩, hm, rfl⟩ := List.mem_map.mp hn
        exact .inl ⟨y, hm, huniq _ _ _ hs (hin _ _ hm)⟩
      · right
        rcases (hslots n).mp (List.mem_map_of_mem (f := Prod.fst) hs) with hf | hf
        · exact huniq _ _ _ hs (hempty n hf (by rw [hmk]; exact hn))
        · rw [hmk] at hf; exact absurd hf hn
    refine ⟨⟨ht, hsn, ?_, ?_, ?_⟩, hreach'⟩
    · intro n x hx
      obtain ⟨y, hy, hm⟩ := hall n x ((mem_removeUnused cf other n x).mpr hx)
      refine ⟨y, hin n y hm, fun hp ho' => ?_⟩
      obtain ⟨h1, h2⟩ := C13_partial P bv ni x cf hp ho'
      by_cases hi : Illegal bv ni x
      · rw [h1 hi] at hy; cases hy
      · obtain ⟨r', hr', hres⟩ := h2 hi
        rw [hy] at hr'; cases hr'; exact ⟨hi, hres⟩
    · intro n s hs
      rcases hcase n s hs with ⟨y, hy, _⟩ | h
      · obtain ⟨x, hx, _⟩ := hback n y hy
        exact .inl ⟨x, (mem_removeUnused cf other n x).mp hx⟩
      · exact .inr h
    · intro n x hs
      rcases hcase n _ hs with ⟨y, hy, he⟩ | h
      · cases he
        obtain ⟨z, _, hz⟩ := hback n x hy
        exact check_vars_none hz
      · cases h

/-- When a request can be resolved. -/
theorem resolveChunk_success {P : Py} {bv : BV} {ni : Bool} {reg : Reg} {other : Chunk} (cf : P.H.CollisionFree)
    (hreach : Reach P.toPyEnv reg) (ho : Named other)
    (hres : ∀ n x, MentionsSlot other n x → PlainRequest bv x ∧ Ordinary bv x ∧ ¬ Illegal bv ni x)
    (hty : (∃ fs, alook other.typ reg = some fs ∧ ∀ n x, MentionsSlot other n x → n ∈ fs) ∨
      (other.typ ≠ "_manual" ∧ other.typ ≠ "_visual" ∧ other.typ ≠ "_visuallocation" ∧ P.typeOk other.typ = true ∧
        ∀ n x, MentionsSlot other n x → P.fieldOk n = true)) :
    ∃ reg' r, resolveChunk P bv ni reg other = (reg', .ok r) := by
  have hall : ∀ l : List (String × VarVal), (∀ n x, (n, x) ∈ l → ∃ r, checkBoundVars P bv ni (.vv x) = .ok r) →
      ∃ vs, resolveAll P bv ni l = .ok vs := by
    intro l
    induction l with
    | nil => intro _; exact ⟨[], rfl⟩
    | cons p r ih =>
      intro h
      obtain ⟨n, x⟩ := p
      obtain ⟨v, hv⟩ := h n x (by simp)
      obtain ⟨vs, hvs⟩ := ih (fun m y hm => h m y (by simp [hm]))
      exact ⟨(n, v) :: vs, by simp [resolveAll, hv, hvs]⟩
  obtain ⟨mods, hmods⟩ := hall (removeUnused P.H other) (by
    intro n x hx
    obtain ⟨h1, h2, h3⟩ := hres n x ((mem_removeUnused cf other n x).mp hx)
    obtain ⟨r, hr, _⟩ := (C13_partial P bv ni x cf h1 h2).2 h3
    exact ⟨r, hr⟩)
  obtain ⟨hk, _, hback⟩ := resolveAll_ok hmods
  have hmk : ((mods.map (fun p => (p.1, SlotArg.vv p.2))).map Prod.fst) = mods.map Prod.fst := by simp [Function.comp_def]
  have hkn : (mods.map Prod.fst).Nodup := by rw [hk]; exact (removeUnused_sublist P.H other).nodup ho
  have hment : ∀ f ∈ (mods.map (fun p => (p.1, SlotArg.vv p.2))).map Prod.fst, ∃ x, MentionsSlot other f x := by
    intro f hf
    rw [hmk, hk] at hf
    obtain ⟨⟨m, x⟩, hx, rfl⟩ := List.mem_map.mp hf
    exact ⟨x, (mem_removeUnused cf other m x).mp hx⟩
  obtain ⟨c, hc⟩ := (C09_success hreach other.typ _ (by rw [hmk]; exact hkn)).mpr ⟨by
      intro f a hm
      obtain ⟨q, _, hq⟩ := List.mem_map.mp hm
      cases hq; exact ⟨_, rfl⟩,
    hty.imp (fun ⟨fs, h1, h2⟩ => ⟨fs, h1, fun f hf => let ⟨x, hx⟩ := hment f hf; h2 f x hx⟩)
      (fun ⟨h1, h2, h3, h4, h5⟩ => ⟨h1, h2, h3, h4, fun f hf => let ⟨x, hx⟩ := hment f hf; h5 f x hx⟩)⟩
  refine ⟨(createChunk P.toPyEnv reg other.typ (mods.map (fun p => (p.1, SlotArg.vv p.2)))).1, c, ?_⟩
  simp only [resolveChunk, hmods]
  exact Prod.ext rfl hc

theorem forbids_congr {u v : Val} (h : content u = content v) (w : Val) : Forbids u w ↔ Forbids v w := by
  cases u <;> cases v <;> cases w <;> simp_all [Forbids, SameVal, Noneish, content]

theorem requestOf_varFree {bv : BV} {other r : Chunk} (h : RequestOf bv false other r) (hg : GoodRequest bv other) : VarFree r := by
  intro n x hx
  obtain ⟨h1, h2⟩ := h.novars n x hx
  rcases h.others n _ hx with ⟨z, hz⟩ | he
  · obtain ⟨y, hy, hr⟩ := h.mentioned n z hz
    have : x = y := by
      have h1 := alook_of_mem h.named hx
      have h2 := alook_of_mem h.named hy
      rw [h1] at h2; exact SlotOf.vv.inj (Option.some.inj h2)
    subst this
    obtain ⟨g1, g2, _, _⟩ := hg n z hz
    obtain ⟨_, res⟩ := hr g1 g2
    have hdem : ∀ v, Demands bv z v → PlainVal v := by
      rintro v (_ | ⟨_, _, hb⟩)
      · exact g1.value
      · exact g1.bound _ _ hb
    refine ⟨h1, h2, ?_, ?_⟩
    · rcases res.value with h | ⟨_, h⟩
      · exact hdem _ h
      · rw [h]; exact plainVal_none
    · intro v hv
      rcases res.negSound v hv with h | ⟨_, hb⟩
      · exact g1.negvalues v h
      · exact g1.bound _ _ hb
  · cases he

/-- The resolved request means what the description asks. -/
theorem requestOf_means {bv : BV} {other r : Chunk} (h : RequestOf bv false other r) (hg : GoodRequest bv other) (d : Chunk) :
    Means r d ↔ Asked bv other d := by
  have key : ∀ n x y, MentionsSlot other n x → Resolves bv x y → ∀ w,
      (Accepts y.values w ∧ ∀ v ∈ y.negvalues, ¬ Forbids v w) ↔
      ((∀ v, Demands bv x v → SameVal v w) ∧ (∀ v, Rejects bv x v → ¬ Forbids v w)) := by
    intro n x y hx res w
    obtain ⟨_, g2, _, g4⟩ := hg n x hx
    have e1 : Accepts y.values w ↔ ∀ v, Demands bv x v → SameVal v w := by
      rcases res.value with hd | ⟨hn, hv⟩
      · have hb := g2.notBlank _ hd
        have he := g4 _ hd
        have hnr : ¬ NoRequirement y.values := by
          revert hb he; cases y.values <;> simp [NoRequirement, Blank]
        constructor
        · rintro (h | h) v hv
          · exact absurd h hnr
          · have hs := res.same v hv
            have hve := g4 v hv
            have hvb := g2.notBlank v hv
            revert h hs he hb hve hvb
            generalize y.values = u
            intro h hs
            cases u <;> cases v <;> cases w <;> simp_all [SameVal, Blank]
        · intro h; exact .inr (h _ hd)
      · constructor
        · intro _ v hv; exact absurd hv (hn v)
        · intro _; rw [hv]; exact .inl trivial
    have e2 : (∀ v ∈ y.negvalues, ¬ Forbids v w) ↔ (∀ v, Rejects bv x v → ¬ Forbids v w) := by
      constructor
      · intro h v hv
        obtain ⟨u, hu, hc⟩ := res.negComplete v hv
        have := h u hu
        rwa [forbids_congr hc] at this
      · intro h v hv; exact h v (res.negSound v hv)
    rw [e1, e2]
  have uniq : ∀ {n x y}, (n, SlotOf.vv x) ∈ r.slots → (n, SlotOf.vv y) ∈ r.slots → x = y := by
    intro n x y hx hy
    have h1 := alook_of_mem h.named hx
    have h2 := alook_of_mem h.named hy
    rw [h1] at h2; exact SlotOf.vv.inj (Option.some.inj h2)
  constructor
  · intro hm n x w hx hw
    obtain ⟨y, hy, hr⟩ := h.mentioned n x hx
    obtain ⟨g1, g2, _, _⟩ := hg n x hx
    exact (key n x y hx (hr g1 g2).2 w).mp (hm n y w hy hw)
  · intro ha n y w hy hw
    rcases h.others n _ hy with ⟨x, hx⟩ | he
    · obtain ⟨y', hy', hr⟩ := h.mentioned n x hx
      have := uniq hy hy'; subst this
      obtain ⟨g1, g2, _, _⟩ := hg n x hx
      exact (key n x y hx (hr g1 g2).2 w).mpr (ha n x w hx hw)
    · cases he

/-- Matching the resolved request against data is asking. -/
theorem le_asked {H : PyHash} (cf : H.CollisionFree) {bv : BV} {other r d : Chunk} (h : RequestOf bv false other r)
    (hg : GoodRequest bv other) (hd : DataChunk d) (hc : EmptyCovered bv other d) :
    (r.le H BV.init d).1 = true ↔ Asked bv other d := by
  have hnc : NoneCovered r d := by
    intro n y hy hv
    rcases h.others n _ hy with ⟨x, hx⟩ | he
    · obtain ⟨y', hy', hr⟩ := h.mentioned n x hx
      have : y = y' := by
        have h1 := alook_of_mem h.named hy
        have h2 := alook_of_mem h.named hy'
        rw [h1] at h2; exact SlotOf.vv.inj (Option.some.inj h2)
      subst this
      obtain ⟨g1, g2, _, _⟩ := hg n x hx
      rcases (hr g1 g2).2.value with hdem | ⟨_, hn⟩
      · rw [hv] at hdem; exact hc n x hx hdem
      · rw [hv] at hn; cases hn
    · cases he
  rw [(C02_partial cf BV.init r d hd h.named (requestOf_varFree h hg) hnc).1, requestOf_means h hg]

/-- Matching a request without variables leaves its bindings alone, whether it succeeds or not. -/
theorem matchSlots_novars (H : PyHash) (cfg : MatchCfg) (other : Chunk) : ∀ (xs : Slots) (st : MState),
    (∀ n x, (n, SlotOf.vv x) ∈ xs → x.vars = Option.none ∧ x.negvars = []) →
    (∀ st', matchSlots H cfg other st xs = .ok st' → st'.bv = st.bv) ∧ (∀ bv, matchSlots H cfg other st xs = .error bv → bv = st.bv) := by
  have pen : ∀ (st : MState) a b, (∀ st', penalise H cfg st a b = .ok st' → st'.bv = st.bv) ∧
      (∀ bv, penalise H cfg st a b = .error bv → bv = st.bv) := by
    intro st a b
    simp only [penalise]
    split <;> simp_all
  have loop : ∀ (mv : Val) (l : List Val) (st : MState),
      (∀ st', loopE (matchNegVal H cfg mv) st l = .ok st' → st'.bv = st.bv) ∧
      (∀ bv, loopE (matchNegVal H cfg mv) st l = .error bv → bv = st.bv) := by
    intro mv l
    induction l with
    | nil => intro st; simp [loopE]
    | cons a r ih =>
      intro st
      have hp := pen st a mv
      simp only [loopE, matchNegVal]
      cases hh : negValHit H a mv with
      | false => simpa only [Bool.false_eq_true, if_false] using ih st
      | true =>
        simp only [if_true]
        cases hq : penalise H cfg st a mv with
        | ok st1 =>
          simp only
          rw [← hp.1 st1 hq]; exact ih st1
        | error bv => simp only; exact ⟨by simp, by rintro _ ⟨⟩; exact hp.2 bv hq⟩
  intro xs
  induction xs with
  | nil => intro st _; simp [matchSlots, loopE]
  | cons a r ih =>
    intro st hx
    obtain ⟨n, s⟩ := a
    have hs : (splitting s).vars = Option.none ∧ (splitting s).negvars = [] := by
      cases s with
      | empty => exact ⟨rfl, rfl⟩
      | vv x => exact hx n x (by simp)
    have hone : (∀ st', matchSlot H cfg other st (n, s) = .ok st' → st'.bv = st.bv) ∧
        (∀ bv, matchSlot H cfg other st (n, s) = .error bv → bv = st.bv) := by
      simp only [matchSlot, hs.1, hs.2, matchVar, loopE]
      simp only [matchValue]
      split
      · next he =>
        split at he
        · next bv hq =>
          have := pen st (splitting s).values (matchingVal other n)
          refine ⟨by simp, ?_⟩
          rintro _ ⟨⟩
          exact this.2 _ he
        · cases he
      · next st1 he =>
        have : st1.bv = st.bv := by
          split at he
          · exact (pen st (splitting s).values (matchingVal other n)).1 _ he
          · cases he; rfl
        rw [← this]; exact loop _ _ _
    simp only [matchSlots, loopE]
    cases hq : matchSlot H cfg other st (n, s) with
    | ok st1 =>
      simp only
      rw [← hone.1 st1 hq]
      exact ih st1 (fun m x hm => hx m x (by simp [hm]))
    | error bv => simp only; exact ⟨by simp, by rintro _ ⟨⟩; exact hone.2 bv hq⟩

/-- ... so that the loop of `retrieve` always starts matching without bindings. -/
theorem request_binds_nothing (H : PyHash) {bv : BV} {ni : Bool} {other r : Chunk} (h : RequestOf bv ni other r) (d : Chunk) :
    (r.le H BV.init d).2 = BV.init ∧
    ∀ cfg st, cfg.partialm = true → r.matchC H cfg BV.init d = .ok st → st.bv = BV.init := by
  have hm := fun cfg => matchSlots_novars H cfg d r.slots ⟨BV.init, 0⟩ h.novars
  constructor
  · simp only [Chunk.le, Chunk.matchC]
    split
    · rfl
    · split
      · next st hq => exact (hm _).1 st hq
      · next bv hq => exact (hm _).2 bv hq
  · intro cfg st _ hq
    simp only [Chunk.matchC] at hq
    split at hq
    · cases hq; rfl
    · exact (hm cfg).1 st hq

theorem inRecent_iff {H : PyHash} (cf : H.CollisionFree) {recent : List (Option Chunk)} {c : Chunk} (hc : Plain c)
    (hr : ∀ d, some d ∈ recent → Plain d) : inRecent H recent c = true ↔ Recent recent c := by
  have hn : pyEq H .none c.val = false := by
    have := cf.none_tup
    simp only [pyEq, Val.view, Chunk.val, View.eq]
    rw [beq_eq_false_iff_ne]
    exact fun h => this _ h.symm
  simp only [inRecent, List.any_eq_true, Recent]
  constructor
  · rintro ⟨o, ho, he⟩
    cases o with
    | none => simp only [hn] at he; cases he
    | some d => exact ⟨d, ho, (ceq_content cf (hr d ho) hc).mp he⟩
  · rintro ⟨d, hd, he⟩
    exact ⟨some d, hd, (ceq_content cf (hr d hd) hc).mpr he⟩

theorem recencySkips_iff {H : PyHash} (cf : H.CollisionFree) {finst : ℕ} {recent : List (Option Chunk)} {want : Option Bool} {c : Chunk}
    (hc : Plain c) (hr : ∀ d, some d ∈ recent → Plain d) :
    recencySkips H finst recent want c = false ↔ PassesRecency finst recent want c := by
  have := inRecent_iff cf hc hr
  by_cases hf : finst = 0
  · subst hf
    rcases want with _ | ⟨_ | _⟩ <;> simp [recencySkips, PassesRecency]
  · rcases want with _ | ⟨_ | _⟩ <;> simp [recencySkips, PassesRecency, hf, ← this]

/-- The loop without subsymbolic computation: the last candidate is retrieved. -/
theorem symLoop_ok {H : PyHash} {req : Chunk} {now : ℚ} {skip : Chunk → Bool} : ∀ {data : List (Chunk × List ℚ)} {acc res : Option Chunk},
    symLoop H req now skip data acc = .ok res →
    (∃ c pre l post, res = some c ∧ data = pre ++ (c, l) :: post ∧
      (skip c = false ∧ (req.le H BV.init c).1 = true ∧ StoredBefore now l) ∧
      ∀ q ∈ post, ¬ (skip q.1 = false ∧ (req.le H BV.init q.1).1 = true ∧ StoredBefore now q.2)) ∨
    (res = acc ∧ ∀ q ∈ data, ¬ (skip q.1 = false ∧ (req.le H BV.init q.1).1 = true ∧ StoredBefore now q.2))
  | [], acc, res, h => by simp only [symLoop, Except.ok.injEq] at h; exact .inr ⟨h.symm, by simp⟩
  | (c, l) :: r, acc, res, h => by
    have lift : ∀ {acc'}, ¬ (skip c = false ∧ (req.le H BV.init c).1 = true ∧ StoredBefore now l) → acc' = acc →
        symLoop H req now skip r acc' = .ok res →
        (∃ d pre l' post, res = some d ∧ (c, l) :: r = pre ++ (d, l') :: post ∧
          (skip d = false ∧ (req.le H BV.init d).1 = true ∧ StoredBefore now l') ∧
          ∀ q ∈ post, ¬ (skip q.1 = false ∧ (req.le H BV.init q.1).1 = true ∧ StoredBefore now q.2)) ∨
        (res = acc ∧ ∀ q ∈ (c, l) :: r, ¬ (skip q.1 = false ∧ (req.le H BV.init q.1).1 = true ∧ StoredBefore now q.2)) := by
      intro acc' hn ha h'
      subst ha
      rcases symLoop_ok h' with ⟨d, pre, l', post, h1, h2, h3, h4⟩ | ⟨h1, h2⟩
      · exact Or.inl ⟨d, (c, l) :: pre, l', post, h1, by rw [h2]; rfl, h3, h4⟩
      · refine Or.inr ⟨h1, ?_⟩
        intro q hq
        rcases List.mem_cons.mp hq with rfl | hq
        · exact hn
        · exact h2 q hq
    simp only [symLoop] at h
    split at h
    · next hs => exact lift (by simp [hs]) rfl h
    · next hs =>
      split at h
      · next hle =>
        cases l with
        | nil => cases h
        | cons t l' =>
          simp only at h
          by_cases ht : t = now
          · rw [if_neg (by simpa using ht)] at h
            refine lift ?_ rfl h
            rintro ⟨_, _, t', r', he, hne⟩
            cases he; exact hne ht
          · rw [if_pos ht] at h
            rcases symLoop_ok h with ⟨d, pre, l'', post, h1, h2, h3, h4⟩ | ⟨h1, h2⟩
            · exact Or.inl ⟨d, (c, t :: l') :: pre, l'', post, h1, by rw [h2]; rfl, h3, h4⟩
            · exact Or.inl ⟨c, [], t :: l', r, h1, rfl, ⟨by simpa using hs, hle, t, l', rfl, ht⟩, h2⟩
      · next hle => exact lift (fun h => hle h.2.1) rfl h

theorem symLoop_total {H : PyHash} {req : Chunk} {now : ℚ} {skip : Chunk → Bool} : ∀ (data : List (Chunk × List ℚ)) (acc : Option Chunk),
    (∀ q ∈ data, skip q.1 = false → (req.le H BV.init q.1).1 = true → q.2 ≠ []) → ∃ res, symLoop H req now skip data acc = .ok res
  | [], acc, _ => ⟨acc, rfl⟩
  | (c, l) :: r, acc, h => by
    have ih := fun acc => symLoop_total (H := H) (req := req) (now := now) (skip := skip) r acc (fun q hq => h q (by simp [hq]))
    simp only [symLoop]
    split
    · exact ih acc
    · next hs =>
      split
      · next hle =>
        cases l with
        | nil => exact absurd rfl (h (c, []) (by simp) (by simpa using hs) hle)
        | cons t l' => exact ih _
      · exact ih acc

end Verif
