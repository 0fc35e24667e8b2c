import Verif.Lemmas.Vision
import Verif.Props.Motor
import Mathlib.Tactic.NormNum
/-! # C39, C40: visual search -/
namespace Verif.Props
open Verif Verif.Spec

/-- What is assumed of a search request: different slot names, the chunk type of visual locations as the library defines it, and
every slot within the cases of C13. -/
structure SearchRequest (P : Py) (reg : Reg) (other : Chunk) (bv : BV) : Prop where
  cf : P.H.CollisionFree
  named : Named other
  regOk : RegOk P.toPyEnv reg
  loc : alook "_visuallocation" reg = some ["color", "screen_x", "screen_y", "value"]
  fine : ∀ n x, MentionsSlot other n x → PlainRequest bv x ∧ Ordinary bv x

/-- The whole of C39. -/
def C39_full : Prop := ∀ (P : Py) (pyInt : String → Option ℤ) (reg : Reg) (other : Chunk) (bv : BV) (att : Option Bool) (finst : ℕ)
  (recent : List Stim) (focus : ℚ × ℚ) (screen : Screen) (reg' : Reg) (found : Option Chunk) (stim : Option Stim),
  SearchRequest P reg other bv → recent.length ≤ finst →
  visFind P pyInt reg other bv att finst recent focus (some screen) = (reg', .ok (found, stim)) →
  GoodSearch pyInt bv other att recent focus (screen.map Prod.snd) found stim

/-- The slot `sl` of the search chunk says what the request asks for. -/
def SlotFor (bv : BV) (other : Chunk) (n : String) (sl : Slot) : Prop :=
  (sl = .empty ∧ ∀ v, ¬ Asks bv other n v) ∨
  ∃ v, sl = .vv ⟨v, Option.none, [], []⟩ ∧ v ≠ .empty ∧ ¬ Blank v ∧ PlainVal v ∧ Asks bv other n v ∧
    ∀ w, Asks bv other n w → SameVal v w ∧ w ≠ .empty

theorem sameVal_str {v : Val} {t : String} (h : v ≠ .empty) : SameVal v (.str t) ↔ v = .str t := by
  cases v with
  | none => simp [SameVal]
  | empty => exact absurd rfl h
  | str s => simp [SameVal]
  | chunk a b => simp [SameVal]

theorem slotFor_str {bv : BV} {other : Chunk} {n : String} {v : Val} {t : String} (h1 : v ≠ .empty) (ha : Asks bv other n v)
    (hs : ∀ w, Asks bv other n w → SameVal v w ∧ w ≠ .empty) : Asks bv other n (.str t) ↔ v = .str t := by
  constructor
  · intro h; exact (sameVal_str h1).1 (hs _ h).1
  · rintro rfl; exact ha

theorem slotIs_iff {H : PyHash} (cf : H.CollisionFree) {bv : BV} {other : Chunk} {n : String} {sl : Slot}
    (h : SlotFor bv other n sl) (w : String) : slotIs H sl w = true ↔ Asks bv other n (.str w) := by
  rcases h with ⟨rfl, hn⟩ | ⟨v, rfl, he, _, hp, ha, hs⟩
  · simp [slotIs, hn]
  · simp only [slotIs]
    rw [pyEq_iff cf v (.str w) hp (by simp [PlainVal]), sameVal_str he, slotFor_str he ha hs]

theorem slotGiven_iff {bv : BV} {other : Chunk} {n : String} {sl : Slot}
    (h : SlotFor bv other n sl) : slotGiven sl = true ↔ ∃ v, Asks bv other n v := by
  rcases h with ⟨rfl, hn⟩ | ⟨v, rfl, he, _, hp, ha, hs⟩
  · simp [slotGiven, hn]
  · simp only [slotGiven, true_iff]; exact ⟨v, ha⟩

theorem absOk_iff {bv : BV} {other : Chunk} {n : String} {sl : Slot} (h : SlotFor bv other n sl) (pyInt : String → Option ℤ) (k : ℤ) :
    absOk pyInt sl k = true ↔ ∀ s i, Asks bv other n (.str s) → pyInt s = some i → k = i := by
  rcases h with ⟨rfl, hn⟩ | ⟨v, rfl, he, hb, hp, ha, hs⟩
  · simp [absOk, hn]
  · simp only [slotFor_str he ha hs]
    cases v with
    | str t =>
      have ht : t ≠ "" := hb
      simp only [absOk, ht, if_false]
      constructor
      · intro h s i e hi
        cases e
        rw [hi] at h
        exact (beq_iff_eq.1 h).symm
      · intro h
        cases hi : pyInt t with
        | none => rfl
        | some i => simp [h t i rfl hi]
    | _ => simp [absOk]

theorem relOk_iff {bv : BV} {other : Chunk} {n : String} {sl : Slot} (h : SlotFor bv other n sl) (pyInt : String → Option ℤ) (k : ℤ)
    (b : Bool) (hr : relOk pyInt sl k = .ok b) :
    b = true ↔ (∀ s i, Asks bv other n (.str ("<" ++ s)) → pyInt s = some i → k < i) ∧
      (∀ s i, Asks bv other n (.str (">" ++ s)) → pyInt s = some i → i < k) := by
  rcases h with ⟨rfl, hn⟩ | ⟨v, rfl, he, hb, hp, ha, hs⟩
  · simp only [relOk, Except.ok.injEq] at hr
    simp [← hr, hn]
  · simp only [slotFor_str he ha hs]
    cases v with
    | str t =>
      simp only [relOk] at hr
      have hlt : ∀ s : String, ("<" ++ s).toList = '<' :: s.toList := fun s => by simp
      have hgt : ∀ s : String, (">" ++ s).toList = '>' :: s.toList := fun s => by simp
      split at hr
      · rename_i r hl
        have hone : ∀ s : String, Val.str t = Val.str ("<" ++ s) → s = String.ofList r := by
          intro s e
          cases e
          rw [hlt] at hl
          have : s.toList = r := by simpa using hl
          rw [← this]; simp
        have hno : ∀ s : String, Val.str t ≠ Val.str (">" ++ s) := by
          intro s e
          cases e
          rw [hgt] at hl
          simp at hl
        have ht : t = "<" ++ String.ofList r := by
          apply String.toList_injective; rw [hl, hlt]; simp
        cases hi : pyInt (String.ofList r) with
        | none => rw [hi] at hr; cases hr
        | some i =>
          rw [hi] at hr
          simp only [Except.ok.injEq] at hr
          subst hr
          simp only [Bool.not_eq_true', decide_eq_false_iff_not, not_le]
          constructor
          · intro h
            refine ⟨fun s j e hj => ?_, fun s j e _ => absurd e (hno s)⟩
            rw [hone s e, hi] at hj
            simp at hj; omega
          · rintro ⟨h, -⟩
            exact h _ i (by rw [← ht]) hi
      · rename_i r hl
        have hone : ∀ s : String, Val.str t = Val.str (">" ++ s) → s = String.ofList r := by
          intro s e
          cases e
          rw [hgt] at hl
          have : s.toList = r := by simpa using hl
          rw [← this]; simp
        have hno : ∀ s : String, Val.str t ≠ Val.str ("<" ++ s) := by
          intro s e
          cases e
          rw [hlt] at hl
          simp at hl
        have ht : t = ">" ++ String.ofList r := by
          apply String.toList_injective; rw [hl, hgt]; simp
        cases hi : pyInt (String.ofList r) with
        | none => rw [hi] at hr; cases hr
        | some i =>
          rw [hi] at hr
          simp only [Except.ok.injEq] at hr
          subst hr
          simp only [Bool.not_eq_true', decide_eq_false_iff_not, not_le]
          constructor
          · intro h
            refine ⟨fun s j e _ => absurd e (hno s), fun s j e hj => ?_⟩
            rw [hone s e, hi] at hj
            simp at hj; omega
          · rintro ⟨-, h⟩
            exact h _ i (by rw [← ht]) hi
      · rename_i h1 h2
        simp only [Except.ok.injEq] at hr
        subst hr
        simp only [true_iff]
        constructor
        · intro s i e
          cases e
          exact absurd (hlt s) (h1 s.toList)
        · intro s i e
          cases e
          exact absurd (hgt s) (h2 s.toList)
    | _ =>
      simp only [relOk, Except.ok.injEq] at hr
      simp [← hr]

theorem textOk_iff {H : PyHash} (cf : H.CollisionFree) {bv : BV} {other : Chunk} {sl : Slot} (h : SlotFor bv other "value" sl)
    (s : Stim) (b : Bool) (hr : textOk H sl s = .ok b) :
    b = true ↔ ∀ v, Asks bv other "value" v → ∃ t, s.text = some t ∧ SameVal v (.str t) := by
  rcases h with ⟨rfl, hn⟩ | ⟨v, rfl, he, hb, hp, ha, hs⟩
  · simp only [textOk, Except.ok.injEq] at hr
    simp [← hr, hn]
  · simp only [textOk] at hr
    cases ht : s.text with
    | none => rw [ht] at hr; cases hr
    | some t =>
      rw [ht] at hr
      simp only [Except.ok.injEq] at hr
      subst hr
      rw [pyEq_iff cf v (.str t) hp (by simp [PlainVal]), sameVal_str he]
      constructor
      · rintro rfl w hw
        refine ⟨t, rfl, ?_⟩
        obtain ⟨h1, h2⟩ := hs w hw
        cases w with
        | str u => exact (h1 : t = u).symm
        | empty => exact absurd rfl h2
        | none => simp [SameVal] at h1
        | chunk a b => simp [SameVal] at h1
      · intro h
        obtain ⟨t', e, h'⟩ := h v ha
        cases e
        exact (sameVal_str he).1 h'

theorem notWorse_iff {H : PyHash} (cf : H.CollisionFree) {bv : BV} {other : Chunk} {sx sy : Slot}
    (hx : SlotFor bv other "screen_x" sx) (hy : SlotFor bv other "screen_y" sy)
    (hc : Asks bv other "screen_y" (.str "closest") → ∃ v, Asks bv other "screen_x" v) (focus : ℚ × ℚ) (cur p : ℤ × ℤ) :
    notWorse H sx sy focus cur p = true ↔ ∀ c, Wanted bv other c → cost focus p c ≤ cost focus cur c := by
  have hcl : (slotGiven sx && (slotIs H sx "closest" || slotIs H sy "closest")) = true ↔ Wanted bv other .closest := by
    simp only [Bool.and_eq_true, Bool.or_eq_true, slotIs_iff cf hx, slotIs_iff cf hy, slotGiven_iff hx, Wanted]
    constructor
    · exact fun h => h.2
    · rintro (h | h)
      · exact ⟨⟨_, h⟩, .inl h⟩
      · exact ⟨hc h, .inr h⟩
  have e : notWorse H sx sy focus cur p = true ↔
      (Wanted bv other .lowX → p.1 ≤ cur.1) ∧ (Wanted bv other .highX → cur.1 ≤ p.1) ∧
      (Wanted bv other .lowY → p.2 ≤ cur.2) ∧ (Wanted bv other .highY → cur.2 ≤ p.2) ∧
      (Wanted bv other .closest → sqDist focus ((p.1 : ℚ), (p.2 : ℚ)) ≤ sqDist focus ((cur.1 : ℚ), (cur.2 : ℚ))) ∧
      (Wanted bv other .closeX → |focus.1 - p.1| ≤ |focus.1 - cur.1|) ∧
      (Wanted bv other .closeY → |focus.2 - p.2| ≤ |focus.2 - cur.2|) := by
    unfold notWorse
    simp only [Bool.and_eq_true, Bool.not_eq_true', Bool.and_eq_false_iff, decide_eq_false_iff_not, not_lt, and_assoc]
    have cv : ∀ {b : Bool} {A B : Prop}, (b = true ↔ A) → ((b = false ∨ B) ↔ (A → B)) := by
      intro b A B h
      rw [← h]; cases b <;> simp
    rw [cv (A := Wanted bv other .lowX) (slotIs_iff cf hx _), cv (A := Wanted bv other .highX) (slotIs_iff cf hx _),
      cv (A := Wanted bv other .lowY) (slotIs_iff cf hy _), cv (A := Wanted bv other .highY) (slotIs_iff cf hy _),
      cv (A := Wanted bv other .closeX) (slotIs_iff cf hx _), cv (A := Wanted bv other .closeY) (slotIs_iff cf hy _)]
    rw [← Bool.and_eq_false_iff, cv hcl]
  rw [e]
  constructor
  · rintro ⟨h1, h2, h3, h4, h5, h6, h7⟩ c hw
    cases c with
    | lowX => simp only [cost]; exact_mod_cast h1 hw
    | highX => simp only [cost]; have := h2 hw; exact neg_le_neg (by exact_mod_cast this)
    | lowY => simp only [cost]; exact_mod_cast h3 hw
    | highY => simp only [cost]; have := h4 hw; exact neg_le_neg (by exact_mod_cast this)
    | closest => have := h5 hw; simpa only [cost, sqDist, pow_two] using this
    | closeX => exact h6 hw
    | closeY => exact h7 hw
  · intro h
    refine ⟨fun hw => ?_, fun hw => ?_, fun hw => ?_, fun hw => ?_, fun hw => ?_, fun hw => h _ hw, fun hw => h _ hw⟩
    · have := h _ hw; simp only [cost] at this; exact_mod_cast this
    · have := h _ hw; simp only [cost] at this; exact_mod_cast neg_le_neg_iff.1 this
    · have := h _ hw; simp only [cost] at this; exact_mod_cast this
    · have := h _ hw; simp only [cost] at this; exact_mod_cast neg_le_neg_iff.1 this
    · have := h _ hw; simpa only [cost, sqDist, pow_two] using this

/-- What the partial theorem assumes in addition: no negations; every slot mentioned demands something, and not emptiness;
objects without externally visible attributes. -/
structure SimpleSearch (other : Chunk) (bv : BV) (objects : List Stim) : Prop where
  noNeg : ∀ n x, MentionsSlot other n x → x.negvalues = [] ∧ x.negvars = []
  demands : ∀ n x, MentionsSlot other n x → ∃ v, Demands bv x v
  filled : ∀ n x v, MentionsSlot other n x → Demands bv x v → v ≠ .empty
  hidden : ∀ s ∈ objects, s.extVis.getD [] = []

theorem checkBoundVars_noNeg (P : Py) (bv : BV) (x : VarVal) (h : x.negvalues = [] ∧ x.negvars = []) :
    checkBoundVars P bv false (.vv x) = checkBoundVars P bv true (.vv x) := by
  simp [checkBoundVars, splitting, cbvNegvalues, cbvNegvars, h.1, h.2]

theorem resolveAll_noNeg (P : Py) (bv : BV) : ∀ l : List (String × VarVal), (∀ p ∈ l, p.2.negvalues = [] ∧ p.2.negvars = []) →
    resolveAll P bv false l = resolveAll P bv true l
  | [], _ => rfl
  | (n, x) :: r, h => by
    simp only [resolveAll]
    rw [checkBoundVars_noNeg P bv x (h (n, x) (by simp)), resolveAll_noNeg P bv r (fun p hp => h p (by simp [hp]))]

theorem demands_plain {bv : BV} {x : VarVal} {v : Val} (h : PlainRequest bv x) (hd : Demands bv x v) : PlainVal v := by
  cases hd with
  | literal _ => exact h.value
  | bound _ _ hb => exact h.bound _ _ hb

/-- The search chunk: if every description can be fulfilled and the slots are those of visual locations, the loop is run. -/
theorem visFind_search {P : Py} (pyInt : String → Option ℤ) {reg : Reg} {other : Chunk} {bv : BV} (att : Option Bool) (finst : ℕ)
    (recent : List Stim) (focus : ℚ × ℚ) (screen : Screen)
    {objects : List Stim} (h : SearchRequest P reg other bv) (hs : SimpleSearch other bv objects) :
    ((∃ n x, MentionsSlot other n x ∧ (Illegal bv true x ∨ n ∉ ["color", "screen_x", "screen_y", "value"])) ∧
      ∃ r er, visFind P pyInt reg other bv att finst recent focus (some screen) = (r, .error er)) ∨
    ∃ c sx sy sv reg1, RegOk P.toPyEnv reg1 ∧ (∃ fs, alook "_visuallocation" reg1 = some fs ∧ "screen_x" ∈ fs ∧ "screen_y" ∈ fs) ∧
      SlotFor bv other "screen_x" sx ∧ SlotFor bv other "screen_y" sy ∧
      SlotFor bv other "value" sv ∧ visFind P pyInt reg other bv att finst recent focus (some screen) =
      findLoop ⟨P, pyInt, c, att, finst, recent, focus⟩ sx sy sv reg1 ⟨Option.none, Option.none, Option.none⟩ screen := by
  have hm0 : ManualRequest P [("_manual", ["cmd", "key"])] other bv := ⟨h.cf, h.named, rfl, h.fine⟩
  have hmem : ∀ p ∈ removeUnused P.H other, MentionsSlot other p.1 p.2 := fun p hp => (mem_removeUnused h.cf other p.1 p.2).mp hp
  have hres : resolveAll P bv false (removeUnused P.H other) = resolveAll P bv true (removeUnused P.H other) :=
    resolveAll_noNeg P bv _ (fun p hp => hs.noNeg _ _ (hmem p hp))
  unfold visFind
  rw [hres]
  rcases resolve_cases hm0 with ⟨⟨n, x, hx, hi⟩, e⟩ | ⟨hleg, mods, e, hnd, hfw, hback⟩
  · left; rw [e]; exact ⟨⟨n, x, hx, .inl hi⟩, _, _, rfl⟩
  rw [e]
  simp only
  rcases createChunk_cases h.regOk (typ := "_visuallocation") (dict := mods.map (fun p => (p.1, SlotArg.vv p.2)))
    (by simpa [List.map_map, Function.comp_def] using hnd) (convertAll_vv P.toPyEnv mods) with
    ⟨_, sl, r1, ec, _, hl, hreg1, _, hr1⟩ | ⟨hno, er, ec, _⟩
  swap
  · left
    rw [ec]
    refine ⟨?_, _, _, rfl⟩
    by_contra hall
    push Not at hall
    refine hno (.inl ⟨_, h.loc, fun f hf => ?_⟩)
    simp only [List.map_map, List.mem_map, Function.comp_apply] at hf
    obtain ⟨⟨m, r⟩, hq, rfl⟩ := hf
    obtain ⟨x, v, hx, _⟩ := hback m r hq
    exact (hall m x hx).2
  right
  rw [ec]
  simp only
  have hsl : ∀ n ∈ ["color", "screen_x", "screen_y", "value"], ∃ s, alook n sl = some s ∧ SlotFor bv other n s := by
    intro n hn
    have hl := hl n
    rw [h.loc] at hl
    simp only [Option.getD_some, hn, if_true] at hl
    by_cases hx : ∃ x, MentionsSlot other n x
    · obtain ⟨x, hx⟩ := hx
      obtain ⟨v, hv, his⟩ := hfw n x hx
      obtain ⟨hp, ho⟩ := h.fine n x hx
      have hd : Demands bv x v := by
        rcases his with hd | ⟨hno, -⟩
        · exact hd
        · obtain ⟨w, hw⟩ := hs.demands n x hx; exact absurd hw (hno w)
      have hone : ∀ x', MentionsSlot other n x' → x' = x := by
        intro x' hx'
        have := alook_of_mem h.named hx.1
        rw [alook_of_mem h.named hx'.1] at this
        cases this; rfl
      have hm : (n, SlotOf.vv (⟨v, Option.none, [], []⟩ : VarVal)) ∈ mods.map (fun p => (p.1, (SlotOf.vv p.2 : Slot))) :=
        List.mem_map.2 ⟨_, hv, rfl⟩
      have hlk := alook_of_mem (by simpa [List.map_map, Function.comp_def] using hnd) hm
      rw [hlk] at hl
      refine ⟨_, hl, .inr ⟨v, rfl, hs.filled n x v hx hd, ho.notBlank v hd, demands_plain hp hd, ⟨x, hx, hd⟩, ?_⟩⟩
      rintro w ⟨x', hx', hw⟩
      rw [hone x' hx'] at hw
      refine ⟨?_, hs.filled n x w hx hw⟩
      by_contra hne
      exact hleg n x hx (.two v w hd hw hne)
    · push Not at hx
      have hno : alook n (mods.map (fun p => (p.1, (SlotOf.vv p.2 : Slot)))) = Option.none := by
        apply alook_none_of
        intro p hp e0
        obtain ⟨⟨m, r⟩, hq, rfl⟩ := List.mem_map.1 hp
        obtain ⟨x, v, hxm, _⟩ := hback m r hq
        simp only at e0
        subst e0
        exact hx x hxm
      rw [hno] at hl
      refine ⟨_, hl, .inl ⟨rfl, ?_⟩⟩
      rintro v ⟨x, hxm, _⟩
      exact hx x hxm
  obtain ⟨sx, ex, hx⟩ := hsl "screen_x" (by simp)
  obtain ⟨sy, ey, hy⟩ := hsl "screen_y" (by simp)
  obtain ⟨sv, ev, hv⟩ := hsl "value" (by simp)
  refine ⟨⟨"_visuallocation", sl⟩, sx, sy, sv, r1, hr1, ⟨_, hreg1, ?_, ?_⟩, hx, hy, hv, by simp only [searchSlot, ex, ey, ev]⟩
  · exact List.mem_map.2 ⟨_, mem_of_alook' ex, rfl⟩
  · exact List.mem_map.2 ⟨_, mem_of_alook' ey, rfl⟩

theorem examine_cur (F : FindCfg) (sx sy sv : Slot) (cur : Option (ℤ × ℤ)) (s : Stim) :
    examine F sx sy sv cur s = match examine F sx sy sv Option.none s with
      | .error e => .error e
      | .ok Option.none => .ok Option.none
      | .ok (some p) => match cur with
        | Option.none => .ok (some p)
        | some c => if notWorse F.P.H sx sy F.focus c p then .ok (some p) else .ok Option.none := by
  unfold examine
  by_cases h1 : (!attendedOk F.att F.finst F.recent s) = true
  · simp only [h1, if_true]
  · simp only [h1, if_false]
    cases textOk F.P.H sv s with
    | error e => rfl
    | ok b =>
      cases b with
      | false => rfl
      | true =>
        simp only
        cases s.pos with
        | none => rfl
        | some q =>
          obtain ⟨x, y⟩ := q
          simp only
          by_cases h2 : (!absOk F.pyInt sx (truncQ x)) = true
          · simp only [h2, if_true]; rfl
          · simp only [h2]
            by_cases h3 : (!absOk F.pyInt sy (truncQ y)) = true
            · simp only [h3, if_true]; rfl
            · simp only [h3]
              cases relOk F.pyInt sx (truncQ x) with
              | error e => rfl
              | ok b =>
                cases b with
                | false => rfl
                | true =>
                  cases relOk F.pyInt sy (truncQ y) with
                  | error e => rfl
                  | ok b => cases b <;> rfl

/-- Objects that pass the conditions are those that satisfy the request. -/
theorem examine_iff {P : Py} {pyInt : String → Option ℤ} {c : Chunk} {other : Chunk} {bv : BV} {att : Option Bool} {finst : ℕ}
    {recent : List Stim} {focus : ℚ × ℚ} {objects : List Stim} {sx sy sv : Slot} (cf : P.H.CollisionFree)
    (hs : SimpleSearch other bv objects) (hfin : recent.length ≤ finst) (hatt0 : finst = 0 → att ≠ some true)
    (hx : SlotFor bv other "screen_x" sx) (hy : SlotFor bv other "screen_y" sy) (hv : SlotFor bv other "value" sv) (s : Stim)
    (r : Option (ℤ × ℤ)) (he : examine ⟨P, pyInt, c, att, finst, recent, focus⟩ sx sy sv Option.none s = .ok r) (p : ℤ × ℤ) :
    r = some p ↔ Satisfies pyInt bv other att recent s p := by
  have hatt : attendedOk att finst recent s = true ↔
      (att = some false → ¬ ∃ r ∈ recent, SameStim r s) ∧ (att = some true → ∃ r ∈ recent, SameStim r s) := by
    by_cases hz : finst = 0
    · have hr0 : recent = [] := List.length_eq_zero_iff.1 (by omega)
      subst hr0
      have := hatt0 hz
      match att with
      | Option.none => simp [attendedOk]
      | some false => simp [attendedOk, hz]
      | some true => exact absurd rfl this
    · have hz' : (finst != 0) = true := by simpa using hz
      match att with
      | Option.none => simp [attendedOk]
      | some false =>
        simp only [attendedOk, hz', Bool.true_and, Bool.not_eq_true', ← inVisRecent_iff, Bool.not_eq_true]
        simp
      | some true =>
        simp only [attendedOk, hz', Bool.true_and, Bool.not_not, ← inVisRecent_iff]
        simp
  have hnoRef : ∀ n v, ¬ Refuses bv other n v := by
    rintro n v ⟨x, hxm, hr⟩
    obtain ⟨e1, e2⟩ := hs.noNeg n x hxm
    cases hr with
    | literal h => rw [e1] at h; simp at h
    | bound h _ => rw [e2] at h; simp at h
  unfold examine at he
  simp only at he
  by_cases h1 : attendedOk att finst recent s = true
  · simp only [h1, Bool.not_true] at he
    have h1' := hatt.1 h1
    cases ht : textOk P.H sv s with
    | error e => rw [ht] at he; cases he
    | ok b =>
      rw [ht] at he
      have htx := textOk_iff cf hv s b ht
      cases b with
      | false =>
        simp only [Bool.false_eq_true, if_false, Except.ok.injEq] at he
        subst he
        constructor
        · intro e; cases e
        · intro h; exact absurd (htx.2 h.value) (by simp)
      | true =>
        have htx := htx.1 rfl
        simp only [Bool.false_eq_true, if_false] at he
        cases hp : s.pos with
        | none => rw [hp] at he; cases he
        | some q =>
          obtain ⟨x, y⟩ := q
          rw [hp] at he
          simp only at he
          have back : ∀ p, Satisfies pyInt bv other att recent s p → p = (truncQ x, truncQ y) := by
            rintro ⟨a, b⟩ h
            obtain ⟨x', y', e, h1, h2⟩ := h.seen
            rw [hp] at e
            cases e
            exact Prod.ext (intPart_unique h1 (truncQ_intPart x)) (intPart_unique h2 (truncQ_intPart y))
          have ax := absOk_iff hx pyInt (truncQ x)
          have ay := absOk_iff hy pyInt (truncQ y)
          by_cases h2 : absOk pyInt sx (truncQ x) = true
          · simp only [h2, Bool.not_true, Bool.false_eq_true, if_false] at he
            by_cases h3 : absOk pyInt sy (truncQ y) = true
            · simp only [h3, Bool.not_true, Bool.false_eq_true, if_false] at he
              cases hrx : relOk pyInt sx (truncQ x) with
              | error e => rw [hrx] at he; cases he
              | ok b1 =>
                rw [hrx] at he
                have rx := relOk_iff hx pyInt (truncQ x) b1 hrx
                cases b1 with
                | false =>
                  simp only [Except.ok.injEq] at he
                  subst he
                  constructor
                  · intro e; cases e
                  · intro h
                    have := back p h
                    subst this
                    exact absurd (rx.2 ⟨h.x.less, h.x.greater⟩) (by simp)
                | true =>
                  simp only at he
                  cases hry : relOk pyInt sy (truncQ y) with
                  | error e => rw [hry] at he; cases he
                  | ok b2 =>
                    rw [hry] at he
                    have ry := relOk_iff hy pyInt (truncQ y) b2 hry
                    cases b2 with
                    | false =>
                      simp only [Except.ok.injEq] at he
                      subst he
                      constructor
                      · intro e; cases e
                      · intro h
                        have := back p h
                        subst this
                        exact absurd (ry.2 ⟨h.y.less, h.y.greater⟩) (by simp)
                    | true =>
                      simp only [Except.ok.injEq] at he
                      subst he
                      constructor
                      · intro e
                        cases e
                        refine ⟨⟨x, y, hp, truncQ_intPart x, truncQ_intPart y⟩, htx, fun v t h => absurd h (hnoRef _ v),
                          ⟨ax.1 h2, (rx.1 rfl).1, (rx.1 rfl).2, fun s i h => absurd h (hnoRef _ _)⟩,
                          ⟨ay.1 h3, (ry.1 rfl).1, (ry.1 rfl).2, fun s i h => absurd h (hnoRef _ _)⟩, h1'.1, h1'.2⟩
                      · intro h; rw [back p h]
            · simp only [Bool.not_eq_true] at h3
              simp only [h3, Bool.not_false, if_true, Except.ok.injEq] at he
              subst he
              constructor
              · intro e; cases e
              · intro h
                have := back p h
                subst this
                rw [ay.2 h.y.at_] at h3; cases h3
          · simp only [Bool.not_eq_true] at h2
            simp only [h2, Bool.not_false, if_true, Except.ok.injEq] at he
            subst he
            constructor
            · intro e; cases e
            · intro h
              have := back p h
              subst this
              rw [ax.2 h.x.at_] at h2; cases h2
  · have h1' : (!attendedOk att finst recent s) = true := by simpa using h1
    simp only [h1', if_true, Except.ok.injEq] at he
    subst he
    constructor
    · intro e; cases e
    · intro h; exact absurd (hatt.2 ⟨h.unattended, h.attended⟩) h1

/-- The loop of the search, for objects whose visible chunk is empty: it ends with an object that passes the conditions and is not
beaten by another one. `done` are the objects seen so far. -/
theorem findLoop_spec (F : FindCfg) (sx sy sv : Slot)
    (hrefl : ∀ p, notWorse F.P.H sx sy F.focus p p = true)
    (htrans : ∀ p q r, notWorse F.P.H sx sy F.focus p q = true → notWorse F.P.H sx sy F.focus q r = true → notWorse F.P.H sx sy F.focus p r = true) :
    ∀ (todo : Screen) (done : List Stim) (reg reg' : Reg) (st : FindSt) (found : Option Chunk) (stim : Option Stim),
    RegOk F.P.toPyEnv reg → (∀ x ∈ todo, x.2.extVis.getD [] = []) →
    (∀ s ∈ done, ∃ r, examine F sx sy sv Option.none s = .ok r) →
    ((st = ⟨Option.none, Option.none, Option.none⟩ ∧ ∀ s ∈ done, examine F sx sy sv Option.none s = .ok Option.none) ∨
      ∃ c s p, st = ⟨some c, some s, some p⟩ ∧ s ∈ done ∧ examine F sx sy sv Option.none s = .ok (some p) ∧ LocatedAt c p ∧
        ∀ s' ∈ done, ∀ p', examine F sx sy sv Option.none s' = .ok (some p') →
          notWorse F.P.H sx sy F.focus p p' = true → notWorse F.P.H sx sy F.focus p' p = true) →
    findLoop F sx sy sv reg st todo = (reg', .ok (found, stim)) →
    (∀ s ∈ done ++ todo.map Prod.snd, ∃ r, examine F sx sy sv Option.none s = .ok r) ∧
    ((found = Option.none ∧ stim = Option.none ∧ ∀ s ∈ done ++ todo.map Prod.snd, examine F sx sy sv Option.none s = .ok Option.none) ∨
      ∃ c s p, found = some c ∧ stim = some s ∧ s ∈ done ++ todo.map Prod.snd ∧ examine F sx sy sv Option.none s = .ok (some p) ∧
        LocatedAt c p ∧ ∀ s' ∈ done ++ todo.map Prod.snd, ∀ p', examine F sx sy sv Option.none s' = .ok (some p') →
          notWorse F.P.H sx sy F.focus p p' = true → notWorse F.P.H sx sy F.focus p' p = true)
  | [], done, reg, reg', st, found, stim, _, _, hdone, hinv, h => by
    simp only [findLoop, Prod.mk.injEq, Except.ok.injEq] at h
    obtain ⟨-, rfl, rfl⟩ := h
    simp only [List.map_nil, List.append_nil]
    refine ⟨hdone, ?_⟩
    rcases hinv with ⟨rfl, h⟩ | ⟨c, s, p, rfl, h⟩
    · exact .inl ⟨rfl, rfl, h⟩
    · exact .inr ⟨c, s, p, rfl, rfl, h⟩
  | (nm, s) :: todo, done, reg, reg', st, found, stim, hreg, hvis, hdone, hinv, h => by
    have hvis' : ∀ x ∈ todo, x.2.extVis.getD [] = [] := fun x hx => hvis x (List.mem_cons_of_mem _ hx)
    have hev : s.extVis.getD [] = [] := hvis (nm, s) (List.mem_cons_self ..)
    have hl : done ++ ((nm, s) :: todo).map Prod.snd = (done ++ [s]) ++ todo.map Prod.snd := by simp
    rw [hl]
    simp only [findLoop] at h
    rw [examine_cur] at h
    cases hex : examine F sx sy sv Option.none s with
    | error e => rw [hex] at h; cases h
    | ok r =>
      have hdone' : ∀ s' ∈ done ++ [s], ∃ r, examine F sx sy sv Option.none s' = .ok r := by
        intro s' hs'
        rcases List.mem_append.1 hs' with hs' | hs'
        · exact hdone s' hs'
        · simp at hs'; subst hs'; exact ⟨r, hex⟩
      rw [hex] at h
      cases r with
      | none =>
        simp only at h
        refine findLoop_spec F sx sy sv hrefl htrans todo (done ++ [s]) reg reg' st found stim hreg hvis' hdone' ?_ h
        rcases hinv with ⟨rfl, hn⟩ | ⟨c, s0, p, rfl, h1, h2, h3, h4⟩
        · left
          refine ⟨rfl, fun s' hs' => ?_⟩
          rcases List.mem_append.1 hs' with hs' | hs'
          · exact hn s' hs'
          · simp at hs'; subst hs'; exact hex
        · right
          refine ⟨c, s0, p, rfl, List.mem_append_left _ h1, h2, h3, fun s' hs' p' hp' => ?_⟩
          rcases List.mem_append.1 hs' with hs' | hs'
          · exact h4 s' hs' p' hp'
          · simp at hs'; subst hs'; rw [hex] at hp'; cases hp'
      | some q =>
        have hpos : ∃ x y, s.pos = some (x, y) ∧ q = (truncQ x, truncQ y) := by
          unfold examine at hex
          split at hex
          · cases hex
          · split at hex
            · cases hex
            · cases hex
            · split at hex
              · cases hex
              · rename_i x y hp
                simp only at hex
                refine ⟨x, y, hp, ?_⟩
                split at hex
                · cases hex
                · split at hex
                  · cases hex
                  · split at hex
                    · cases hex
                    · cases hex
                    · split at hex
                      · cases hex
                      · cases hex
                      · simp only [Except.ok.injEq, Option.some.injEq] at hex; exact hex.symm
        obtain ⟨x, y, hp, rfl⟩ := hpos
        -- what happens when the object is taken
        have take : ∀ (c1 : Chunk × Reg) (_ : (match locChunk F.P reg s false with
              | (reg1, .error e) => (reg1, .error e)
              | (reg1, .ok v) =>
                if (v.le F.P.H BV.init F.search).1 then
                  match locChunk F.P reg1 s true with
                  | (reg2, .error e) => (reg2, .error e)
                  | (reg2, .ok c) => findLoop F sx sy sv reg2 ⟨some c, some s, some (truncQ x, truncQ y)⟩ todo
                else findLoop F sx sy sv reg1 { st with stim := some s } todo) = (reg', Except.ok (found, stim))),
            ∃ reg2 c, RegOk F.P.toPyEnv reg2 ∧ LocatedAt c (truncQ x, truncQ y) ∧
              findLoop F sx sy sv reg2 ⟨some c, some s, some (truncQ x, truncQ y)⟩ todo = (reg', .ok (found, stim)) := by
          intro _ h
          cases h1 : locChunk F.P reg s false with
          | mk reg1 r1 =>
            rw [h1] at h
            cases r1 with
            | error e => cases h
            | ok v =>
              obtain ⟨he, hr1⟩ := locChunk_plain hreg hev h1
              simp only at h
              rw [if_pos (le_of_empty F.P.H v F.search he)] at h
              cases h2 : locChunk F.P reg1 s true with
              | mk reg2 r2 =>
                rw [h2] at h
                cases r2 with
                | error e => cases h
                | ok c =>
                  obtain ⟨hloc, hr2⟩ := locChunk_pos hr1 hev hp h2
                  exact ⟨reg2, c, hr2, hloc, h⟩
        rcases hinv with ⟨rfl, hn⟩ | ⟨c0, s0, p0, rfl, h1, h2, h3, h4⟩
        · simp only at h
          obtain ⟨reg2, c, hr2, hloc, h⟩ := take (⟨"", []⟩, []) h
          refine findLoop_spec F sx sy sv hrefl htrans todo (done ++ [s]) reg2 reg' _ found stim hr2 hvis' hdone' ?_ h
          right
          refine ⟨c, s, _, rfl, by simp, hex, hloc, fun s' hs' p' hp' _ => ?_⟩
          rcases List.mem_append.1 hs' with hs' | hs'
          · rw [hn s' hs'] at hp'; cases hp'
          · simp at hs'; subst hs'; rw [hex] at hp'; cases hp'; exact hrefl _
        · simp only at h
          by_cases hw : notWorse F.P.H sx sy F.focus p0 (truncQ x, truncQ y) = true
          · rw [if_pos hw] at h
            simp only at h
            obtain ⟨reg2, c, hr2, hloc, h⟩ := take (⟨"", []⟩, []) h
            refine findLoop_spec F sx sy sv hrefl htrans todo (done ++ [s]) reg2 reg' _ found stim hr2 hvis' hdone' ?_ h
            right
            refine ⟨c, s, _, rfl, by simp, hex, hloc, fun s' hs' p' hp' hle => ?_⟩
            rcases List.mem_append.1 hs' with hs' | hs'
            · have := h4 s' hs' p' hp' (htrans _ _ _ hw hle)
              exact htrans _ _ _ this hw
            · simp at hs'; subst hs'; rw [hex] at hp'; cases hp'; exact hrefl _
          · rw [if_neg hw] at h
            simp only at h
            refine findLoop_spec F sx sy sv hrefl htrans todo (done ++ [s]) reg reg' _ found stim hreg hvis' hdone' ?_ h
            right
            refine ⟨c0, s0, p0, rfl, List.mem_append_left _ h1, h2, h3, fun s' hs' p' hp' hle => ?_⟩
            rcases List.mem_append.1 hs' with hs' | hs'
            · exact h4 s' hs' p' hp' hle
            · simp at hs'; subst hs'; rw [hex] at hp'; cases hp'; exact absurd hle hw

/-- C39, partial: for all screens and all requests without negations, objects without externally visible attributes, 'closest'
not asked for screen_y alone, and attended objects not asked for if finst = 0: the search finds an object that satisfies the request
if there is one, reports this object, and no other one is better. Missing: the cases excluded by the hypotheses, in which it is wrong
(C39_refuted, C39_finst; a slot with negations only has the value None, which no text equals) or reports an object it has not found
(one whose externally visible attributes differ from the request). -/
theorem C39_partial (P : Py) (pyInt : String → Option ℤ) (reg : Reg) (other : Chunk) (bv : BV) (att : Option Bool) (finst : ℕ)
    (recent : List Stim) (focus : ℚ × ℚ) (screen : Screen) (reg' : Reg) (found : Option Chunk) (stim : Option Stim)
    (h : SearchRequest P reg other bv) (hfin : recent.length ≤ finst)
    (hs : SimpleSearch other bv (screen.map Prod.snd)) (hatt0 : finst = 0 → att ≠ some true)
    (hclosest : Asks bv other "screen_y" (.str "closest") → ∃ v, Asks bv other "screen_x" v)
    (hf : visFind P pyInt reg other bv att finst recent focus (some screen) = (reg', .ok (found, stim))) :
    GoodSearch pyInt bv other att recent focus (screen.map Prod.snd) found stim := by
  rcases visFind_search pyInt att finst recent focus screen h hs with ⟨_, r, er, he⟩ | ⟨c, sx, sy, sv, reg1, hr1, _, hx, hy, hv, hl⟩
  · rw [he] at hf; cases hf
  rw [hl] at hf
  have nw := fun cur p => notWorse_iff h.cf hx hy hclosest focus cur p
  obtain ⟨hall, hcase⟩ := findLoop_spec ⟨P, pyInt, c, att, finst, recent, focus⟩ sx sy sv
    (fun p => (nw p p).2 (fun _ _ => le_refl _))
    (fun p q r h1 h2 => (nw p r).2 (fun c hc => le_trans ((nw q r).1 h2 c hc) ((nw p q).1 h1 c hc)))
    screen [] reg1 reg' _ found stim hr1 (fun x hx => hs.hidden x.2 (List.mem_map.2 ⟨x, hx, rfl⟩)) (by simp)
    (.inl ⟨rfl, by simp⟩) hf
  simp only [List.nil_append] at hall hcase
  have ex := fun s r he p => examine_iff (c := c) h.cf hs hfin hatt0 hx hy hv s r he p (pyInt := pyInt) (focus := focus)
  constructor
  · intro hno
    rcases hcase with ⟨_, e2, hn⟩ | ⟨_, _, _, e1, _⟩
    · refine ⟨e2, fun s hs' p hsat => ?_⟩
      have := (ex s Option.none (hn s hs') p).2 hsat
      cases this
    · rw [hno] at e1; cases e1
  · intro c0 hc0
    rcases hcase with ⟨e1, _⟩ | ⟨c1, s, p, e1, e2, hm, hp, hloc, hbest⟩
    · rw [hc0] at e1; cases e1
    · rw [hc0] at e1
      cases e1
      refine ⟨s, p, e2, hm, (ex s _ hp p).1 rfl, hloc, ?_⟩
      rintro s' hs' p' hsat ⟨hb1, d, hd, hb2⟩
      obtain ⟨r, hr⟩ := hall s' hs'
      have := (ex s' r hr p').2 hsat
      subst this
      have h1 := hbest s' hs' p' hr ((nw p p').2 hb1)
      exact absurd ((nw p' p).1 h1 d hd) (not_le.2 hb2)

theorem relOk_ok {bv : BV} {other : Chunk} {n : String} {sl : Slot} (h : SlotFor bv other n sl) (pyInt : String → Option ℤ) (k : ℤ)
    (hp : ∀ s, Asks bv other n (.str ("<" ++ s)) ∨ Asks bv other n (.str (">" ++ s)) → pyInt s ≠ Option.none) :
    ∃ b, relOk pyInt sl k = .ok b := by
  rcases h with ⟨rfl, hn⟩ | ⟨v, rfl, he, hb, hpl, ha, hs⟩
  · exact ⟨_, rfl⟩
  · simp only [slotFor_str he ha hs] at hp
    cases v with
    | str t =>
      simp only [relOk]
      split
      · rename_i r hl
        have ht : t = "<" ++ String.ofList r := by
          apply String.toList_injective; rw [hl]; simp
        cases hi : pyInt (String.ofList r) with
        | none => exact absurd hi (hp _ (.inl (by rw [← ht])))
        | some i => exact ⟨_, rfl⟩
      · rename_i r hl
        have ht : t = ">" ++ String.ofList r := by
          apply String.toList_injective; rw [hl]; simp
        cases hi : pyInt (String.ofList r) with
        | none => exact absurd hi (hp _ (.inr (by rw [← ht])))
        | some i => exact ⟨_, rfl⟩
      · exact ⟨_, rfl⟩
    | _ => exact ⟨_, rfl⟩

theorem textOk_ok {H : PyHash} {bv : BV} {other : Chunk} {sl : Slot} (h : SlotFor bv other "value" sl)
    (s : Stim) (ht : (∃ v, Asks bv other "value" v) → s.text ≠ Option.none) : ∃ b, textOk H sl s = .ok b := by
  rcases h with ⟨rfl, hn⟩ | ⟨v, rfl, he, hb, hpl, ha, hs⟩
  · exact ⟨_, rfl⟩
  · simp only [textOk]
    cases e : s.text with
    | none => exact absurd e (ht ⟨v, ha⟩)
    | some t => exact ⟨_, rfl⟩

/-- The objects and the request are such that nothing is missing: positions, texts if there is a condition on them, numbers after
"<" and ">"; and the objects are of the default type. -/
structure Searchable (pyInt : String → Option ℤ) (other : Chunk) (bv : BV) (objects : List Stim) : Prop where
  legal : ∀ n x, MentionsSlot other n x → ¬ Illegal bv true x ∧ n ∈ ["color", "screen_x", "screen_y", "value"]
  pos : ∀ s ∈ objects, s.pos ≠ Option.none
  text : (∃ v, Asks bv other "value" v) → ∀ s ∈ objects, s.text ≠ Option.none
  nums : ∀ n s, n ∈ ["screen_x", "screen_y"] → Asks bv other n (.str ("<" ++ s)) ∨ Asks bv other n (.str (">" ++ s)) →
    pyInt s ≠ Option.none
  typ : ∀ s ∈ objects, s.locType = Option.none

theorem examine_ok {F : FindCfg} {sx sy sv : Slot} {cur : Option (ℤ × ℤ)} {s : Stim} (h1 : ∃ b, textOk F.P.H sv s = .ok b)
    (h2 : s.pos ≠ Option.none) (h3 : ∀ k, ∃ b, relOk F.pyInt sx k = .ok b) (h4 : ∀ k, ∃ b, relOk F.pyInt sy k = .ok b) :
    ∃ r, examine F sx sy sv cur s = .ok r ∧ ∀ p, r = some p → s.pos ≠ Option.none := by
  unfold examine
  obtain ⟨b, hb⟩ := h1
  split
  · exact ⟨_, rfl, fun _ _ => h2⟩
  rw [hb]
  cases b with
  | false => exact ⟨_, rfl, fun _ _ => h2⟩
  | true =>
    cases hp : s.pos with
    | none => exact absurd hp h2
    | some q =>
      obtain ⟨x, y⟩ := q
      simp only
      obtain ⟨b1, hb1⟩ := h3 (truncQ x)
      obtain ⟨b2, hb2⟩ := h4 (truncQ y)
      rw [hb1, hb2]
      split
      · exact ⟨_, rfl, by simp⟩
      · split
        · exact ⟨_, rfl, by simp⟩
        · cases b1 <;> cases b2 <;> try exact ⟨_, rfl, by simp⟩
          cases cur with
          | none => exact ⟨_, rfl, by simp⟩
          | some c => simp only; split <;> exact ⟨_, rfl, by simp⟩

theorem locChunk_ok {P : Py} {reg : Reg} (hr : RegOk P.toPyEnv reg) {fs : List String} (hl : alook "_visuallocation" reg = some fs)
    (hx : "screen_x" ∈ fs) (hy : "screen_y" ∈ fs) {s : Stim} (he : s.extVis.getD [] = []) (ht : s.locType = Option.none)
    (hp : s.pos ≠ Option.none) (b : Bool) :
    ∃ reg' c, locChunk P reg s b = (reg', .ok c) ∧ RegOk P.toPyEnv reg' ∧
      ∃ fs', alook "_visuallocation" reg' = some fs' ∧ "screen_x" ∈ fs' ∧ "screen_y" ∈ fs' := by
  have fin : ∀ {sl : Slots}, (∀ f ∈ fs, ∃ x, alook f sl = some x) → "screen_x" ∈ sl.map Prod.fst ∧ "screen_y" ∈ sl.map Prod.fst := by
    intro sl h
    obtain ⟨x, h1⟩ := h _ hx
    obtain ⟨y, h2⟩ := h _ hy
    exact ⟨List.mem_map.2 ⟨_, mem_of_alook' h1, rfl⟩, List.mem_map.2 ⟨_, mem_of_alook' h2, rfl⟩⟩
  cases b with
  | false =>
    have hd : locChunk P reg s false = createChunk P.toPyEnv reg "_visuallocation" [] := by
      simp [locChunk, he, ht]
    rw [hd]
    rcases createChunk_cases hr (typ := "_visuallocation") (dict := []) (by simp) (vals := []) rfl with
      ⟨_, sl, r', e, _, hlk, hreg, _, hr'⟩ | ⟨hno, _⟩
    · refine ⟨r', _, e, hr', _, hreg, fin fun f hf => ?_⟩
      rw [hlk f, hl]
      simp [alook, hf]
    · exact absurd (.inl ⟨fs, hl, by simp⟩) hno
  | true =>
    cases hp' : s.pos with
    | none => exact absurd hp' hp
    | some q =>
      obtain ⟨x, y⟩ := q
      have e0 : locChunk P reg s true = createChunk P.toPyEnv reg "_visuallocation"
          [("screen_x", SlotArg.text (toString (truncQ x))), ("screen_y", SlotArg.text (toString (truncQ y)))] := by
        simp [locChunk, he, hp', aset, ht]
      rw [e0]
      have hv : convertAll P.toPyEnv [("screen_x", SlotArg.text (toString (truncQ x))), ("screen_y", SlotArg.text (toString (truncQ y)))] =
          .ok [("screen_x", ⟨.str (toString (truncQ x)), Option.none, [], []⟩), ("screen_y", ⟨.str (toString (truncQ y)), Option.none, [], []⟩)] := by
        simp only [convertAll, SlotArg.convert]
        rw [C11_plain _ _ (intDigits_plain _), C11_plain _ _ (intDigits_plain _)]
      rcases createChunk_cases hr (typ := "_visuallocation") (by simp) hv with
        ⟨_, sl, r', e, _, hlk, hreg, _, hr'⟩ | ⟨hno, _⟩
      · refine ⟨r', _, e, hr', _, hreg, fin fun f hf => ?_⟩
        rw [hlk f, hl]
        simp only [Option.getD_some, hf, if_true]
        cases alook f _ with
        | none => exact ⟨_, rfl⟩
        | some a => exact ⟨_, rfl⟩
      · exact absurd (.inl ⟨fs, hl, by simp [hx, hy]⟩) hno

theorem findLoop_ok {F : FindCfg} {sx sy sv : Slot} : ∀ (todo : Screen) (reg : Reg) (st : FindSt), RegOk F.P.toPyEnv reg →
    (∃ fs, alook "_visuallocation" reg = some fs ∧ "screen_x" ∈ fs ∧ "screen_y" ∈ fs) →
    (∀ x ∈ todo, x.2.extVis.getD [] = [] ∧ x.2.locType = Option.none ∧ x.2.pos ≠ Option.none) →
    (∀ x ∈ todo, ∀ cur, ∃ r, examine F sx sy sv cur x.2 = .ok r) →
    ∃ reg' found stim, findLoop F sx sy sv reg st todo = (reg', .ok (found, stim))
  | [], reg, st, _, _, _, _ => ⟨_, _, _, rfl⟩
  | (nm, s) :: r, reg, st, hr, ⟨fs, hl, hx, hy⟩, hg, he => by
    have ih := fun reg st h1 h2 => findLoop_ok (F := F) (sx := sx) (sy := sy) (sv := sv) r reg st h1 h2
      (fun x hx => hg x (List.mem_cons_of_mem _ hx)) (fun x hx => he x (List.mem_cons_of_mem _ hx))
    obtain ⟨g1, g2, g3⟩ := hg (nm, s) (List.mem_cons_self ..)
    obtain ⟨q, hq⟩ := he (nm, s) (List.mem_cons_self ..) st.cur
    simp only [findLoop]
    rw [hq]
    cases q with
    | none => exact ih reg st hr ⟨fs, hl, hx, hy⟩
    | some p =>
      simp only
      obtain ⟨reg1, c1, e1, hr1, fs1, hl1, hx1, hy1⟩ := locChunk_ok hr hl hx hy g1 g2 g3 false
      obtain ⟨reg2, c2, e2, hr2, fs2, hl2⟩ := locChunk_ok hr1 hl1 hx1 hy1 g1 g2 g3 true
      rw [e1]
      simp only
      split
      · rw [e2]; exact ih reg2 _ hr2 ⟨fs2, hl2⟩
      · exact ih reg1 _ hr1 ⟨fs1, hl1, hx1, hy1⟩

/-- The search ends without an exception if nothing it needs is missing: the hypothesis of `C39_partial` is met. -/
theorem C39_ends (P : Py) (pyInt : String → Option ℤ) (reg : Reg) (other : Chunk) (bv : BV) (att : Option Bool) (finst : ℕ)
    (recent : List Stim) (focus : ℚ × ℚ) (screen : Screen) (h : SearchRequest P reg other bv)
    (hs : SimpleSearch other bv (screen.map Prod.snd)) (hg : Searchable pyInt other bv (screen.map Prod.snd)) :
    ∃ reg' found stim, visFind P pyInt reg other bv att finst recent focus (some screen) = (reg', .ok (found, stim)) := by
  rcases visFind_search pyInt att finst recent focus screen h hs with ⟨⟨n, x, hx, hi⟩, _⟩ | ⟨c, sx, sy, sv, reg1, hr1, hl1, hx, hy, hv, hl⟩
  · obtain ⟨h1, h2⟩ := hg.legal n x hx
    rcases hi with hi | hi
    · exact absurd hi h1
    · exact absurd h2 hi
  rw [hl]
  have hm : ∀ x ∈ screen, x.2 ∈ screen.map Prod.snd := fun x hx => List.mem_map.2 ⟨x, hx, rfl⟩
  refine findLoop_ok screen reg1 _ hr1 hl1 (fun x hx => ⟨hs.hidden _ (hm x hx), hg.typ _ (hm x hx), hg.pos _ (hm x hx)⟩) ?_
  intro x hx' cur
  obtain ⟨r, hr, _⟩ := examine_ok (F := ⟨P, pyInt, c, att, finst, recent, focus⟩) (sx := sx) (sy := sy) (sv := sv) (cur := cur)
    (textOk_ok hv x.2 (fun h => hg.text h _ (hm x hx'))) (hg.pos _ (hm x hx'))
    (fun k => relOk_ok hx pyInt k (hg.nums "screen_x" · (by simp))) (fun k => relOk_ok hy pyInt k (hg.nums "screen_y" · (by simp)))
  exact ⟨r, hr⟩

/-- If no comparison is made, the last object that satisfies the request is reported. -/
theorem findLoop_last {F : FindCfg} {sx sy sv : Slot} (hn : ∀ cur p, notWorse F.P.H sx sy F.focus cur p = true) {nm : String} {s : Stim}
    {p : ℤ × ℤ} (he : examine F sx sy sv Option.none s = .ok (some p)) : ∀ (todo : Screen) (reg reg' : Reg) (st : FindSt)
    (found : Option Chunk) (stim : Option Stim), findLoop F sx sy sv reg st (todo ++ [(nm, s)]) = (reg', .ok (found, stim)) → stim = some s
  | [], reg, reg', st, found, stim, h => by
    simp only [List.nil_append, findLoop] at h
    have he' : examine F sx sy sv st.cur s = .ok (some p) := by
      rw [examine_cur, he]
      cases st.cur <;> simp [hn]
    rw [he'] at h
    simp only at h
    cases h1 : locChunk F.P reg s false with
    | mk reg1 r1 =>
      rw [h1] at h
      cases r1 with
      | error e => cases h
      | ok v =>
        simp only at h
        split at h
        · cases h2 : locChunk F.P reg1 s true with
          | mk reg2 r2 =>
            rw [h2] at h
            cases r2 with
            | error e => cases h
            | ok c => simp at h; exact h.2.2.symm
        · simp at h; exact h.2.2.symm
  | (nm', s') :: r, reg, reg', st, found, stim, h => by
    simp only [List.cons_append, findLoop] at h
    cases hx : examine F sx sy sv st.cur s' with
    | error e => rw [hx] at h; cases h
    | ok q =>
      rw [hx] at h
      cases q with
      | none => exact findLoop_last hn he r _ _ _ _ _ h
      | some q =>
        simp only at h
        cases h1 : locChunk F.P reg s' false with
        | mk reg1 r1 =>
          rw [h1] at h
          cases r1 with
          | error e => cases h
          | ok v =>
            simp only at h
            split at h
            · cases h2 : locChunk F.P reg1 s' true with
              | mk reg2 r2 =>
                rw [h2] at h
                cases r2 with
                | error e => cases h
                | ok c => exact findLoop_last hn he r _ _ _ _ _ h
            · exact findLoop_last hn he r _ _ _ _ _ h

/-- The registry with the type of visual locations. -/
def exVisReg : Reg := [("_visuallocation", ["color", "screen_x", "screen_y", "value"])]

theorem exVisReg_ok (H : PyHash) : RegOk (exPy H).toPyEnv exVisReg := by
  intro t fs h
  simp only [exVisReg, alook] at h
  split at h
  · rename_i e
    subst e
    simp only [Option.some.injEq] at h
    subst h
    refine ⟨?_, ?_, ?_⟩
    · unfold FieldsSorted; decide
    · simp [exPy]
    · simp [exPy]
  · cases h

/-- An object that is only a text at a position. -/
def exStim (t : String) (x y : ℚ) : Stim := ⟨some t, some (x, y), Option.none, Option.none, Option.none, Option.none, []⟩

/-- The request for a word in one slot. -/
def exAsk (n w : String) : Chunk :=
  ⟨"_visuallocation", ["color", "screen_x", "screen_y", "value"].map (fun m => (m, if m = n then .vv ⟨.str w, Option.none, [], []⟩ else .empty))⟩

theorem exAsk_mentions {n w : String} : ∀ m x, MentionsSlot (exAsk n w) m x → m = n ∧ x = ⟨.str w, Option.none, [], []⟩ := by
  rintro m x ⟨hx, _⟩
  simp only [exAsk, List.mem_map, Prod.mk.injEq] at hx
  obtain ⟨m', _, rfl, h⟩ := hx
  split at h
  · rename_i e; exact ⟨e, by simpa [eq_comm] using h⟩
  · cases h

theorem demands_literal {bv : BV} {t : String} {v : Val} (h : Demands bv ⟨.str t, Option.none, [], []⟩ v) : v = .str t := by
  cases h with
  | literal _ => rfl
  | bound h _ _ => simp at h

theorem exAsk_request (H : PyHash) (cf : H.CollisionFree) (n w : String) (h0 : w ≠ "") (h1 : w ≠ ">") (h2 : w ≠ "<") :
    SearchRequest (exPy H) exVisReg (exAsk n w) BV.init := by
  have hf := literal_fine BV.init (by simp [BV.get, BV.init, alook]) w h0 h1 h2
  exact ⟨cf, by simp [Named, exAsk], exVisReg_ok H, rfl, fun n x hx => by rw [(exAsk_mentions n x hx).2]; exact ⟨hf.1, hf.2.1⟩⟩

theorem exAsk_simple (n w : String) (h0 : w ≠ "") (objects : List Stim) (h : ∀ s ∈ objects, s.extVis.getD [] = []) :
    SimpleSearch (exAsk n w) BV.init objects := by
  refine ⟨fun n x hx => ?_, fun n x hx => ?_, fun n x v hx hd => ?_, h⟩
  · rw [(exAsk_mentions n x hx).2]; simp
  · rw [(exAsk_mentions n x hx).2]; exact ⟨_, .literal (by simpa [Blank] using h0)⟩
  · rw [(exAsk_mentions n x hx).2] at hd; rw [demands_literal hd]; simp

theorem exAsk_asks {n w : String} (h0 : w ≠ "") (hn : n ∈ ["color", "screen_x", "screen_y", "value"]) {m : String} {v : Val} :
    Asks BV.init (exAsk n w) m v ↔ m = n ∧ v = .str w := by
  constructor
  · rintro ⟨x, hx, hd⟩
    obtain ⟨e1, e2⟩ := exAsk_mentions m x hx
    rw [e2] at hd
    exact ⟨e1, demands_literal hd⟩
  · rintro ⟨rfl, rfl⟩
    refine ⟨⟨.str w, Option.none, [], []⟩, ⟨?_, .inl ⟨by simp, by simpa using h0⟩⟩, .literal (by simpa [Blank] using h0)⟩
    exact List.mem_map.2 ⟨m, hn, by simp⟩

theorem exAsk_refuses {n w m : String} {v : Val} : ¬ Refuses BV.init (exAsk n w) m v := by
  rintro ⟨x, hx, hr⟩
  rw [(exAsk_mentions m x hx).2] at hr
  cases hr with
  | literal h => simp at h
  | bound h _ => simp at h

theorem intPart_int (k : ℤ) : IntPart k k := by
  refine ⟨fun _ => ⟨le_refl _, by linarith⟩, fun _ => ⟨by linarith, le_refl _⟩⟩

theorem exAsk_searchable (n w : String) (h0 : w ≠ "") (h1 : ∀ s, w ≠ "<" ++ s ∧ w ≠ ">" ++ s) (hn : n ∈ ["color", "screen_x", "screen_y", "value"])
    (objects : List Stim) (ho : ∀ s ∈ objects, ∃ t x y, s = exStim t x y) (pyInt : String → Option ℤ) :
    Searchable pyInt (exAsk n w) BV.init objects := by
  have hf := literal_fine BV.init (by simp [BV.get, BV.init, alook]) w h0 (by simpa using (h1 "").2) (by simpa using (h1 "").1)
  refine ⟨fun n x hx => ?_, fun s hs => ?_, fun _ s hs => ?_, ?_, fun s hs => ?_⟩
  · obtain ⟨rfl, rfl⟩ := exAsk_mentions n x hx
    exact ⟨hf.2.2, hn⟩
  · obtain ⟨t, x, y, rfl⟩ := ho s hs; simp [exStim]
  · obtain ⟨t, x, y, rfl⟩ := ho s hs; simp [exStim]
  · intro n s _ hv
    simp only [exAsk_asks h0 hn, Val.str.injEq] at hv
    rcases hv with ⟨_, e⟩ | ⟨_, e⟩
    · exact absurd e.symm (h1 s).1
    · exact absurd e.symm (h1 s).2
  · obtain ⟨t, x, y, rfl⟩ := ho s hs; simp [exStim]

theorem closest_not_rel : ∀ s, "closest" ≠ "<" ++ s ∧ "closest" ≠ ">" ++ s := by
  intro s
  constructor <;> (intro e; have := congrArg (fun t => t.toList.head?) e; simp at this)

/-- Of two objects the farther one is found if 'closest' is asked for screen_y alone: the empty screen_x raises AttributeError
before screen_y is looked at. -/
theorem C39_refuted : ¬ C39_full := by
  intro h
  obtain ⟨H, cf⟩ := exists_collisionFree
  have hr := exAsk_request H cf "screen_y" "closest" (by decide) (by decide) (by decide)
  let near := exStim "a" ((0 : ℤ) : ℚ) ((0 : ℤ) : ℚ)
  let far := exStim "b" ((100 : ℤ) : ℚ) ((100 : ℤ) : ℚ)
  let screen : Screen := [("n", near), ("f", far)]
  let pyInt : String → Option ℤ := fun _ => Option.none
  have asks : ∀ {m v}, Asks BV.init (exAsk "screen_y" "closest") m v ↔ m = "screen_y" ∧ v = .str "closest" :=
    fun {m v} => exAsk_asks (by decide) (by simp)
  have hs : SimpleSearch (exAsk "screen_y" "closest") BV.init (screen.map Prod.snd) :=
    exAsk_simple _ _ (by decide) _ (by simp [screen, near, far, exStim])
  have hg : Searchable pyInt (exAsk "screen_y" "closest") BV.init (screen.map Prod.snd) :=
    exAsk_searchable _ _ (by decide) closest_not_rel (by simp) _ (by
      intro s hs
      simp only [screen, List.map_cons, List.map_nil, List.mem_cons, List.not_mem_nil, or_false] at hs
      rcases hs with rfl | rfl <;> exact ⟨_, _, _, rfl⟩) _
  obtain ⟨reg', found, stim, hf⟩ := C39_ends (exPy H) pyInt exVisReg _ BV.init Option.none 4 [] (0, 0) screen hr hs hg
  have good := h _ pyInt _ _ _ _ _ _ _ _ _ _ _ hr (by simp) hf
  have hsat : ∀ (t : String) (k : ℤ), Satisfies pyInt BV.init (exAsk "screen_y" "closest") Option.none [] (exStim t (k : ℚ) (k : ℚ)) (k, k) := by
    intro t k
    refine ⟨⟨_, _, rfl, intPart_int k, intPart_int k⟩, ?_, fun v t h => absurd h exAsk_refuses, ?_, ?_, by simp, by simp⟩
    · intro v hv; simp [asks] at hv
    · exact ⟨by simp [pyInt], by simp [pyInt], by simp [pyInt], by simp [pyInt]⟩
    · exact ⟨by simp [pyInt], by simp [pyInt], by simp [pyInt], by simp [pyInt]⟩
  rcases visFind_search pyInt Option.none 4 [] (0, 0) screen hr hs with ⟨_, r, er, he⟩ | ⟨c, sx, sy, sv, reg1, hr1, hl1, hx, hy, hv, hl⟩
  · rw [he] at hf; cases hf
  rw [hl] at hf
  obtain ⟨r, ex, _⟩ := examine_ok (F := ⟨exPy H, pyInt, c, Option.none, 4, [], (0, 0)⟩) (sx := sx) (sy := sy) (sv := sv)
      (cur := Option.none) (s := far) (textOk_ok hv far (fun h => hg.text h _ (by simp [screen]))) (by simp [far, exStim])
      (fun k => relOk_ok hx pyInt k (hg.nums "screen_x" · (by simp))) (fun k => relOk_ok hy pyInt k (hg.nums "screen_y" · (by simp)))
  have er := (examine_iff cf hs (by simp) (by simp) hx hy hv far r ex _).2 (hsat "b" 100)
  rw [er] at ex
  have hstim : stim = some far := by
    refine findLoop_last (F := ⟨exPy H, pyInt, c, Option.none, 4, [], (0, 0)⟩) ?_ ex [("n", near)] _ _ _ _ _ hf
    intro cur p
    have s1 : ∀ w, slotIs H sx w = false := by
      intro w
      rw [Bool.eq_false_iff]
      intro h
      rw [slotIs_iff cf hx, asks] at h
      exact absurd h.1 (by decide)
    have s0 : slotGiven sx = false := by
      rw [Bool.eq_false_iff]
      intro h
      rw [slotGiven_iff hx] at h
      simp [asks] at h
    have s2 : ∀ w, w ≠ "closest" → slotIs H sy w = false := by
      intro w hw
      rw [Bool.eq_false_iff]
      intro h
      rw [slotIs_iff cf hy, asks] at h
      exact hw (Val.str.inj h.2)
    show notWorse H sx sy (0, 0) cur p = true
    simp [notWorse, s1, s0, s2]
  subst hstim
  cases found with
  | none => exact absurd (good.nothing rfl).1 (by simp)
  | some c0 =>
    obtain ⟨s, p, e, _, hsatp, _, hbest⟩ := good.something c0 rfl
    cases e
    have hp : p = (100, 100) := by
      obtain ⟨x, y, e, h1, h2⟩ := hsatp.seen
      cases e
      exact Prod.ext (intPart_unique h1 (intPart_int 100)) (intPart_unique h2 (intPart_int 100))
    subst hp
    refine hbest near (by simp [screen]) (0, 0) (hsat "a" 0) ⟨?_, .closest, ?_, ?_⟩
    · intro d hd
      cases d <;> simp [Wanted, asks] at hd
      simp [cost]
    · right; simp [asks]
    · simp [cost]

/-- With finst = 0 a search for attended objects finds objects that were not attended. -/
theorem C39_finst (P : Py) (pyInt : String → Option ℤ) (reg : Reg) (other : Chunk) (bv : BV) (recent : List Stim) (focus : ℚ × ℚ)
    (screen : Option Screen) : visFind P pyInt reg other bv (some true) 0 recent focus screen =
      visFind P pyInt reg other bv Option.none 0 recent focus screen := by
  have key : ∀ (c : Chunk) (sx sy sv : Slot) (l : Screen) (reg : Reg) (st : FindSt),
      findLoop ⟨P, pyInt, c, some true, 0, recent, focus⟩ sx sy sv reg st l =
      findLoop ⟨P, pyInt, c, Option.none, 0, recent, focus⟩ sx sy sv reg st l := by
    intro c sx sy sv l
    induction l with
    | nil => intro reg st; rfl
    | cons x l ih =>
      intro reg st
      obtain ⟨nm, s⟩ := x
      simp only [findLoop, ih]
      rfl
  unfold visFind
  simp only [key]

/-- The hypotheses of `C39_partial` are met, and something is found: the closer of two objects, which comes first. -/
example : ∃ (P : Py) (pyInt : String → Option ℤ) (other : Chunk) (screen : Screen) (reg' : Reg) (c : Chunk),
    SearchRequest P exVisReg other BV.init ∧ SimpleSearch other BV.init (screen.map Prod.snd) ∧
    Asks BV.init other "screen_x" (.str "closest") ∧ screen = [("n", exStim "a" 0 0), ("f", exStim "b" 100 100)] ∧
    visFind P pyInt exVisReg other BV.init (some false) 4 [] (0, 0) (some screen) = (reg', .ok (some c, some (exStim "a" 0 0))) := by
  obtain ⟨H, cf⟩ := exists_collisionFree
  have hr := exAsk_request H cf "screen_x" "closest" (by decide) (by decide) (by decide)
  let near := exStim "a" ((0 : ℤ) : ℚ) ((0 : ℤ) : ℚ)
  let far := exStim "b" ((100 : ℤ) : ℚ) ((100 : ℤ) : ℚ)
  let screen : Screen := [("n", near), ("f", far)]
  let pyInt : String → Option ℤ := fun _ => Option.none
  have asks : ∀ {m v}, Asks BV.init (exAsk "screen_x" "closest") m v ↔ m = "screen_x" ∧ v = .str "closest" :=
    fun {m v} => exAsk_asks (by decide) (by simp)
  have hs : SimpleSearch (exAsk "screen_x" "closest") BV.init (screen.map Prod.snd) :=
    exAsk_simple _ _ (by decide) _ (by simp [screen, near, far, exStim])
  have hg : Searchable pyInt (exAsk "screen_x" "closest") BV.init (screen.map Prod.snd) :=
    exAsk_searchable _ _ (by decide) closest_not_rel (by simp) _ (by
      intro s hs
      simp only [screen, List.map_cons, List.map_nil, List.mem_cons, List.not_mem_nil, or_false] at hs
      rcases hs with rfl | rfl <;> exact ⟨_, _, _, rfl⟩) _
  obtain ⟨reg', found, stim, hf⟩ := C39_ends (exPy H) pyInt exVisReg _ BV.init (some false) 4 [] (0, 0) screen hr hs hg
  have good := C39_partial _ pyInt _ _ _ _ _ _ _ _ _ _ _ hr (by simp) hs (by simp) (by simp [asks]) hf
  have hsat : ∀ (t : String) (k : ℤ), Satisfies pyInt BV.init (exAsk "screen_x" "closest") (some false) [] (exStim t (k : ℚ) (k : ℚ)) (k, k) := by
    intro t k
    refine ⟨⟨_, _, rfl, intPart_int k, intPart_int k⟩, ?_, fun v t h => absurd h exAsk_refuses, ?_, ?_, by simp, by simp⟩
    · intro v hv; simp [asks] at hv
    · exact ⟨by simp [pyInt], by simp [pyInt], by simp [pyInt], by simp [pyInt]⟩
    · exact ⟨by simp [pyInt], by simp [pyInt], by simp [pyInt], by simp [pyInt]⟩
  cases found with
  | none => exact absurd (hsat "a" 0) ((good.nothing rfl).2 near (by simp [screen]) (0, 0))
  | some c =>
    obtain ⟨s, p, e, hm, hsatp, _, hbest⟩ := good.something c rfl
    simp only [screen, List.map_cons, List.map_nil, List.mem_cons, List.not_mem_nil, or_false] at hm
    rcases hm with rfl | rfl
    · refine ⟨exPy H, pyInt, _, screen, reg', c, hr, hs, asks.2 ⟨rfl, rfl⟩, by simp [screen, near, far], ?_⟩
      rw [hf, e]
      simp [near]
    · have hp : p = (100, 100) := by
        obtain ⟨x, y, e, h1, h2⟩ := hsatp.seen
        cases e
        exact Prod.ext (intPart_unique h1 (intPart_int 100)) (intPart_unique h2 (intPart_int 100))
      subst hp
      exfalso
      refine hbest near (by simp [screen]) (0, 0) (hsat "a" 0) ⟨?_, .closest, ?_, ?_⟩
      · intro d hd
        cases d <;> simp [Wanted, asks] at hd
        simp [cost]
      · left; simp [asks]
      · simp [cost]

/-! ## C40 -/

/-- The chunk made of an object with its position, whatever else is visible. -/
theorem locChunk_located {P : Py} {reg : Reg} (hr : RegOk P.toPyEnv reg) {s : Stim} (hn : (s.attrs.map Prod.fst).Nodup) {x y : ℚ}
    (hp : s.pos = some (x, y)) {reg' : Reg} {c : Chunk} (h : locChunk P reg s true = (reg', .ok c)) :
    LocatedAt c (truncQ x, truncQ y) ∧ RegOk P.toPyEnv reg' := by
  simp only [locChunk, hp, if_true] at h
  set base : List (String × SlotArg) := (s.attrs.filter (fun p => (s.extVis.getD []).contains p.1)).map (fun p => (p.1, SlotArg.text p.2))
    with hbase
  have hnb : (base.map Prod.fst).Nodup := by
    rw [hbase, List.map_map]
    exact (List.Sublist.map _ List.filter_sublist).nodup hn
  set dict := aset "screen_y" (SlotArg.text (toString (truncQ y))) (aset "screen_x" (SlotArg.text (toString (truncQ x))) base) with hdict
  have hnd : (dict.map Prod.fst).Nodup := nodup_aset _ _ _ (nodup_aset _ _ _ hnb)
  cases hv : convertAll P.toPyEnv dict with
  | error e => simp only [createChunk, hv] at h; cases h
  | ok vals =>
    rcases createChunk_cases hr (typ := s.locType.getD "_visuallocation") hnd hv with ⟨_, sl, r', e, _, hl, _, _, hr'⟩ | ⟨_, er, e, _⟩
    swap
    · rw [e] at h; cases h
    rw [e] at h
    cases h
    have one : ∀ (f : String) (k : ℤ), alook f dict = some (SlotArg.text (toString k)) →
        (f, SlotOf.vv (⟨.str (toString k), Option.none, [], []⟩ : VarVal)) ∈ sl := by
      intro f k hk
      obtain ⟨hkeys, hc⟩ := convertAll_ok hv
      obtain ⟨x, hx, hm⟩ := hc f _ (mem_of_alook' hk)
      simp only [SlotArg.convert] at hx
      rw [C11_plain _ _ (intDigits_plain _)] at hx
      cases hx
      have hm' : (f, (SlotOf.vv (⟨.str (toString k), Option.none, [], []⟩ : VarVal) : Slot)) ∈ vals.map (fun p => (p.1, SlotOf.vv p.2)) :=
        List.mem_map.2 ⟨_, hm, rfl⟩
      have := alook_of_mem (by simpa [List.map_map, Function.comp_def, hkeys] using hnd) hm'
      have hlf := hl f
      rw [this] at hlf
      exact mem_of_alook' hlf
    refine ⟨⟨one _ _ ?_, one _ _ ?_⟩, hr'⟩
    · rw [hdict, alook_aset, alook_aset]; simp
    · rw [hdict, alook_aset]; simp

/-- What C40 says of automatic search. -/
structure ClosestUnattended (recent : List Stim) (focus : ℚ × ℚ) (objects : List Stim) (r : Option (Chunk × Stim)) : Prop where
  nothing : r = Option.none → ∀ s ∈ objects, ∃ o ∈ recent, SameStim o s
  something : ∀ c s, r = some (c, s) → s ∈ objects ∧ (¬ ∃ o ∈ recent, SameStim o s) ∧
    ∃ x y a b, s.pos = some (x, y) ∧ IntPart x a ∧ IntPart y b ∧ LocatedAt c (a, b) ∧
      ∀ s' ∈ objects, (¬ ∃ o ∈ recent, SameStim o s') → ∃ x' y', s'.pos = some (x', y') ∧
        (focus.1 - x) * (focus.1 - x) + (focus.2 - y) * (focus.2 - y) ≤ (focus.1 - x') * (focus.1 - x') + (focus.2 - y') * (focus.2 - y')

theorem autoLoop_spec (P : Py) (recent : List Stim) (focus : ℚ × ℚ) : ∀ (todo : List Stim) (done : List Stim) (reg reg' : Reg)
    (best : Option (Chunk × Stim × ℚ)) (r : Option (Chunk × Stim)), RegOk P.toPyEnv reg →
    (∀ s ∈ todo, (s.attrs.map Prod.fst).Nodup) →
    ((best = Option.none ∧ ∀ s ∈ done, inVisRecent recent s = true) ∨
      ∃ c s x y, best = some (c, s, sqDist focus (x, y)) ∧ s ∈ done ∧ inVisRecent recent s = false ∧ s.pos = some (x, y) ∧
        LocatedAt c (truncQ x, truncQ y) ∧ ∀ s' ∈ done, inVisRecent recent s' = false → ∃ q, s'.pos = some q ∧ sqDist focus (x, y) ≤ sqDist focus q) →
    autoLoop P recent focus reg best todo = (reg', .ok r) →
    ((r = Option.none ∧ ∀ s ∈ done ++ todo, inVisRecent recent s = true) ∨
      ∃ c s x y, r = some (c, s) ∧ s ∈ done ++ todo ∧ inVisRecent recent s = false ∧ s.pos = some (x, y) ∧
        LocatedAt c (truncQ x, truncQ y) ∧ ∀ s' ∈ done ++ todo, inVisRecent recent s' = false → ∃ q, s'.pos = some q ∧ sqDist focus (x, y) ≤ sqDist focus q)
  | [], done, reg, reg', best, r, _, _, hinv, h => by
    simp only [autoLoop, Prod.mk.injEq, Except.ok.injEq] at h
    obtain ⟨_, rfl⟩ := h
    rw [List.append_nil]
    rcases hinv with ⟨rfl, h⟩ | ⟨c, s, x, y, rfl, h⟩
    · exact .inl ⟨rfl, h⟩
    · exact .inr ⟨c, s, x, y, rfl, h⟩
  | s :: todo, done, reg, reg', best, r, hreg, hnd, hinv, h => by
    have hl : done ++ s :: todo = (done ++ [s]) ++ todo := by simp
    rw [hl]
    have hnd' : ∀ s ∈ todo, (s.attrs.map Prod.fst).Nodup := fun x hx => hnd x (List.mem_cons_of_mem _ hx)
    simp only [autoLoop] at h
    by_cases hrec : inVisRecent recent s = true
    · rw [if_pos hrec] at h
      refine autoLoop_spec P recent focus todo (done ++ [s]) reg reg' best r hreg hnd' ?_ h
      rcases hinv with ⟨rfl, hd⟩ | ⟨c, s0, x, y, rfl, h1, h2, h3, h4, h5⟩
      · left
        refine ⟨rfl, fun s' hs' => ?_⟩
        rcases List.mem_append.1 hs' with hs' | hs'
        · exact hd s' hs'
        · simp at hs'; subst hs'; exact hrec
      · right
        refine ⟨c, s0, x, y, rfl, List.mem_append_left _ h1, h2, h3, h4, fun s' hs' hr' => ?_⟩
        rcases List.mem_append.1 hs' with hs' | hs'
        · exact h5 s' hs' hr'
        · simp at hs'; subst hs'; rw [hrec] at hr'; cases hr'
    · rw [if_neg hrec] at h
      have hrec' : inVisRecent recent s = false := by simpa using hrec
      cases hp : s.pos with
      | none => rw [hp] at h; cases h
      | some q =>
        obtain ⟨x, y⟩ := q
        rw [hp] at h
        simp only at h
        have take : (match locChunk P reg s true with
            | (reg1, .error e) => (reg1, .error e)
            | (reg1, .ok c) => autoLoop P recent focus reg1 (some (c, s, sqDist focus (x, y))) todo) = (reg', Except.ok r) →
            (∀ s' ∈ done, inVisRecent recent s' = false → ∃ q, s'.pos = some q ∧ sqDist focus (x, y) ≤ sqDist focus q) →
            ((r = Option.none ∧ ∀ s' ∈ done ++ [s] ++ todo, inVisRecent recent s' = true) ∨
      ∃ c s' x y, r = some (c, s') ∧ s' ∈ done ++ [s] ++ todo ∧ inVisRecent recent s' = false ∧ s'.pos = some (x, y) ∧
        LocatedAt c (truncQ x, truncQ y) ∧ ∀ s'' ∈ done ++ [s] ++ todo, inVisRecent recent s'' = false → ∃ q, s''.pos = some q ∧ sqDist focus (x, y) ≤ sqDist focus q) := by
          intro h hb
          cases hc : locChunk P reg s true with
          | mk reg1 r1 =>
            rw [hc] at h
            cases r1 with
            | error e => cases h
            | ok c =>
              obtain ⟨hloc, hr1⟩ := locChunk_located hreg (hnd s (List.mem_cons_self ..)) hp hc
              refine autoLoop_spec P recent focus todo (done ++ [s]) reg1 reg' _ r hr1 hnd' ?_ h
              right
              refine ⟨c, s, x, y, rfl, by simp, hrec', hp, hloc, fun s' hs' hr' => ?_⟩
              rcases List.mem_append.1 hs' with hs' | hs'
              · exact hb s' hs' hr'
              · simp at hs'; subst hs'; exact ⟨_, hp, le_refl _⟩
        rcases hinv with ⟨rfl, hd⟩ | ⟨c, s0, x0, y0, rfl, h1, h2, h3, h4, h5⟩
        · simp only [Bool.false_eq_true, if_false] at h
          exact take h (fun s' hs' hr' => by rw [hd s' hs'] at hr'; cases hr')
        · simp only [decide_eq_true_eq] at h
          by_cases hlt : sqDist focus (x0, y0) < sqDist focus (x, y)
          · rw [if_pos hlt] at h
            refine autoLoop_spec P recent focus todo (done ++ [s]) reg reg' _ r hreg hnd' ?_ h
            right
            refine ⟨c, s0, x0, y0, rfl, List.mem_append_left _ h1, h2, h3, h4, fun s' hs' hr' => ?_⟩
            rcases List.mem_append.1 hs' with hs' | hs'
            · exact h5 s' hs' hr'
            · simp at hs'; subst hs'; exact ⟨_, hp, le_of_lt hlt⟩
          · rw [if_neg hlt] at h
            refine take h (fun s' hs' hr' => ?_)
            obtain ⟨q, e, hle⟩ := h5 s' hs' hr'
            exact ⟨q, e, le_trans (not_lt.1 hlt) hle⟩

/-- C40, the search: whatever automatic search returns, it is the closest unattended object, or nothing if there is none. -/
theorem C40_search (P : Py) (reg : Reg) (recent : List Stim) (focus : ℚ × ℚ) (objects : List Stim) (reg' : Reg) (r : Option (Chunk × Stim))
    (hreg : RegOk P.toPyEnv reg) (hnd : ∀ s ∈ objects, (s.attrs.map Prod.fst).Nodup)
    (h : autoSearch P reg recent focus objects = (reg', .ok r)) : ClosestUnattended recent focus objects r := by
  have sq : ∀ a b : ℚ × ℚ, sqDist a b = (a.1 - b.1) * (a.1 - b.1) + (a.2 - b.2) * (a.2 - b.2) := fun a b => by
    simp only [sqDist, pow_two]
  have nr : ∀ s, inVisRecent recent s = false ↔ ¬ ∃ o ∈ recent, SameStim o s := fun s => by
    rw [← inVisRecent_iff]; simp
  rcases autoLoop_spec P recent focus objects [] reg reg' Option.none r hreg hnd (.inl ⟨rfl, by simp⟩) h with
    ⟨rfl, hall⟩ | ⟨c, s, x, y, rfl, h1, h2, h3, h4, h5⟩
  · simp only [List.nil_append] at hall
    exact ⟨fun _ s hs => (inVisRecent_iff _ _).1 (hall s hs), fun c s e => by cases e⟩
  · simp only [List.nil_append] at h1 h5
    refine ⟨fun e => (by cases e), fun c' s' e => ?_⟩
    cases e
    refine ⟨h1, (nr s).1 h2, x, y, _, _, h3, truncQ_intPart x, truncQ_intPart y, h4, fun s' hs' hr' => ?_⟩
    obtain ⟨⟨x', y'⟩, e, hle⟩ := h5 s' hs' ((nr s').2 hr')
    rw [sq, sq] at hle
    exact ⟨x', y', e, hle⟩

/-- What happens to the memory of attended objects: an object is attended (`add`, `modify`; nothing if none was found), or finst is
set by the user. -/
inductive VisEvent where
  | attend (found : Option Stim)
  | setFinst (n : ℕ)

/-- The memory after one event. -/
def visStep : ℕ × List Stim → VisEvent → ℕ × List Stim
  | (finst, recent), .attend f => (finst, visRemember finst recent f)
  | (_, recent), .setFinst n => (n, recent)

/-- The second part of C40, for all histories. -/
def C40_full : Prop := ∀ (finst : ℕ) (events : List VisEvent),
  (events.foldl visStep (finst, [])).2.length ≤ (events.foldl visStep (finst, [])).1

/-- Lowering finst leaves more objects remembered than allowed. -/
theorem C40_refuted : ¬ C40_full := by
  intro h
  have := h 1 [.attend (some (exStim "a" 0 0)), .setFinst 0]
  simp [visStep, visRemember, Stim.truthy, exStim] at this

theorem visRemember_length (finst : ℕ) (recent : List Stim) (f : Option Stim) (h : recent.length ≤ finst) :
    (visRemember finst recent f).length ≤ finst := by
  unfold visRemember
  split
  · exact h
  · split
    · simp only
      split
      · simp; omega
      · omega
    · exact h

/-- C40, partial: automatic search returns the closest unattended object, and if finst is never lowered, no more than finst objects
are remembered. Missing: histories in which finst is lowered, for which it is false. -/
theorem C40_partial (P : Py) (reg : Reg) (focus : ℚ × ℚ) (objects : List Stim) (reg' : Reg) (r : Option (Chunk × Stim)) (finst : ℕ)
    (events : List VisEvent) (hev : ∀ n, VisEvent.setFinst n ∈ events → False)
    (hreg : RegOk P.toPyEnv reg) (hnd : ∀ s ∈ objects, (s.attrs.map Prod.fst).Nodup)
    (h : autoSearch P reg (events.foldl visStep (finst, [])).2 focus objects = (reg', .ok r)) :
    ClosestUnattended (events.foldl visStep (finst, [])).2 focus objects r ∧ (events.foldl visStep (finst, [])).2.length ≤ finst := by
  refine ⟨C40_search P reg _ focus objects reg' r hreg hnd h, ?_⟩
  have key : ∀ (ev : List VisEvent) (recent : List Stim), (∀ n, VisEvent.setFinst n ∈ ev → False) → recent.length ≤ finst →
      (ev.foldl visStep (finst, recent)).2.length ≤ finst := by
    intro ev
    induction ev with
    | nil => intro recent _ h; exact h
    | cons e ev ih =>
      intro recent hn hl
      cases e with
      | setFinst n => exact (hn n (by simp)).elim
      | attend f =>
        simp only [List.foldl_cons, visStep]
        exact ih _ (fun n hm => hn n (by simp [hm])) (visRemember_length finst recent f hl)
  exact key events [] hev (by simp)

/-- With finst > 0 the object attended last is remembered. -/
theorem C40_remembers (finst : ℕ) (recent : List Stim) (s : Stim) (h : 0 < finst) (ht : s.text ≠ Option.none) :
    (visRemember finst recent (some s)).getLast? = some s := by
  unfold visRemember
  have h1 : (finst != 0 && s.truthy) = true := by
    cases e : s.text with
    | none => exact absurd e ht
    | some t => simp [Stim.truthy, e]; omega
  simp only [h1, if_true]
  split
  · rename_i hlt
    cases recent with
    | nil => simp at hlt; omega
    | cons a l => simp
  · simp

/-- Automatic search ends without an exception if all objects have positions and are of the default type. -/
theorem C40_ends (P : Py) (reg : Reg) (recent : List Stim) (focus : ℚ × ℚ) (objects : List Stim) (hreg : RegOk P.toPyEnv reg)
    (hl : ∃ fs, alook "_visuallocation" reg = some fs ∧ "screen_x" ∈ fs ∧ "screen_y" ∈ fs)
    (hg : ∀ s ∈ objects, s.extVis.getD [] = [] ∧ s.locType = Option.none ∧ s.pos ≠ Option.none) :
    ∃ reg' r, autoSearch P reg recent focus objects = (reg', .ok r) := by
  have key : ∀ (l : List Stim) (reg : Reg) (best : Option (Chunk × Stim × ℚ)), RegOk P.toPyEnv reg →
      (∃ fs, alook "_visuallocation" reg = some fs ∧ "screen_x" ∈ fs ∧ "screen_y" ∈ fs) →
      (∀ s ∈ l, s.extVis.getD [] = [] ∧ s.locType = Option.none ∧ s.pos ≠ Option.none) →
      ∃ reg' r, autoLoop P recent focus reg best l = (reg', .ok r) := by
    intro l
    induction l with
    | nil => intro reg best _ _ _; exact ⟨_, _, rfl⟩
    | cons s l ih =>
      intro reg best hr hl hg
      have hg' : ∀ s ∈ l, s.extVis.getD [] = [] ∧ s.locType = Option.none ∧ s.pos ≠ Option.none :=
        fun x hx => hg x (List.mem_cons_of_mem _ hx)
      obtain ⟨g1, g2, g3⟩ := hg s (List.mem_cons_self ..)
      simp only [autoLoop]
      split
      · exact ih reg best hr hl hg'
      · cases hp : s.pos with
        | none => exact absurd hp g3
        | some p =>
          simp only
          obtain ⟨fs, h1, h2, h3⟩ := hl
          have taken : ∃ reg' r, (match locChunk P reg s true with
            | (reg1, .error e) => (reg1, .error e)
            | (reg1, .ok c) => autoLoop P recent focus reg1 (some (c, s, sqDist focus p)) l) = (reg', Except.ok r) := by
            obtain ⟨reg1, c, e, hr1, hl1⟩ := locChunk_ok hr h1 h2 h3 g1 g2 g3 true
            rw [e]
            exact ih reg1 _ hr1 hl1 hg'
          cases best with
          | none => exact taken
          | some b =>
            simp only
            by_cases hb : decide (b.2.2 < sqDist focus p) = true
            · rw [if_pos hb]; exact ih reg _ hr ⟨fs, h1, h2, h3⟩ hg'
            · rw [if_neg hb]; exact taken
  exact key objects reg Option.none hreg hl hg

/-- The hypotheses of `C40_partial` are met: of three objects the closest was attended, so the second closest is found. -/
example : ∃ (P : Py) (reg' : Reg) (c : Chunk), autoSearch P exVisReg ([VisEvent.attend (some (exStim "a" 0 0))].foldl visStep (4, [])).2 (0, 0)
    [exStim "c" 9 9, exStim "a" 0 0, exStim "b" 1 1] = (reg', .ok (some (c, exStim "b" 1 1))) := by
  obtain ⟨H, cf⟩ := exists_collisionFree
  have hrec : ([VisEvent.attend (some (exStim "a" 0 0))].foldl visStep (4, [])).2 = [exStim "a" 0 0] := by
    simp [visStep, visRemember, Stim.truthy, exStim]
  rw [hrec]
  obtain ⟨reg', r, h⟩ := C40_ends (exPy H) exVisReg [exStim "a" 0 0] (0, 0) [exStim "c" 9 9, exStim "a" 0 0, exStim "b" 1 1] (exVisReg_ok H)
    ⟨_, rfl, by simp, by simp⟩ (by simp [exStim])
  have good := C40_search _ _ _ _ _ _ _ (exVisReg_ok H) (by simp [exStim]) h
  have un : ∀ t x y, t ≠ "a" → ¬ ∃ o ∈ [exStim "a" 0 0], SameStim o (exStim t x y) := by
    rintro t x y ht ⟨o, ho, hs⟩
    simp only [List.mem_singleton] at ho
    subst ho
    simp [exStim, SameStim] at hs
    exact ht hs.1.symm
  cases r with
  | none => exact absurd (good.nothing rfl (exStim "b" 1 1) (by simp)) (un "b" 1 1 (by decide))
  | some r =>
    obtain ⟨c, s⟩ := r
    obtain ⟨hm, hun, x, y, _, _, hp, _, _, _, hb⟩ := good.something c s rfl
    simp only [List.mem_cons, List.not_mem_nil, or_false] at hm
    rcases hm with rfl | rfl | rfl
    · obtain ⟨x', y', hp', hle⟩ := hb (exStim "b" 1 1) (by simp) (un "b" 1 1 (by decide))
      simp only [exStim, Option.some.injEq, Prod.mk.injEq] at hp hp'
      obtain ⟨rfl, rfl⟩ := hp
      obtain ⟨rfl, rfl⟩ := hp'
      norm_num at hle
    · exact absurd ⟨_, List.mem_singleton.2 rfl, ⟨rfl, rfl, rfl, rfl, rfl, rfl, fun _ => rfl⟩⟩ hun
    · exact ⟨exPy H, reg', c, h⟩

end Verif.Props
