import Verif.Spec.Sequence
import Verif.Lemmas.Demand
/-!
# Compiled rules that modify buffers
-/
namespace Verif
open Spec

/-! ## Which variables are tied to each other -/

/-- The variables in `S` are all replaced by the value `t`, if there is one, and otherwise by the same variable. -/
def Tied (S : List String) (t : Val) (st : MatchSt) : Prop :=
  (t.truthy = true → ∀ v ∈ S, alook v st.valued = some t) ∧
  (t.truthy = false → ∃ m, ∀ v ∈ S, alook v st.matched = some m ∧ alook v st.valued = Option.none)

/-- No variable in `S` is replaced by a value. -/
def Untouched (S : List String) (st : MatchSt) : Prop := ∀ v ∈ S, alook v st.valued = Option.none

/-- The two states agree about the variables in `S`. -/
def Agree (S : List String) (st st' : MatchSt) : Prop :=
  ∀ v ∈ S, alook v st'.matched = alook v st.matched ∧ alook v st'.valued = alook v st.valued

theorem Agree.trans {S : List String} {a b c : MatchSt} (h : Agree S a b) (h' : Agree S b c) : Agree S a c :=
  fun v hv => ⟨(h' v hv).1.trans (h v hv).1, (h' v hv).2.trans (h v hv).2⟩

theorem Agree.untouched {S : List String} {a b : MatchSt} (h : Agree S a b) (hu : Untouched S a) : Untouched S b :=
  fun v hv => by rw [(h v hv).2]; exact hu v hv

theorem Agree.tied {S : List String} {t : Val} {a b : MatchSt} (h : Agree S a b) (ht : Tied S t a) : Tied S t b := by
  refine ⟨fun h1 v hv => by rw [(h v hv).2]; exact ht.1 h1 v hv, fun h1 => ?_⟩
  obtain ⟨m, hm⟩ := ht.2 h1
  exact ⟨m, fun v hv => by rw [(h v hv).1, (h v hv).2]; exact hm v hv⟩

theorem alook_asetAll {α : Type} (a : α) (n : String) : ∀ (l : List String) (d : List (String × α)),
    alook n (asetAll l a d) = if n ∈ l then some a else alook n d
  | [], d => by simp [asetAll]
  | x :: r, d => by
    have : asetAll (x :: r) a d = asetAll r a (aset x a d) := rfl
    rw [this, alook_asetAll a n r, alook_aset]
    by_cases h1 : n ∈ r
    · simp [h1]
    · by_cases h2 : n = x <;> simp [h1, h2]

theorem tieVars_other {E : PyEnv} {S set : List String} {v : Val} {st : MatchSt} (h : ∀ x ∈ S, x ∉ set) :
    Agree S st (tieVars E set v st) := by
  intro x hx
  have hx' : x ∉ E.ord set := fun hm => h x hx ((E.perm _).mem_iff.1 hm)
  unfold tieVars
  split
  · simp only [alook_asetAll, if_neg hx', and_self]
  · rcases ho : E.ord set with _ | ⟨y, r⟩
    · simp only [ho, and_self]
    · rw [ho] at hx'
      simp only [ho, alook_asetAll, if_neg hx', and_self]

theorem tieVars_self {E : PyEnv} {S : List String} {v : Val} {st : MatchSt} (h : Untouched S st) : Tied S v (tieVars E S v st) := by
  unfold tieVars
  refine ⟨fun ht x hx => ?_, fun ht => ?_⟩
  · rw [if_pos ht]
    simp only [alook_asetAll, if_pos ((E.perm _).mem_iff.2 hx)]
  · rw [if_neg (by simp [ht])]
    rcases ho : E.ord S with _ | ⟨y, r⟩
    · refine ⟨"", fun x hx => ?_⟩
      rw [← (E.perm S).mem_iff, ho] at hx
      simp at hx
    · simp only [ho]
      refine ⟨r.foldl (fun m y => if y.length < m.length then y else m) y, fun x hx => ⟨?_, h x hx⟩⟩
      rw [← (E.perm S).mem_iff, ho] at hx
      rw [alook_asetAll, if_pos hx]

/-- The variables tied to each other in slot `n` with description `s`. -/
def tieSet (d3 : Slots) (n : String) (s : Slot) : List String := slotVarSet (splitting s) (splitting ((alook n d3).getD .empty))

/-- The value that they are tied to. -/
def tieVal (d3 : Slots) (n : String) (s : Slot) : Val :=
  if (splitting s).values.truthy then (splitting s).values else (splitting ((alook n d3).getD .empty)).values

theorem matchDict_other {P : Py} {d3 : Slots} {S : List String} : ∀ {l : Slots} {st st' : MatchSt}, matchDict P d3 l st = .ok st' →
    (∀ n s, (n, s) ∈ l → ∀ v ∈ S, v ∉ tieSet d3 n s) → Agree S st st'
  | [], st, st', h, _ => by simp only [matchDict, Except.ok.injEq] at h; subst h; exact fun _ _ => ⟨rfl, rfl⟩
  | (n, s) :: r, st, st', h, hd => by
    simp only [matchDict] at h
    split at h
    · cases h
    · exact (tieVars_other (hd n s List.mem_cons_self)).trans
        (matchDict_other h (fun n s hm => hd n s (List.mem_cons_of_mem _ hm)))

theorem matchDict_self {P : Py} {d3 : Slots} {n : String} {s : Slot} : ∀ {l : Slots} {st st' : MatchSt},
    matchDict P d3 l st = .ok st' → (l.map Prod.fst).Nodup → (n, s) ∈ l → Untouched (tieSet d3 n s) st →
    (∀ n' s', (n', s') ∈ l → n' ≠ n → ∀ v ∈ tieSet d3 n s, v ∉ tieSet d3 n' s') →
    Tied (tieSet d3 n s) (tieVal d3 n s) st' ∧ ((splitting s).values.truthy = true →
      (splitting ((alook n d3).getD .empty)).values.truthy = true →
      pyEq P.H (splitting s).values (splitting ((alook n d3).getD .empty)).values = true)
  | [], st, st', h, _, hm, _, _ => by simp at hm
  | (m, u) :: r, st, st', h, hn, hm, hU, hd => by
    simp only [List.map_cons, List.nodup_cons] at hn
    simp only [matchDict] at h
    split at h
    · cases h
    rename_i hmis
    rcases List.mem_cons.1 hm with e | hm
    · cases e
      refine ⟨(matchDict_other h (fun n' s' hm' => hd n' s' (List.mem_cons_of_mem _ hm') ?_)).tied (tieVars_self hU), ?_⟩
      · rintro rfl; exact hn.1 (List.mem_map.2 ⟨_, hm', rfl⟩)
      · intro h1 h2
        simpa [h1, h2] using hmis
    · have hne : m ≠ n := by rintro rfl; exact hn.1 (List.mem_map.2 ⟨_, hm, rfl⟩)
      refine matchDict_self h hn.2 hm ?_ (fun n' s' hm' => hd n' s' (List.mem_cons_of_mem _ hm'))
      exact (tieVars_other (hd m u List.mem_cons_self hne)).untouched hU

/-- The slots that the slots of a test are matched with. -/
def knownFor (tmp : SlotVals) (b : String) (own : Slots) : Slots :=
  match alook b tmp with
  | some (.dict d) => d
  | some (.retr d _) => d
  | some .nothing => []
  | Option.none => own

theorem alook_adel {α : Type} {n m : String} : ∀ (l : List (String × α)), m ≠ n → alook m (adel n l) = alook m l
  | [], _ => rfl
  | (x, a) :: r, h => by
    have ih := alook_adel r h
    simp only [adel] at ih ⊢
    by_cases hx : x = n
    · subst hx
      rw [List.filter_cons_of_neg (by simp), ih]
      simp [alook, Ne.symm h]
    · rw [List.filter_cons_of_pos (by simpa using hx)]
      by_cases hk : x = m
      · simp [alook, hk]
      · simp [alook, hk, ih]

theorem alook_adel_some {α : Type} {n m : String} {a : α} : ∀ {l : List (String × α)}, alook m (adel n l) = some a → alook m l = some a := by
  intro l h
  by_cases hm : m = n
  · subst hm
    have := alook_mem h
    simp [adel] at this
  · rwa [alook_adel l hm] at h

/-- There are no retrievals. -/
def NoRetr (tmp : SlotVals) : Prop := ∀ b d c, alook b tmp ≠ some (.retr d c)

theorem noRetr_adel {tmp : SlotVals} {n : String} (h : NoRetr tmp) : NoRetr (adel n tmp) :=
  fun b d c e => h b d c (alook_adel_some e)

theorem matchRules_cons {P : Py} {b : String} {c : Chunk} {r : List (Key × LVal)} {tmp sv sv' : SlotVals} {st st' : MatchSt}
    (hN : NoRetr tmp) (h : matchRules P ((⟨'=', b⟩, .chunk c) :: r) tmp sv st = .ok (sv', st')) :
    ∃ tmp' st1, matchDict P (knownFor tmp b c.slots) c.slots st = .ok st1 ∧ matchRules P r tmp' sv st1 = .ok (sv', st') ∧
      NoRetr tmp' ∧ ∀ m, m ≠ b → alook m tmp' = alook m tmp := by
  simp only [matchRules] at h
  rw [if_pos (by decide)] at h
  rcases ha : alook b tmp with _ | i
  · simp only [ha] at h
    rcases hm : matchDict P c.slots c.slots st with e | st1
    · rw [hm] at h; cases h
    · rw [hm] at h
      exact ⟨tmp, st1, by simp only [knownFor, ha]; exact hm, h, hN, fun _ _ => rfl⟩
  · simp only [ha] at h
    cases i with
    | nothing =>
      simp only at h
      rcases hm : matchDict P [] c.slots st with e | st1
      · rw [hm] at h; cases h
      · rw [hm] at h
        exact ⟨adel b tmp, st1, by simp only [knownFor, ha]; exact hm, h, noRetr_adel hN, fun m hm => alook_adel _ hm⟩
    | dict d3 =>
      simp only at h
      rcases hm : matchDict P d3 c.slots st with e | st1
      · rw [hm] at h; cases h
      · rw [hm] at h
        exact ⟨adel b tmp, st1, by simp only [knownFor, ha]; exact hm, h, noRetr_adel hN, fun m hm => alook_adel _ hm⟩
    | retr d3 c3 => exact absurd ha (hN b d3 c3)

theorem knownFor_congr {tmp tmp' : SlotVals} {b : String} (h : alook b tmp' = alook b tmp) (own : Slots) :
    knownFor tmp' b own = knownFor tmp b own := by
  simp only [knownFor, h]

/-- Tests and queries only. -/
def TestsOnly (l : List (Key × LVal)) : Prop := ∀ k v, (k, v) ∈ l → (k.code = '=' ∧ ∃ c, v = .chunk c) ∨ k.code = '?'

theorem key_eta {k : Key} {c : Char} (h : k.code = c) : k = ⟨c, k.name⟩ := by cases k; simp_all

theorem matchRules_other {P : Py} {S : List String} : ∀ {l : List (Key × LVal)} {tmp sv sv' : SlotVals} {st st' : MatchSt},
    TestsOnly l → (l.map Prod.fst).Nodup → NoRetr tmp → matchRules P l tmp sv st = .ok (sv', st') →
    (∀ b c n s, ((⟨'=', b⟩ : Key), LVal.chunk c) ∈ l → (n, s) ∈ c.slots → ∀ v ∈ S, v ∉ tieSet (knownFor tmp b c.slots) n s) →
    Agree S st st' ∧ sv' = sv
  | [], tmp, sv, sv', st, st', _, _, _, h, _ => by
    simp only [matchRules, Except.ok.injEq, Prod.mk.injEq] at h
    obtain ⟨rfl, rfl⟩ := h
    exact ⟨fun _ _ => ⟨rfl, rfl⟩, rfl⟩
  | (k, v) :: r, tmp, sv, sv', st, st', hT, hn, hN, h, hd => by
    simp only [List.map_cons, List.nodup_cons] at hn
    have hT' : TestsOnly r := fun k v hm => hT k v (List.mem_cons_of_mem _ hm)
    rcases hT k v List.mem_cons_self with ⟨hk, c, rfl⟩ | hk
    · rw [key_eta hk] at h hd hn
      obtain ⟨tmp', st1, h1, h2, h3, h4⟩ := matchRules_cons hN h
      obtain ⟨i1, i2⟩ := matchRules_other (S := S) hT' hn.2 h3 h2 (fun b c' n s hm hs => by
        have hb : b ≠ k.name := by
          rintro rfl; exact hn.1 (List.mem_map.2 ⟨_, hm, rfl⟩)
        rw [knownFor_congr (h4 b hb)]
        exact hd b c' n s (List.mem_cons_of_mem _ hm) hs)
      exact ⟨(matchDict_other h1 (fun n s hs => hd _ c n s List.mem_cons_self hs)).trans i1, i2⟩
    · simp only [matchRules] at h
      rw [if_neg (by rw [hk]; decide)] at h
      exact matchRules_other hT' hn.2 hN h (fun b c n s hm => hd b c n s (List.mem_cons_of_mem _ hm))

theorem matchRules_self {P : Py} {b : String} {c : Chunk} {n : String} {s : Slot} (hc : (c.slots.map Prod.fst).Nodup)
    (hs : (n, s) ∈ c.slots) : ∀ {l : List (Key × LVal)} {tmp sv sv' : SlotVals} {st st' : MatchSt},
    TestsOnly l → (l.map Prod.fst).Nodup → NoRetr tmp → matchRules P l tmp sv st = .ok (sv', st') →
    ((⟨'=', b⟩ : Key), LVal.chunk c) ∈ l → Untouched (tieSet (knownFor tmp b c.slots) n s) st →
    (∀ b' c' n' s', ((⟨'=', b'⟩ : Key), LVal.chunk c') ∈ l → (n', s') ∈ c'.slots → ¬ (b' = b ∧ n' = n) →
      ∀ v ∈ tieSet (knownFor tmp b c.slots) n s, v ∉ tieSet (knownFor tmp b' c'.slots) n' s') →
    Tied (tieSet (knownFor tmp b c.slots) n s) (tieVal (knownFor tmp b c.slots) n s) st' ∧
    ((splitting s).values.truthy = true → (splitting ((alook n (knownFor tmp b c.slots)).getD .empty)).values.truthy = true →
      pyEq P.H (splitting s).values (splitting ((alook n (knownFor tmp b c.slots)).getD .empty)).values = true)
  | [], tmp, sv, sv', st, st', _, _, _, _, hm, _, _ => by simp at hm
  | (k, v) :: r, tmp, sv, sv', st, st', hT, hn, hN, h, hm, hU, hd => by
    simp only [List.map_cons, List.nodup_cons] at hn
    have hT' : TestsOnly r := fun k v hm => hT k v (List.mem_cons_of_mem _ hm)
    rcases hT k v List.mem_cons_self with ⟨hk, c0, rfl⟩ | hk
    · rw [key_eta hk] at h hd hn hm
      obtain ⟨tmp', st1, h1, h2, h3, h4⟩ := matchRules_cons hN h
      have other : ∀ b' c', ((⟨'=', b'⟩ : Key), LVal.chunk c') ∈ r → b' ≠ k.name := by
        rintro b' c' hm' rfl; exact hn.1 (List.mem_map.2 ⟨_, hm', rfl⟩)
      rcases List.mem_cons.1 hm with e | hm
      · simp only [Prod.mk.injEq, Key.mk.injEq, true_and, LVal.chunk.injEq] at e
        obtain ⟨rfl, rfl⟩ := e
        obtain ⟨i1, i2⟩ := matchDict_self h1 hc hs hU
          (fun n' s' hs' hne => hd _ c n' s' List.mem_cons_self hs' (fun e => hne e.2))
        refine ⟨(matchRules_other hT' hn.2 h3 h2 (fun b' c' n' s' hm' hs' => ?_)).1.tied i1, i2⟩
        rw [knownFor_congr (h4 b' (other b' c' hm'))]
        exact hd b' c' n' s' (List.mem_cons_of_mem _ hm') hs' (fun e => other b' c' hm' e.1)
      · have hb := h4 b (other b c hm)
        have ag : Agree (tieSet (knownFor tmp b c.slots) n s) st st1 :=
          matchDict_other h1 (fun n' s' hs' => hd _ c0 n' s' List.mem_cons_self hs' (fun e => other b c hm e.1.symm))
        have := matchRules_self hc hs hT' hn.2 h3 h2 hm (by rw [knownFor_congr hb]; exact ag.untouched hU)
          (fun b' c' n' s' hm' hs' hne => by
            rw [knownFor_congr hb, knownFor_congr (h4 b' (other b' c' hm'))]
            exact hd b' c' n' s' (List.mem_cons_of_mem _ hm') hs' hne)
        rwa [knownFor_congr hb] at this
    · simp only [matchRules] at h
      rw [if_neg (by rw [hk]; decide)] at h
      refine matchRules_self hc hs hT' hn.2 hN h ?_ hU (fun b c n s hm => hd b c n s (List.mem_cons_of_mem _ hm))
      rcases List.mem_cons.1 hm with e | hm
      · cases e; simp at hk
      · exact hm

/-! ## A slot that the second rule tests after the first rule has set it -/

theorem hard_trans {t v w : Val} (h : Hard t) (hw : w ≠ .none) (h1 : SameVal t v) (h2 : SameVal v w) : SameVal t w := by
  obtain ⟨h3, h4⟩ := h
  cases t <;> cases v <;> cases w <;> simp_all [SameVal, Val.truthy]

theorem mem_slotVarSet_left {a b : VarVal} {v : String} (h : a.vars = some v) (hv : v ≠ "") : v ∈ slotVarSet a b := by
  simp [slotVarSet, optStrTruthy, h, hv]

theorem mem_slotVarSet_right {a b : VarVal} {v : String} (h : b.vars = some v) (hv : v ≠ "") : v ∈ slotVarSet a b := by
  simp [slotVarSet, optStrTruthy, h, hv]

theorem mem_slotVarSet {a b : VarVal} {v : String} (h : v ∈ slotVarSet a b) :
    v ≠ "" ∧ (a.vars = some v ∨ b.vars = some v) := by
  have hv : v ≠ "" := fun e => slotVarSet_ne a b (e ▸ h)
  refine ⟨hv, ?_⟩
  simp only [slotVarSet, List.mem_dedup, List.mem_append] at h
  have one : ∀ x : VarVal, v ∈ (if optStrTruthy x.vars then [x.vars.getD ""] else []) → x.vars = some v := by
    intro x hx
    rcases hxv : x.vars with _ | u
    · simp [hxv, optStrTruthy] at hx
    · simp only [hxv, Option.getD_some] at hx
      split at hx
      · simp at hx; rw [hx]
      · simp at hx
  exact h.imp (one a) (one b)

/-- Values that compilation may use. -/
def GoodVal (v : Val) : Prop := PlainVal v ∧ v ≠ .empty

theorem tie_true {P : Py} (cf : P.H.CollisionFree) {D : Val → Prop} {st : MatchSt} {σ : String → Option Val} {name : String}
    {used : List String} {x x' y : VarVal} {w : Val} (hx : renameSlot P.toPyEnv name used (.vv x) = .ok x')
    (hneg : x.negvars = [] ∧ x.negvalues = []) (hxg : GoodVal x.values) (hyg : GoodVal y.values) (hys : SaysSomething y)
    (hyv : y.values ≠ .none ∨ y.vars ≠ Option.none)
    (ht : Tied (slotVarSet x' y) (if x'.values.truthy then x'.values else y.values) st)
    (hpy : x'.values.truthy = true → y.values.truthy = true → pyEq P.H x'.values y.values = true)
    (hD : D w) (hw : w ≠ .none) (h : SlotTrue (pull D st.matched st.valued σ) (.vv y) w) :
    SlotTrue (fun v => pull D st.matched st.valued σ (ruleVar name v)) (.vv x) w := by
  have hxv : x'.values = x.values := renameSlot_values hx
  rw [hxv] at ht hpy
  obtain ⟨y1, y2, y3, y4⟩ := h
  -- what `y` says
  have yacc : y.values.truthy = true → SameVal y.values w := by
    intro e
    rcases y3 with h | h
    · exact absurd h (hard_required ⟨e, hyg.2⟩)
    · exact h
  have yvar : y.values.truthy = false → ∃ u, y.vars = some u ∧ u ≠ "" := by
    intro e
    have hn : y.values = .none := by
      rcases hys.value with h | h
      · exact h
      · exact absurd (not_truthy_required e) h
    rcases hu : y.vars with _ | u
    · rcases hyv with h | h
      · exact absurd hn h
      · exact absurd hu h
    · exact ⟨u, rfl, fun e => hys.var (by rw [hu, e])⟩
  -- the common value
  have tval : (if x.values.truthy then x.values else y.values).truthy = true →
      Hard (if x.values.truthy then x.values else y.values) ∧ SameVal (if x.values.truthy then x.values else y.values) w := by
    intro e
    by_cases hxt : x.values.truthy = true
    · simp only [hxt, if_true] at ht e ⊢
      refine ⟨⟨hxt, hxg.2⟩, ?_⟩
      by_cases hyt : y.values.truthy = true
      · exact hard_swap ⟨hxt, hxg.2⟩ ⟨hyt, hyg.2⟩ ((pyEq_iff cf _ _ hxg.1 hyg.1).1 (hpy hxt hyt)) (yacc hyt)
      · obtain ⟨u, hu, hu'⟩ := yvar (by simpa using hyt)
        obtain ⟨v, hv, hs⟩ := y1 u hu hu'
        have hval := ht.1 hxt u (mem_slotVarSet_right hu hu')
        simp only [pull, hval] at hv
        split at hv
        · rename_i hex
          cases hv
          exact hard_trans ⟨hxt, hxg.2⟩ hw hex.choose_spec.2 hs
        · cases hv
    · simp only [hxt] at e ⊢
      simp only [if_false, Bool.false_eq_true] at e ⊢
      exact ⟨⟨e, hyg.2⟩, yacc e⟩
  have e' := renameSlot_form hx
  refine ⟨fun v hv hne => ?_, fun v u hv => by rw [hneg.1] at hv; simp at hv, ?_, fun v hv => by rw [hneg.2] at hv; simp at hv⟩
  · have hv' : x'.vars = some (ruleVar name v) := by
      rw [e']
      simp only [splitting, hv, optStrTruthy, Option.getD_some]
      rw [if_pos (by simpa using hne)]
    have hm := mem_slotVarSet_left (b := y) hv' (ruleVar_ne name v)
    by_cases e : (if x.values.truthy then x.values else y.values).truthy = true
    · obtain ⟨hh, hs⟩ := tval e
      exact pull_pos (ht.1 e _ hm) hh hD hs
    · obtain ⟨m, hall⟩ := ht.2 (by simpa using e)
      obtain ⟨a1, a2⟩ := hall _ hm
      have hyt : y.values.truthy = false := by
        by_cases hxt : x.values.truthy = true
        · simp [hxt] at e
        · simpa [hxt] using e
      obtain ⟨u, hu, hu'⟩ := yvar hyt
      obtain ⟨b1, b2⟩ := hall _ (mem_slotVarSet_right hu hu')
      obtain ⟨z, hz, hs⟩ := y1 u hu hu'
      refine ⟨z, ?_, hs⟩
      rw [pull_free b2] at hz
      simp only
      rw [pull_free a2, ← hz]
      simp only [newVar, a1, b1, Option.getD_some]
  · by_cases hxt : x.values.truthy = true
    · have := (tval (by simp [hxt])).2
      simp only [hxt, if_true] at this
      exact Or.inr this
    · exact Or.inl (not_truthy_required (by simpa using hxt))

/-! ## The actions of the compiled rule -/

/-- A chunk made of parts that include all slots of its type. -/
theorem mkChunk_full {E : PyEnv} {reg : Reg} (hr : RegOk E reg) {typ : String} {d : List (String × VarVal)}
    (hd : (d.map Prod.fst).Nodup) (hf : ∀ n ∈ (alook typ reg).getD [], n ∈ d.map Prod.fst) {c : Chunk}
    (h : mkChunk E reg typ (d.map (fun p => (p.1, SlotArg.vv p.2))) = .ok c) :
    c.typ = typ ∧ Named c ∧ ∀ n s, (n, s) ∈ c.slots ↔ ∃ y, (n, y) ∈ d ∧ s = .vv y := by
  obtain ⟨h1, h2, h3, h4, _⟩ := mkChunk_parts hr hd h
  refine ⟨h1, h2, fun n s => ⟨fun hm => ?_, ?_⟩⟩
  · rcases h4 n s hm with rfl | h
    · -- an empty slot is one that was not given
      have hdk : (d.map (fun p => (p.1, SlotArg.vv p.2))).map Prod.fst = d.map Prod.fst := by rw [List.map_map]; rfl
      obtain ⟨_, _, vals, hv, hal⟩ := mkChunk_ok hr (by rw [hdk]; exact hd) h
      rw [convertAll_vv] at hv
      cases hv
      have hl := alook_of_mem h2 hm
      rw [hal] at hl
      rcases ha : alook n (d.map (fun p => (p.1, (SlotOf.vv p.2 : Slot)))) with _ | v
      · rw [ha] at hl
        simp only [Option.none_or] at hl
        split at hl
        · rename_i hin
          obtain ⟨⟨n', y⟩, hy, rfl⟩ := List.mem_map.1 (hf n hin)
          have := alook_none_iff.1 ha (.vv y)
          exact absurd (List.mem_map.2 ⟨_, hy, rfl⟩) this
        · cases hl
      · rw [ha] at hl
        cases hl
        obtain ⟨⟨n', y⟩, hy, he⟩ := List.mem_map.1 (alook_mem ha)
        cases he
    · exact h
  · rintro ⟨y, hy, rfl⟩
    exact h3 n y hy

/-- What a chunk with all slots of its type is like after its slots were changed one by one. -/
theorem mapChunk_full {E : PyEnv} {reg : Reg} (hr : RegOk E reg) {f : Slot → Except PyErr VarVal} {c c' : Chunk} (hc : Named c)
    (hf : ∀ n ∈ (alook c.typ reg).getD [], n ∈ c.slots.map Prod.fst) (h : mapChunk E reg f c = .ok c') :
    c'.typ = c.typ ∧ Named c' ∧ (∀ n s', (n, s') ∈ c'.slots ↔ ∃ s y, (n, s) ∈ c.slots ∧ f s = .ok y ∧ s' = .vv y) ∧
    (∀ n s, (n, s) ∈ c.slots → ∃ y, f s = .ok y ∧ (n, SlotOf.vv y) ∈ c'.slots) ∧
    (∀ n ∈ (alook c'.typ reg).getD [], n ∈ c'.slots.map Prod.fst) := by
  unfold mapChunk at h
  rcases hm : mapSlots f c.slots with e | d
  · rw [hm] at h; cases h
  · rw [hm] at h
    have h2 := mapSlots_ok hm
    have hk : d.map Prod.fst = c.slots.map Prod.fst := forall₂_names h2 (fun _ _ h => h.1)
    obtain ⟨ht, hn, h3⟩ := mkChunk_full hr (by rw [hk]; exact hc) (by rw [hk]; exact hf) h
    have there : ∀ n s, (n, s) ∈ c.slots → ∃ y, f s = .ok y ∧ (n, SlotOf.vv y) ∈ c'.slots := by
      intro n s hs
      obtain ⟨⟨n', y⟩, hy, hn', hfy⟩ := forall₂_left h2 hs
      simp only at hn' hfy
      subst hn'
      exact ⟨y, hfy, (h3 _ _).2 ⟨y, hy, rfl⟩⟩
    refine ⟨ht, hn, fun n s' => ⟨fun h => ?_, ?_⟩, there, fun n hin => ?_⟩
    · obtain ⟨y, hy, rfl⟩ := (h3 n s').1 h
      obtain ⟨⟨n', s⟩, hs, hn', hfy⟩ := forall₂_right h2 hy
      simp only at hn' hfy
      subst hn'
      exact ⟨s, y, hs, hfy, rfl⟩
    · rintro ⟨s, y, hs, hfy, rfl⟩
      obtain ⟨y', hfy', hm'⟩ := there n s hs
      rw [hfy] at hfy'
      cases hfy'
      exact hm'
    · rw [ht] at hin
      obtain ⟨⟨n', s⟩, hs, rfl⟩ := List.mem_map.1 (hf n hin)
      obtain ⟨y, _, hm'⟩ := there n' s hs
      exact List.mem_map.2 ⟨_, hm', rfl⟩

theorem mapRVal_chunk {E : PyEnv} {reg : Reg} {f : Slot → Except PyErr VarVal} {k : Key} {c : Chunk} {v : RVal}
    (hk : k.code = '=') (h : mapRVal E reg f k (.chunk c) = .ok v) : ∃ c', v = .chunk c' ∧ mapChunk E reg f c = .ok c' := by
  simp only [mapRVal, hk] at h
  rw [if_pos (by decide)] at h
  simp only [Except.map] at h
  rcases hc : mapChunk E reg f c with e | c1
  · rw [hc] at h; cases h
  · rw [hc] at h; cases h; exact ⟨c1, rfl, rfl⟩

theorem mem_kset_ne {α : Type} {k m : Key} {a b : α} {l : List (Key × α)} (hne : m ≠ k) : (m, b) ∈ kset k a l ↔ (m, b) ∈ l := by
  induction l with
  | nil => simp [kset, hne]
  | cons x r ih =>
    obtain ⟨j, y⟩ := x
    by_cases h : j = k
    · subst h; simp [kset, hne]
    · simp [kset, h, ih]

theorem mem_kset_self {α : Type} {k : Key} {a : α} {l : List (Key × α)} : (k, a) ∈ kset k a l :=
  mem_of_klook (by rw [klook_kset, if_pos rfl])

/-- What is known about a slot. -/
def knownSlot (sv : SlotVals) (b n : String) : Option Slot :=
  match alook b sv with
  | some (.dict d) => alook n d
  | _ => Option.none

theorem collapseRhs2_mem {E : PyEnv} {reg : Reg} {sv : SlotVals} {b : String} {c : Chunk} :
    ∀ {r l : List (Key × RVal)}, collapseRhs2 E reg sv r = .ok l → ((⟨'=', b⟩ : Key), RVal.chunk c) ∈ r →
      ∃ c', ((⟨'=', b⟩ : Key), RVal.chunk c') ∈ l ∧ (c' = c ∧ alook b sv = Option.none ∨
        mkChunk E reg c.typ (c.slots.map (fun p => match knownSlot sv b p.1 with
          | some t => (p.1, .vv (mergeParts p.2 t))
          | Option.none => (p.1, slotArg p.2))) = .ok c')
  | [], _, _, hm => by simp at hm
  | (k, v) :: r, l, h, hm => by
    have rest : ∀ w, (collapseRhs2 E reg sv r).map (fun l => (k, w) :: l) = .ok l →
        ∃ l', collapseRhs2 E reg sv r = .ok l' ∧ l = (k, w) :: l' := by
      intro w h
      rcases hc : collapseRhs2 E reg sv r with e | l'
      · rw [hc] at h; cases h
      · rw [hc] at h; cases h; exact ⟨l', rfl, rfl⟩
    have later : ∀ w, (collapseRhs2 E reg sv r).map (fun l => (k, w) :: l) = .ok l → ((⟨'=', b⟩ : Key), RVal.chunk c) ∈ r →
        ∃ c', ((⟨'=', b⟩ : Key), RVal.chunk c') ∈ l ∧ (c' = c ∧ alook b sv = Option.none ∨
        mkChunk E reg c.typ (c.slots.map (fun p => match knownSlot sv b p.1 with
          | some t => (p.1, .vv (mergeParts p.2 t))
          | Option.none => (p.1, slotArg p.2))) = .ok c') := by
      intro w h hmr
      obtain ⟨l', hl, rfl⟩ := rest w h
      obtain ⟨c', h1, h2⟩ := collapseRhs2_mem hl hmr
      exact ⟨c', List.mem_cons_of_mem _ h1, h2⟩
    simp only [collapseRhs2] at h
    rcases List.mem_cons.1 hm with e | hmr
    · cases e
      rw [if_neg (by simp), if_pos (by simp [isChunkCode])] at h
      rcases ha : alook b sv with _ | i
      · simp only [ha] at h
        obtain ⟨l', _, rfl⟩ := rest _ h
        exact ⟨c, List.mem_cons_self, Or.inl ⟨rfl, rfl⟩⟩
      · simp only [ha] at h
        split at h
        · cases h
        rename_i c' hmk
        obtain ⟨l', _, rfl⟩ := rest _ h
        refine ⟨c', List.mem_cons_self, Or.inr ?_⟩
        rw [← hmk]
        congr 2
        funext p
        cases i with
        | nothing => simp [knownSlot, ha, mergeAction, alook]
        | retr d c => simp [knownSlot, ha, mergeAction, alook]
        | dict d => simp only [knownSlot, ha, mergeAction]; rcases alook p.1 d with _ | t <;> rfl
    · split at h
      · exact later _ h hmr
      · split at h
        · split at h
          · exact later _ h hmr
          · split at h
            · split at h
              · cases h
              · exact later _ h hmr
            · cases h
        · cases h

theorem collapseRhs1_keeps {E : PyEnv} {reg : Reg} {ret : Option String} {k : Key} {v : RVal} :
    ∀ {r p l : List (Key × RVal)}, collapseRhs1 E reg ret r p = .ok l → (k, v) ∈ p → (k, v) ∈ l
  | [], p, l, h, hm => by simp only [collapseRhs1, Except.ok.injEq] at h; subst h; exact hm
  | (m, u) :: r, p, l, h, hm => by
    simp only [collapseRhs1] at h
    split at h
    · exact collapseRhs1_keeps h hm
    rename_i hany
    have hne : k ≠ m := by
      rintro rfl
      exact hany (List.any_eq_true.2 ⟨_, hm, by simp⟩)
    split at h
    · exact collapseRhs1_keeps h hm
    · split at h
      · exact collapseRhs1_keeps h ((mem_kset_ne hne).2 hm)
      · split at h
        · split at h
          · split at h
            · cases h
            · exact collapseRhs1_keeps h ((mem_kset_ne hne).2 hm)
          · cases h
        · cases h

theorem collapseRhs1_only {E : PyEnv} {reg : Reg} {ret : Option String} {k : Key} {v : RVal} :
    ∀ {r p l : List (Key × RVal)}, collapseRhs1 E reg ret r p = .ok l → (k, v) ∈ l → k ∈ p.map Prod.fst ∨ k ∈ r.map Prod.fst
  | [], p, l, h, hm => by
    simp only [collapseRhs1, Except.ok.injEq] at h; subst h; exact Or.inl (List.mem_map.2 ⟨_, hm, rfl⟩)
  | (m, u) :: r, p, l, h, hm => by
    have keys : ∀ {w : RVal}, collapseRhs1 E reg ret r (kset m w p) = .ok l → k ∈ p.map Prod.fst ∨ k ∈ ((m, u) :: r).map Prod.fst := by
      intro w h
      rcases collapseRhs1_only h hm with e | e
      · rw [kset_keys] at e
        split at e
        · exact Or.inl e
        · rcases List.mem_append.1 e with e | e
          · exact Or.inl e
          · simp at e; simp [e]
      · exact Or.inr (List.mem_cons_of_mem _ e)
    have same : collapseRhs1 E reg ret r p = .ok l → k ∈ p.map Prod.fst ∨ k ∈ ((m, u) :: r).map Prod.fst := fun h =>
      (collapseRhs1_only h hm).imp id (List.mem_cons_of_mem _)
    simp only [collapseRhs1] at h
    split at h
    · exact same h
    split at h
    · exact same h
    · split at h
      · exact keys h
      · split at h
        · split at h
          · split at h
            · cases h
            · exact keys h
          · cases h
        · cases h

theorem collapseRhs1_adds {E : PyEnv} {reg : Reg} {b : String} {c : Chunk} :
    ∀ {r p l : List (Key × RVal)}, collapseRhs1 E reg Option.none r p = .ok l → (r.map Prod.fst).Nodup →
      (∀ m u, (m, u) ∈ r → m.code = '=') → ((⟨'=', b⟩ : Key), RVal.chunk c) ∈ r → (∀ m u, (m, u) ∈ p → m.name ≠ b) →
      ∃ c', ((⟨'=', b⟩ : Key), RVal.chunk c') ∈ l ∧ mkChunk E reg c.typ (c.slots.map (fun p => (p.1, slotArg p.2))) = .ok c'
  | [], p, l, h, _, _, hm, _ => by simp at hm
  | (m, u) :: r, p, l, h, hn, ho, hm, hp => by
    simp only [List.map_cons, List.nodup_cons] at hn
    have hmc := ho m u List.mem_cons_self
    simp only [collapseRhs1] at h
    rcases List.mem_cons.1 hm with e | hmr
    · cases e
      rw [if_neg, if_neg (by simp), if_neg (by simp), if_pos (by simp [isChunkCode])] at h
      · simp only at h
        split at h
        · cases h
        · rename_i c' hc
          exact ⟨c', collapseRhs1_keeps h mem_kset_self, hc⟩
      · intro hany
        obtain ⟨⟨m', u'⟩, hm', he⟩ := List.any_eq_true.1 hany
        exact hp m' u' hm' (by simpa using he)
    · have hne : m.name ≠ b := by
        intro e
        exact hn.1 (List.mem_map.2 ⟨_, hmr, by rw [key_eta hmc, e]⟩)
      have grow : ∀ w, ∀ m' u', (m', u') ∈ kset m w p → m'.name ≠ b := by
        intro w m' u' h'
        by_cases e : m' = m
        · rw [e]; exact hne
        · exact hp m' u' ((mem_kset_ne e).1 h')
      have ho' : ∀ m u, (m, u) ∈ r → m.code = '=' := fun m u h => ho m u (List.mem_cons_of_mem _ h)
      split at h
      · exact collapseRhs1_adds h hn.2 ho' hmr hp
      split at h
      · exact collapseRhs1_adds h hn.2 ho' hmr hp
      · split at h
        · exact collapseRhs1_adds h hn.2 ho' hmr (grow _)
        · split at h
          · split at h
            · split at h
              · cases h
              · exact collapseRhs1_adds h hn.2 ho' hmr (grow _)
            · cases h
          · cases h

end Verif
