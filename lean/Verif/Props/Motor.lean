import Verif.Model.Motor
import Verif.Spec.Motor
import Verif.Props.Buffer
import Verif.Props.StringSplit
/-! # C36: motor requests -/
namespace Verif.Props
open Verif Verif.Spec

/-- The keyboard of the library: both hands together are the digits, the capital letters and the space bar. -/
theorem keyboard_iff (k : String) : (k ∈ leftHand ∨ k ∈ rightHand) ↔ OnKeyboard k := by
  constructor
  · intro h
    have : ∀ s ∈ leftHand ++ rightHand, s = "SPACE" ∨ ∃ c ∈ "0123456789ABCDEFGHIJKLMNOPQRSTUVWXYZ".toList, s = String.ofList [c] := by
      decide
    rcases this k (by simpa using h) with h | ⟨c, hc, rfl⟩
    · exact .inl h
    · refine .inr ⟨c, rfl, ?_⟩
      have : ∀ c ∈ "0123456789ABCDEFGHIJKLMNOPQRSTUVWXYZ".toList, ('0' ≤ c ∧ c ≤ '9') ∨ ('A' ≤ c ∧ c ≤ 'Z') := by decide
      exact this c hc
  · rintro (rfl | ⟨c, rfl, h⟩)
    · left; decide
    · have hn : (48 ≤ c.toNat ∧ c.toNat ≤ 57) ∨ (65 ≤ c.toNat ∧ c.toNat ≤ 90) := by
        rcases h with ⟨h1, h2⟩ | ⟨h1, h2⟩
        · left; exact ⟨h1, h2⟩
        · right; exact ⟨h1, h2⟩
      have key : ∀ n : ℕ, ((48 ≤ n ∧ n ≤ 57) ∨ (65 ≤ n ∧ n ≤ 90)) →
          String.ofList [Char.ofNat n] ∈ leftHand ∨ String.ofList [Char.ofNat n] ∈ rightHand := by
        have : ∀ n ∈ List.range 91, ((48 ≤ n ∧ n ≤ 57) ∨ (65 ≤ n ∧ n ≤ 90)) →
            String.ofList [Char.ofNat n] ∈ leftHand ∨ String.ofList [Char.ofNat n] ∈ rightHand := by decide
        intro n h
        exact this n (List.mem_range.mpr (by omega)) h
      have := key c.toNat hn
      rwa [Char.ofNat_toNat] at this

theorem convertAll_vv (E : PyEnv) : ∀ l : List (String × VarVal), convertAll E (l.map (fun p => (p.1, SlotArg.vv p.2))) = .ok l
  | [] => rfl
  | (n, x) :: r => by simp [convertAll, SlotArg.convert, convertAll_vv E r]

/-- Creating a chunk of the special type for motor requests. -/
theorem createManual {E : PyEnv} {reg : Reg} (hm : alook "_manual" reg = some ["cmd", "key"]) {dict : List (String × SlotArg)}
    {vals : List (String × VarVal)} (hv : convertAll E dict = .ok vals) :
    ((∀ p ∈ vals, p.1 = "cmd" ∨ p.1 = "key") → createChunk E reg "_manual" dict =
      (reg, .ok ⟨"_manual", [("cmd", ((alook "cmd" vals).map SlotOf.vv).getD .empty), ("key", ((alook "key" vals).map SlotOf.vv).getD .empty)]⟩)) ∧
    ((∃ p ∈ vals, p.1 ≠ "cmd" ∧ p.1 ≠ "key") → createChunk E reg "_manual" dict = (reg, .error .type)) := by
  have hal : ∀ n, alook n (vals.map (fun p => (p.1, (SlotOf.vv p.2 : Slot)))) = (alook n vals).map SlotOf.vv := by
    intro n
    induction vals generalizing dict with
    | nil => rfl
    | cons p r ih =>
      obtain ⟨m, x⟩ := p
      have : ∀ r : List (String × VarVal), alook n (r.map (fun p => (p.1, (SlotOf.vv p.2 : Slot)))) = (alook n r).map SlotOf.vv := by
        intro r
        induction r with
        | nil => rfl
        | cons q r ih => obtain ⟨m, x⟩ := q; simp only [List.map_cons, alook, ih]; split <;> rfl
      exact this _
  have hfk : fullKw reg "_manual" (vals.map (fun p => (p.1, (SlotOf.vv p.2 : Slot)))) =
      vals.map (fun p => (p.1, (SlotOf.vv p.2 : Slot))) ++
        (["cmd", "key"].filter (fun f => !((vals.map (fun p => (p.1, (SlotOf.vv p.2 : Slot)))).map Prod.fst).contains f)).map (fun f => (f, SlotOf.empty)) := by
    simp [fullKw, hm]
  have hlk : ∀ f, alook f (fullKw reg "_manual" (vals.map (fun p => (p.1, (SlotOf.vv p.2 : Slot))))) =
      ((alook f vals).map SlotOf.vv).or (if f ∈ ["cmd", "key"] then some .empty else Option.none) := by
    intro f; rw [alook_fullKw, hal, hm]; rfl
  constructor
  · intro h
    have hall : (fullKw reg "_manual" (vals.map (fun p => (p.1, (SlotOf.vv p.2 : Slot))))).all (fun p => ["cmd", "key"].contains p.1) = true := by
      rw [hfk, List.all_append, Bool.and_eq_true]
      constructor
      · rw [List.all_eq_true]; intro p hp
        obtain ⟨q, hq, rfl⟩ := List.mem_map.mp hp
        rcases h q hq with e | e <;> simp [e]
      · rw [List.all_eq_true]; intro p hp
        obtain ⟨f, hf, rfl⟩ := List.mem_map.mp hp
        simpa using List.mem_of_mem_filter hf
    have hb : buildSlots ["cmd", "key"] (fullKw reg "_manual" (vals.map (fun p => (p.1, (SlotOf.vv p.2 : Slot))))) =
        .ok [("cmd", ((alook "cmd" vals).map SlotOf.vv).getD .empty), ("key", ((alook "key" vals).map SlotOf.vv).getD .empty)] := by
      have hfs : ["cmd", "key"].all (fun f => (alook f (fullKw reg "_manual" (vals.map (fun p => (p.1, (SlotOf.vv p.2 : Slot)))))).isSome) = true := by
        simp [hlk]
      simp only [buildSlots, hall, hfs, Bool.and_self, if_true, List.filterMap_cons, hlk, List.filterMap_nil]
      cases alook "cmd" vals <;> cases alook "key" vals <;> simp
    simp only [createChunk, hv, hm]
    rw [← hfk, if_pos hall, hb]
    rfl
  · rintro ⟨p, hp, h1, h2⟩
    have hall : (fullKw reg "_manual" (vals.map (fun p => (p.1, (SlotOf.vv p.2 : Slot))))).all (fun p => ["cmd", "key"].contains p.1) = false := by
      rw [hfk, List.all_append]
      have : (vals.map (fun p => (p.1, (SlotOf.vv p.2 : Slot)))).all (fun p => ["cmd", "key"].contains p.1) = false := by
        rw [List.all_eq_false]
        exact ⟨_, List.mem_map_of_mem hp, by simp [h1, h2]⟩
      rw [this]; rfl
    have hc : ∀ l, chunktype E reg "_manual" (.names l) [] = .error .actr := by
      intro l; simp [chunktype, specialTypes, FieldArg.isText]
    have hb : buildSlots ["cmd", "key"] (fullKw reg "_manual" (vals.map (fun p => (p.1, (SlotOf.vv p.2 : Slot))))) = .error .type := by
      simp only [buildSlots, hall, Bool.false_and, Bool.false_eq_true, if_false]
    simp only [createChunk, hv, hm]
    rw [← hfk, hall, hc, hb]
    rfl

/-- What is assumed of a motor request: different slot names, the chunk type of motor requests as the library defines it, and
every slot within the cases of C13. -/
structure ManualRequest (P : Py) (reg : Reg) (other : Chunk) (bv : BV) : Prop where
  cf : P.H.CollisionFree
  named : Named other
  manual : alook "_manual" reg = some ["cmd", "key"]
  fine : ∀ n x, MentionsSlot other n x → PlainRequest bv x ∧ Ordinary bv x

/-- A resolved slot: `v` is demanded, or nothing is and `v` is None. -/
def SlotIs (bv : BV) (x : VarVal) (v : Val) : Prop := Demands bv x v ∨ ((∀ w, ¬ Demands bv x w) ∧ v = .none)

theorem resolve_cases {P : Py} {reg : Reg} {other : Chunk} {bv : BV} (h : ManualRequest P reg other bv) :
    ((∃ n x, MentionsSlot other n x ∧ Illegal bv true x) ∧ resolveAll P bv true (removeUnused P.H other) = .error .actr) ∨
    ((∀ n x, MentionsSlot other n x → ¬ Illegal bv true x) ∧ ∃ mods, resolveAll P bv true (removeUnused P.H other) = .ok mods ∧
      (mods.map Prod.fst).Nodup ∧
      (∀ n x, MentionsSlot other n x → ∃ v, (n, ⟨v, Option.none, [], []⟩) ∈ mods ∧ SlotIs bv x v) ∧
      (∀ n r, (n, r) ∈ mods → ∃ x v, MentionsSlot other n x ∧ r = ⟨v, Option.none, [], []⟩ ∧ SlotIs bv x v)) := by
  have key : ∀ l : List (String × VarVal), (∀ p ∈ l, MentionsSlot other p.1 p.2) →
      ((∃ p ∈ l, Illegal bv true p.2) ∧ resolveAll P bv true l = .error .actr) ∨
      ((∀ p ∈ l, ¬ Illegal bv true p.2) ∧ ∃ mods, resolveAll P bv true l = .ok mods) := by
    intro l
    induction l with
    | nil => intro _; right; exact ⟨by simp, [], rfl⟩
    | cons p r ih =>
      obtain ⟨n, x⟩ := p
      intro hl
      obtain ⟨hp, ho⟩ := h.fine n x (hl (n, x) (by simp))
      obtain ⟨h1, h2⟩ := C13_partial P bv true x h.cf hp ho
      by_cases hi : Illegal bv true x
      · left; exact ⟨⟨(n, x), by simp, hi⟩, by simp [resolveAll, h1 hi]⟩
      · obtain ⟨v, hv, _⟩ := h2 hi
        rcases ih (fun p hp => hl p (by simp [hp])) with ⟨⟨p, hp, hip⟩, he⟩ | ⟨hall, mods, hm⟩
        · left; exact ⟨⟨p, by simp [hp], hip⟩, by simp [resolveAll, hv, he]⟩
        · right
          refine ⟨?_, (n, v) :: mods, by simp [resolveAll, hv, hm]⟩
          intro p hp
          rcases List.mem_cons.mp hp with rfl | hp
          · exact hi
          · exact hall p hp
  have hmem : ∀ p ∈ removeUnused P.H other, MentionsSlot other p.1 p.2 := fun p hp => (mem_removeUnused h.cf other p.1 p.2).mp hp
  rcases key _ hmem with ⟨⟨p, hp, hi⟩, he⟩ | ⟨hall, mods, hm⟩
  · left; exact ⟨⟨p.1, p.2, hmem p hp, hi⟩, he⟩
  · right
    have hleg : ∀ n x, MentionsSlot other n x → ¬ Illegal bv true x := fun n x hx =>
      hall (n, x) ((mem_removeUnused h.cf other n x).mpr hx)
    have shape : ∀ n x r, MentionsSlot other n x → checkBoundVars P bv true (.vv x) = .ok r →
        ∃ v, r = ⟨v, Option.none, [], []⟩ ∧ SlotIs bv x v := by
      intro n x r hx hr
      obtain ⟨hp, ho⟩ := h.fine n x hx
      obtain ⟨r', hr', hres⟩ := (C13_partial P bv true x h.cf hp ho).2 (hleg n x hx)
      rw [hr] at hr'; cases hr'
      have hneg : r.negvalues = [] := by
        rw [List.eq_nil_iff_forall_not_mem]
        intro v hv
        have := hres.negSound v hv
        refine hleg n x hx (.negation rfl ?_)
        rcases this with h | ⟨h, _⟩
        · left; exact List.ne_nil_of_mem h
        · right; exact List.ne_nil_of_mem h
      refine ⟨r.values, ?_, hres.value⟩
      obtain ⟨a, b, c, d⟩ := r
      have h1 := hres.vars; have h2 := hres.negvars
      simp only at h1 h2 hneg ⊢
      rw [h1, h2, hneg]
    obtain ⟨hk, hfw, hback⟩ := resolveAll_ok hm
    refine ⟨hleg, mods, hm, ?_, ?_, ?_⟩
    · rw [hk]; exact (removeUnused_sublist P.H other).nodup h.named
    · intro n x hx
      obtain ⟨r, hr, hmr⟩ := hfw n x ((mem_removeUnused h.cf other n x).mpr hx)
      obtain ⟨v, rfl, hv⟩ := shape n x r hx hr
      exact ⟨v, hmr, hv⟩
    · intro n r hr
      obtain ⟨x, hx, hc⟩ := hback n r hr
      have hx := (mem_removeUnused h.cf other n x).mp hx
      obtain ⟨v, rfl, hv⟩ := shape n x r hx hc
      exact ⟨x, v, hx, rfl, hv⟩

/-- What motor requests are, slot by slot, once they are resolved. -/
theorem motorCreate_resolved {P : Py} {reg : Reg} {other : Chunk} {bv : BV} (h : ManualRequest P reg other bv)
    (upper : String → String) (mods : List (String × VarVal)) (hm : resolveAll P bv true (removeUnused P.H other) = .ok mods) :
    motorCreate P upper reg other bv =
      if ∃ p ∈ mods, p.1 ≠ "cmd" ∧ p.1 ≠ "key" then (reg, .error .type)
      else match alook "cmd" mods with
        | Option.none => (reg, .error .attribute)
        | some c =>
          if !inCmdManual P.H c.values then (reg, .error .actr)
          else if pyEq P.H c.values (.str "press_key") then
            match alook "key" mods with
            | Option.none => (reg, .error .attribute)
            | some k => match k.values with
              | .str s => match parseSlot P.toSetOrder (upper s) with
                | .error e => (reg, .error e)
                | .ok y => if leftHand.contains (upper s) || inNames P.H rightHand y.values then
                    (reg, .ok ⟨"_manual", [("cmd", .vv c), ("key", .vv y)]⟩) else (reg, .error .actr)
              | _ => (reg, .error .attribute)
          else (reg, .error .unboundLocal) := by
  obtain ⟨h1, h2⟩ := createManual h.manual (E := P.toPyEnv) (convertAll_vv P.toPyEnv mods)
  simp only [motorCreate, hm]
  by_cases hx : ∃ p ∈ mods, p.1 ≠ "cmd" ∧ p.1 ≠ "key"
  · rw [if_pos hx, h2 hx]
  · rw [if_neg hx]
    have hx' : ∀ p ∈ mods, p.1 = "cmd" ∨ p.1 = "key" := by
      intro p hp; by_contra hc; push Not at hc; exact hx ⟨p, hp, hc⟩
    rw [h1 hx']
    simp only
    cases hc : alook "cmd" mods with
    | none => simp [slotValue, alook]
    | some c =>
      simp only [slotValue, alook, Option.map_some, Option.getD_some, if_true]
      by_cases hin : (!inCmdManual P.H c.values) = true
      · simp [hin]
      · simp only [hin, if_false, Bool.false_eq_true]
        by_cases hp : pyEq P.H c.values (.str "press_key") = true
        · simp only [hp, if_true]
          cases hk : alook "key" mods with
          | none => simp
          | some k =>
            have : ("cmd" = "key") = False := by decide
            simp only [Option.map_some, Option.getD_some, this, if_false]
            cases hv : k.values with
            | none => rfl
            | empty => rfl
            | chunk _ _ => rfl
            | str s =>
              simp only
              cases hps : parseSlot P.toSetOrder (upper s) with
              | error e =>
                have hconv : convertAll P.toPyEnv (aset "key" (SlotArg.text (upper s)) (mods.map (fun p => (p.1, SlotArg.vv p.2)))) = .error e := by
                  clear h1 h2 hx hx' hm hc
                  induction mods with
                  | nil => simp [alook] at hk
                  | cons q r ih =>
                    obtain ⟨m, x⟩ := q
                    by_cases hmk : m = "key"
                    · simp [aset, hmk, convertAll, SlotArg.convert, hps]
                    · have hk' : alook "key" r = some k := by simpa [alook, hmk] using hk
                      simp [aset, hmk, convertAll, SlotArg.convert, ih hk']
                simp [createChunk, hconv]
              | ok y =>
                have hconv : ∀ mods : List (String × VarVal), alook "key" mods = some k →
                    convertAll P.toPyEnv (aset "key" (SlotArg.text (upper s)) (mods.map (fun p => (p.1, SlotArg.vv p.2)))) = .ok (aset "key" y mods) := by
                  intro mods
                  induction mods with
                  | nil => intro hk; simp [alook] at hk
                  | cons q r ih =>
                    intro hk
                    obtain ⟨m, x⟩ := q
                    by_cases hmk : m = "key"
                    · simp [aset, hmk, convertAll, SlotArg.convert, hps, convertAll_vv]
                    · have hk' : alook "key" r = some k := by simpa [alook, hmk] using hk
                      simp [aset, hmk, convertAll, SlotArg.convert, ih hk']
                have hkeys : ∀ p ∈ aset "key" y mods, p.1 = "cmd" ∨ p.1 = "key" := by
                  have : ∀ l : List (String × VarVal), (∀ p ∈ l, p.1 = "cmd" ∨ p.1 = "key") → ∀ p ∈ aset "key" y l, p.1 = "cmd" ∨ p.1 = "key" := by
                    intro l
                    induction l with
                    | nil => intro _ p hp; simp [aset] at hp; subst hp; exact .inr rfl
                    | cons q r ih =>
                      obtain ⟨m, x⟩ := q
                      intro hl p hp
                      simp only [aset] at hp
                      split at hp
                      · rcases List.mem_cons.mp hp with rfl | hp
                        · exact hl (m, x) (by simp)
                        · exact hl p (by simp [hp])
                      · rcases List.mem_cons.mp hp with rfl | hp
                        · exact hl (m, x) (by simp)
                        · exact ih (fun p hp => hl p (by simp [hp])) p hp
                  exact this mods hx'
                have e1 : alook "cmd" (aset "key" y mods) = some c := by rw [alook_aset]; simp [hc]
                have e2 : alook "key" (aset "key" y mods) = some y := by rw [alook_aset]; simp
                rw [(createManual h.manual (hconv mods hk)).1 hkeys]
                simp only [e1, e2, Option.map_some, Option.getD_some, alook, this, if_false, if_true]
                cases leftHand.contains (upper s) <;> simp
        · simp [hp]

theorem keyboard_plain {k : String} (h : OnKeyboard k) : ∀ c ∈ k.toList, c ≠ '=' ∧ c ≠ '!' := by
  have : ∀ s ∈ leftHand ++ rightHand, ∀ c ∈ s.toList, c ≠ '=' ∧ c ≠ '!' := by decide
  exact this k (by simpa using (keyboard_iff k).mpr h)

theorem inNames_str {H : PyHash} (l : List String) (s : String) : inNames H l (.str s) = true ↔ s ∈ l := by
  simp only [inNames, List.any_eq_true, pyEq, Val.view, View.eq, beq_iff_eq]
  constructor
  · rintro ⟨x, hx, rfl⟩; exact hx
  · intro h; exact ⟨s, h, rfl⟩

/-- The whole of C36: a request is accepted exactly when it asks for pressing a key of the keyboard; everything else is an
ACTRError. -/
def C36_full : Prop := ∀ (P : Py) (upper : String → String) (reg : Reg) (other : Chunk) (bv : BV), ManualRequest P reg other bv →
  (∀ k, AsksPress bv other k → OnKeyboard (upper k) → motorCreate P upper reg other bv = (reg, .ok (PressChunk (upper k)))) ∧
  ((¬ ∃ k, AsksPress bv other k ∧ OnKeyboard (upper k)) → motorCreate P upper reg other bv = (reg, .error .actr))

/-- All outcomes of a motor request that can be resolved and has no other slots. -/
theorem C36_cases {P : Py} {reg : Reg} {other : Chunk} {bv : BV} (h : ManualRequest P reg other bv) (upper : String → String)
    (hleg : ∀ n x, MentionsSlot other n x → ¬ Illegal bv true x) (honly : ∀ n x, MentionsSlot other n x → n = "cmd" ∨ n = "key") :
    -- no command, or nothing demanded of it, or 'None': AttributeError, UnboundLocalError
    (∀ v, Asks bv other "cmd" v → v = .empty ∨ v = .str "None") ∧
      (motorCreate P upper reg other bv = (reg, .error .attribute) ∧ (∀ x, ¬ MentionsSlot other "cmd" x) ∨
        motorCreate P upper reg other bv = (reg, .error .unboundLocal) ∧ ∃ x, MentionsSlot other "cmd" x) ∨
    -- another command
    (∃ v, Asks bv other "cmd" v ∧ v ≠ .empty ∧ v ≠ .str "None" ∧ v ≠ .str "press_key") ∧
      motorCreate P upper reg other bv = (reg, .error .actr) ∨
    -- pressing, but no key or one that is not a string
    Asks bv other "cmd" (.str "press_key") ∧ (∀ k, Asks bv other "key" (.str k) → k = "None") ∧
      motorCreate P upper reg other bv = (reg, .error .attribute) ∨
    -- pressing a key
    ∃ k, AsksPress bv other k ∧ ((OnKeyboard (upper k) ∧ motorCreate P upper reg other bv = (reg, .ok (PressChunk (upper k)))) ∨
      (¬ OnKeyboard (upper k) ∧ ((∀ c ∈ (upper k).toList, c ≠ '=' ∧ c ≠ '!') → motorCreate P upper reg other bv = (reg, .error .actr)))) := by
  rcases resolve_cases h with ⟨⟨n, x, hx, hi⟩, _⟩ | ⟨_, mods, hm, hnd, hfw, hback⟩
  · exact absurd hi (hleg n x hx)
  have heq := motorCreate_resolved h upper mods hm
  have hx : ¬ ∃ p ∈ mods, p.1 ≠ "cmd" ∧ p.1 ≠ "key" := by
    rintro ⟨⟨n, r⟩, hp, h1, h2⟩
    obtain ⟨x, v, hxm, _⟩ := hback n r hp
    rcases honly n x hxm with h | h
    · exact h1 h
    · exact h2 h
  rw [if_neg hx] at heq
  have hone : ∀ n x x', MentionsSlot other n x → MentionsSlot other n x' → x = x' := by
    intro n x x' h1 h2
    have := alook_of_mem h.named h1.1
    rw [alook_of_mem h.named h2.1] at this
    cases this; rfl
  -- the value found for a slot is the demanded one
  have hval : ∀ n x v, MentionsSlot other n x → SlotIs bv x v → (n, (⟨v, Option.none, [], []⟩ : VarVal)) ∈ mods → alook n mods = some ⟨v, Option.none, [], []⟩ :=
    fun n x v _ _ hmm => alook_of_mem hnd hmm
  by_cases hcm : ∃ x, MentionsSlot other "cmd" x
  · obtain ⟨x, hxm⟩ := hcm
    obtain ⟨v, hv, his⟩ := hfw "cmd" x hxm
    have hlk := hval "cmd" x v hxm his hv
    rw [hlk] at heq
    simp only at heq
    have hpl : v = .none ∨ PlainVal v := by
      rcases his with (h' | ⟨_, _, h'⟩) | ⟨_, h'⟩
      · exact .inr (h.fine "cmd" x hxm).1.value
      · exact .inr ((h.fine "cmd" x hxm).1.bound _ _ h')
      · exact .inl h'
    have hcmd : ∀ w, Asks bv other "cmd" w → Demands bv x w := by
      rintro w ⟨x', hx', hd⟩; rwa [hone _ _ _ hxm hx']
    by_cases hd : Demands bv x v
    · have hasks : Asks bv other "cmd" v := ⟨x, hxm, hd⟩
      have hbl : ¬ Blank v := (h.fine "cmd" x hxm).2.notBlank v hd
      cases v with
      | none => exact absurd trivial hbl
      | empty =>
        left
        have e1 : inCmdManual P.H .empty = true := by simp [inCmdManual, keyEq, View.keyEq, Val.view, View.eq, View.hash]
        have e2 : pyEq P.H .empty (.str "press_key") = false := by simp [pyEq, Val.view, View.eq]
        refine ⟨?_, .inr ⟨by rw [heq]; simp [e1, e2], x, hxm⟩⟩
        intro w hw
        have hs : SameVal .empty w := by
          by_contra hc
          exact hleg "cmd" x hxm (.two _ _ hd (hcmd w hw) hc)
        have hbw := (h.fine "cmd" x hxm).2.notBlank w (hcmd w hw)
        cases w with
        | none => exact absurd trivial hbw
        | empty => exact .inl rfl
        | str s => right; simp only [SameVal] at hs; rw [hs]
        | chunk t sl => simp [SameVal] at hs
      | chunk t sl =>
        right; left
        refine ⟨⟨_, hasks, by simp, by simp, by simp⟩, ?_⟩
        have : inCmdManual P.H (.chunk t sl) = false := by
          simp [inCmdManual, keyEq, View.keyEq, Val.view, View.eq, View.hash, h.cf.none_tup, h.cf.str_tup]
        rw [heq]; simp [this]
      | str s =>
        by_cases hs1 : s = "None"
        · subst hs1
          left
          have e1 : inCmdManual P.H (.str "None") = true := by simp [inCmdManual, keyEq, View.keyEq, Val.view, View.eq]
          have e2 : pyEq P.H (.str "None") (.str "press_key") = false := by simp [pyEq, Val.view, View.eq]
          refine ⟨?_, .inr ⟨by rw [heq]; simp [e1, e2], x, hxm⟩⟩
          intro w hw
          have hs : SameVal (.str "None") w := by
            by_contra hc
            exact hleg "cmd" x hxm (.two _ _ hd (hcmd w hw) hc)
          have hbw := (h.fine "cmd" x hxm).2.notBlank w (hcmd w hw)
          cases w with
          | none => exact absurd trivial hbw
          | empty => exact .inl rfl
          | str s => right; simp only [SameVal] at hs; rw [hs]
          | chunk t sl => simp [SameVal] at hs
        · by_cases hs2 : s = "press_key"
          · subst hs2
            have e1 : inCmdManual P.H (.str "press_key") = true := by simp [inCmdManual, keyEq, View.keyEq, Val.view, View.eq]
            have e2 : pyEq P.H (.str "press_key") (.str "press_key") = true := by simp [pyEq, Val.view, View.eq]
            simp only [e1, e2, Bool.not_true, Bool.false_eq_true, if_false, if_true] at heq
            right; right
            by_cases hkm : ∃ y, MentionsSlot other "key" y
            · obtain ⟨y, hym⟩ := hkm
              obtain ⟨w, hw, hiw⟩ := hfw "key" y hym
              have hlkw := hval "key" y w hym hiw hw
              rw [hlkw] at heq
              simp only at heq
              have hkey : ∀ u, Asks bv other "key" u → Demands bv y u := by
                rintro u ⟨x', hx', hd⟩; rwa [hone _ _ _ hym hx']
              -- the only string that can be demanded is the one found
              have hnostr : (∀ s, w ≠ .str s) → ∀ k, ¬ Asks bv other "key" (.str k) ∨ w = .empty := by
                intro hns k
                by_contra hc
                push Not at hc
                obtain ⟨ha, hwe⟩ := hc
                have hdk := hkey _ ha
                rcases hiw with hdw | ⟨hno, _⟩
                · have hsame : SameVal w (.str k) := by
                    by_contra hc
                    exact hleg "key" y hym (.two _ _ hdw hdk hc)
                  have hbw := (h.fine "key" y hym).2.notBlank w hdw
                  cases w with
                  | none => exact hbw trivial
                  | empty => exact hwe rfl
                  | str s => exact hns s rfl
                  | chunk t sl => simp [SameVal] at hsame
                · exact hno _ hdk
              cases w with
              | none =>
                left; refine ⟨hasks, ?_, heq⟩
                intro k ha; rcases hnostr (by simp) k with h | h
                · exact absurd ha h
                · simp at h
              | chunk t sl =>
                left; refine ⟨hasks, ?_, heq⟩
                intro k ha; rcases hnostr (by simp) k with h | h
                · exact absurd ha h
                · simp at h
              | empty =>
                -- an empty value together with a variable bound to 'None'
                left; refine ⟨hasks, ?_, heq⟩
                intro k ha
                rcases hiw with hdw | ⟨hno, _⟩
                · by_contra hc
                  exact hleg "key" y hym (.two _ _ hdw (hkey _ ha) (by simpa [SameVal] using hc))
                · exact absurd (hkey _ ha) (hno _)
              | str k =>
                right
                have hdw : Demands bv y (.str k) := by
                  rcases hiw with h | ⟨_, h⟩
                  · exact h
                  · simp at h
                have hap : AsksPress bv other k := ⟨hleg, honly, hasks, ⟨y, hym, hdw⟩⟩
                refine ⟨k, hap, ?_⟩
                simp only at heq
                by_cases hon : OnKeyboard (upper k)
                · left
                  refine ⟨hon, ?_⟩
                  rw [heq, C11_plain P.toSetOrder (upper k) (keyboard_plain hon)]
                  have : (leftHand.contains (upper k) || inNames P.H rightHand (.str (upper k))) = true := by
                    rw [Bool.or_eq_true, List.contains_iff_mem, inNames_str]; exact (keyboard_iff _).mpr hon
                  simp only [this, if_true]; rfl
                · right
                  refine ⟨hon, fun hp => ?_⟩
                  rw [heq, C11_plain P.toSetOrder (upper k) hp]
                  have : (leftHand.contains (upper k) || inNames P.H rightHand (.str (upper k))) = false := by
                    rw [← Bool.not_eq_true, Bool.or_eq_true, List.contains_iff_mem, inNames_str]
                    exact fun hc => hon ((keyboard_iff _).mp hc)
                  simp only [this, Bool.false_eq_true, if_false]
            · left
              refine ⟨hasks, fun k ⟨y, hy, _⟩ => absurd ⟨y, hy⟩ hkm, ?_⟩
              have : alook "key" mods = Option.none := by
                rw [alook_none_iff]; intro r hr
                obtain ⟨y, _, hy, _⟩ := hback _ _ hr
                exact hkm ⟨y, hy⟩
              rw [heq, this]
          · right; left
            refine ⟨⟨_, hasks, by simp, by simpa using hs1, by simpa using hs2⟩, ?_⟩
            have : inCmdManual P.H (.str s) = false := by
              simp [inCmdManual, keyEq, View.keyEq, Val.view, View.eq, Ne.symm hs1, Ne.symm hs2]
            rw [heq]; simp [this]
    · have hvn : v = .none ∧ ∀ w, ¬ Demands bv x w := by
        rcases his with h | ⟨h1, h2⟩
        · exact absurd h hd
        · exact ⟨h2, h1⟩
      left
      obtain ⟨rfl, hno⟩ := hvn
      have e1 : inCmdManual P.H .none = true := by simp [inCmdManual, keyEq, View.keyEq, Val.view, View.eq]
      have e2 : pyEq P.H .none (.str "press_key") = false := by simp [pyEq, Val.view, View.eq]
      exact ⟨fun w hw => absurd (hcmd w hw) (hno w), .inr ⟨by rw [heq]; simp [e1, e2], x, hxm⟩⟩
  · left
    have : alook "cmd" mods = Option.none := by
      rw [alook_none_iff]; intro r hr
      obtain ⟨y, _, hy, _⟩ := hback _ _ hr
      exact hcm ⟨y, hy⟩
    refine ⟨fun w ⟨x, hx, _⟩ => absurd ⟨x, hx⟩ hcm, .inl ⟨by rw [heq, this], fun x hx => hcm ⟨x, hx⟩⟩⟩

/-- C36 for requests that give a command and a key and nothing else: `cmd` demands a string other than 'None', or a chunk, and
`key` demands a string whose upper case is free of the special characters. Such a request is accepted exactly when it can be
resolved and asks for pressing a key of the keyboard; the chunk created says so. Otherwise ACTRError is raised. Missing: requests
without command or key (AttributeError, UnboundLocalError: `C36_cases`) or with other slots (TypeError: `C36_extra`). -/
theorem C36_partial {P : Py} {reg : Reg} {other : Chunk} {bv : BV} (h : ManualRequest P reg other bv) (upper : String → String)
    (v : Val) (hc : Asks bv other "cmd" v) (hv1 : v ≠ .empty) (hv2 : v ≠ .str "None")
    (k : String) (hk : Asks bv other "key" (.str k)) (hk1 : k ≠ "None") (hk2 : ∀ c ∈ (upper k).toList, c ≠ '=' ∧ c ≠ '!')
    (honly : ∀ n x, MentionsSlot other n x → n = "cmd" ∨ n = "key") :
    (AsksPress bv other k ∧ OnKeyboard (upper k) ∧ motorCreate P upper reg other bv = (reg, .ok (PressChunk (upper k)))) ∨
    ((¬ ∃ k, AsksPress bv other k ∧ OnKeyboard (upper k)) ∧ motorCreate P upper reg other bv = (reg, .error .actr)) := by
  have hone : ∀ n x x', MentionsSlot other n x → MentionsSlot other n x' → x = x' := by
    intro n x x' h1 h2
    have := alook_of_mem h.named h1.1
    rw [alook_of_mem h.named h2.1] at this
    cases this; rfl
  by_cases hleg : ∀ n x, MentionsSlot other n x → ¬ Illegal bv true x
  · -- two demanded strings are equal
    have hsame : ∀ n u w, Asks bv other n u → Asks bv other n w → SameVal u w := by
      rintro n u w ⟨x, hx, hd⟩ ⟨x', hx', hd'⟩
      by_contra hne
      rw [hone _ _ _ hx' hx] at hd'
      exact hleg n x hx (.two _ _ hd hd' hne)
    have hstr : ∀ k', AsksPress bv other k' → k' = k := by
      intro k' ha; have := hsame "key" _ _ ha.key hk; simpa [SameVal] using this
    rcases C36_cases h upper hleg honly with ⟨h1, _⟩ | ⟨⟨w, hw, hw1, hw2, hw3⟩, he⟩ | ⟨_, h2, _⟩ | ⟨k', ha, hh⟩
    · rcases h1 v hc with h | h
      · exact absurd h hv1
      · exact absurd h hv2
    · right
      refine ⟨?_, he⟩
      rintro ⟨k', ha, _⟩
      have := hsame "cmd" _ _ ha.cmd hw
      cases w with
      | none => simp [SameVal] at this
      | empty => exact hw1 rfl
      | str s => simp only [SameVal] at this; exact hw3 (by rw [this])
      | chunk t sl => simp [SameVal] at this
    · exact absurd (h2 k hk) hk1
    · have := hstr k' ha; subst this
      rcases hh with ⟨ho, he⟩ | ⟨ho, he⟩
      · exact .inl ⟨ha, ho, he⟩
      · right
        refine ⟨?_, he hk2⟩
        rintro ⟨k'', ha', ho'⟩
        rw [hstr k'' ha'] at ho'; exact ho ho'
  · right
    refine ⟨fun ⟨_, ha, _⟩ => hleg ha.legal, ?_⟩
    rcases resolve_cases h with ⟨_, he⟩ | ⟨hl, _⟩
    · simp [motorCreate, he]
    · exact absurd hl hleg

/-- Nothing but pressing a key of the keyboard is ever accepted, whatever the request (provided that the upper case of the key
is free of the special characters). -/
theorem C36_sound {P : Py} {reg reg' : Reg} {other c : Chunk} {bv : BV} (h : ManualRequest P reg other bv) (upper : String → String)
    (hs : ∀ k, Asks bv other "key" (.str k) → ∀ c ∈ (upper k).toList, c ≠ '=' ∧ c ≠ '!')
    (hok : motorCreate P upper reg other bv = (reg', .ok c)) :
    ∃ k, AsksPress bv other k ∧ OnKeyboard (upper k) ∧ c = PressChunk (upper k) ∧ reg' = reg := by
  rcases resolve_cases h with ⟨_, he⟩ | ⟨hleg, mods, hm, hnd, hfw, hback⟩
  · simp [motorCreate, he] at hok
  · by_cases hx : ∃ p ∈ mods, p.1 ≠ "cmd" ∧ p.1 ≠ "key"
    · rw [motorCreate_resolved h upper mods hm, if_pos hx] at hok; simp at hok
    · have honly : ∀ n x, MentionsSlot other n x → n = "cmd" ∨ n = "key" := by
        intro n x hxm
        by_contra hc; push Not at hc
        obtain ⟨v, hv, _⟩ := hfw n x hxm
        exact hx ⟨_, hv, hc⟩
      rcases C36_cases h upper hleg honly with ⟨_, ⟨he, _⟩ | ⟨he, _⟩⟩ | ⟨_, he⟩ | ⟨_, _, he⟩ | ⟨k, ha, ⟨ho, he⟩ | ⟨_, he⟩⟩
      · rw [he] at hok; simp at hok
      · rw [he] at hok; simp at hok
      · rw [he] at hok; simp at hok
      · rw [he] at hok; simp at hok
      · rw [he] at hok; simp only [Prod.mk.injEq, Except.ok.injEq] at hok
        exact ⟨k, ha, ho, hok.2.symm, hok.1.symm⟩
      · rw [he (hs k ha.key)] at hok; simp at hok

/-- Other slots are a TypeError. -/
theorem C36_extra {P : Py} {reg : Reg} {other : Chunk} {bv : BV} (h : ManualRequest P reg other bv) (upper : String → String)
    (hleg : ∀ n x, MentionsSlot other n x → ¬ Illegal bv true x)
    (n : String) (x : VarVal) (hx : MentionsSlot other n x) (h1 : n ≠ "cmd") (h2 : n ≠ "key") :
    motorCreate P upper reg other bv = (reg, .error .type) := by
  rcases resolve_cases h with ⟨⟨m, y, hm, hi⟩, _⟩ | ⟨_, mods, hm, _, hfw, _⟩
  · exact absurd hi (hleg m y hm)
  · obtain ⟨v, hv, _⟩ := hfw n x hx
    rw [motorCreate_resolved h upper mods hm, if_pos ⟨_, hv, h1, h2⟩]

/-- Upper case for letters a-z. -/
def exUpper (s : String) : String := String.ofList (s.toList.map Char.toUpper)

/-- The registry with just the type of motor requests. -/
def exManualReg : Reg := [("_manual", ["cmd", "key"])]

/-- A request without variables and negations is within the cases of C13. -/
theorem literal_fine (bv : BV) (hb : ∀ y v, bv.get y = some v → PlainVal v) (s : String) (h0 : s ≠ "") (h1 : s ≠ ">") (h2 : s ≠ "<") :
    PlainRequest bv ⟨.str s, Option.none, [], []⟩ ∧ Ordinary bv ⟨.str s, Option.none, [], []⟩ ∧
      ¬ Illegal bv true ⟨.str s, Option.none, [], []⟩ := by
  have hd : ∀ v, Demands bv ⟨.str s, Option.none, [], []⟩ v → v = .str s := by
    rintro v (h | ⟨h, _⟩)
    · rfl
    · simp at h
  refine ⟨⟨plainVal_str _, by simp, hb⟩, ⟨?_, ?_, by simp⟩, ?_⟩
  · intro v hv; rw [hd v hv]; simpa [Blank] using h0
  · intro v hv; rw [hd v hv]; simp [h1, h2]
  · rintro (⟨_, h, _⟩ | ⟨_, h, _⟩ | ⟨_, h⟩ | ⟨v, w, hv, hw, hn⟩)
    · simp at h
    · simp at h
    · simp at h
    · rw [hd v hv, hd w hw] at hn; exact hn rfl

/-- C36 is false as stated: a request without a command raises AttributeError, not ACTRError. -/
theorem C36_refuted : ¬ C36_full := by
  intro h
  obtain ⟨H, cf⟩ := exists_collisionFree
  let other : Chunk := ⟨"_manual", [("cmd", .empty), ("key", .vv ⟨.str "a", Option.none, [], []⟩)]⟩
  have hm : ∀ n x, MentionsSlot other n x → n = "key" ∧ x = ⟨.str "a", Option.none, [], []⟩ := by
    rintro n x ⟨hx, _⟩; simpa [other] using hx
  have hf := literal_fine BV.init (by simp [BV.get, BV.init, alook]) "a" (by decide) (by decide) (by decide)
  have hr : ManualRequest (exPy H) exManualReg other BV.init :=
    ⟨cf, by simp [Named, other], rfl, fun n x hx => by rw [(hm n x hx).2]; exact ⟨hf.1, hf.2.1⟩⟩
  have hno : ∀ x, ¬ MentionsSlot other "cmd" x := fun x hx => by simpa using (hm _ _ hx).1
  have h2 := (h (exPy H) exUpper exManualReg other BV.init hr).2 (fun ⟨k, ha, _⟩ => by
    obtain ⟨x, hx, _⟩ := ha.cmd; exact hno x hx)
  rcases C36_cases hr exUpper (fun n x hx => by rw [(hm n x hx).2]; exact hf.2.2) (fun n x hx => .inr (hm n x hx).1)
    with ⟨_, ⟨he, _⟩ | ⟨_, x, hx⟩⟩ | ⟨⟨v, ⟨x, hx, _⟩, _⟩, _⟩ | ⟨⟨x, hx, _⟩, _⟩ | ⟨k, ha, _⟩
  · rw [he] at h2; simp at h2
  · exact hno x hx
  · exact hno x hx
  · exact hno x hx
  · obtain ⟨x, hx, _⟩ := ha.cmd; exact hno x hx

/-- The hypotheses of `C36_partial` are met: pressing "a" (bound to a variable) is accepted as "A". -/
example : ∃ (P : Py) (other : Chunk) (bv : BV), ManualRequest P exManualReg other bv ∧ Asks bv other "cmd" (.str "press_key") ∧
    Asks bv other "key" (.str "a") ∧ motorCreate P exUpper exManualReg other bv = (exManualReg, .ok (PressChunk "A")) := by
  obtain ⟨H, cf⟩ := exists_collisionFree
  let x : VarVal := ⟨.none, some "k", [], []⟩
  let other : Chunk := ⟨"_manual", [("cmd", .vv ⟨.str "press_key", Option.none, [], []⟩), ("key", .vv x)]⟩
  let bv : BV := ⟨[("k", .str "a")], []⟩
  have hb : ∀ y v, bv.get y = some v → PlainVal v := by
    intro y v; simp only [BV.get, bv, alook]; split
    · rintro ⟨⟩; exact plainVal_str _
    · simp
  have hm : ∀ n y, MentionsSlot other n y → n = "cmd" ∧ y = ⟨.str "press_key", Option.none, [], []⟩ ∨ n = "key" ∧ y = x := by
    rintro n y ⟨hx, _⟩; simpa [other] using hx
  have hd : ∀ v, Demands bv x v → v = .str "a" := by
    rintro v (h | ⟨h, _, h'⟩)
    · simp [x, Blank] at h
    · simp only [x, Option.some.injEq] at h; subst h; simp [BV.get, bv, alook] at h'; exact h'.symm
  have hda : Demands bv x (.str "a") := .bound rfl (by decide) (by simp [BV.get, bv, alook])
  have hf := literal_fine bv hb "press_key" (by decide) (by decide) (by decide)
  have hr : ManualRequest (exPy H) exManualReg other bv := by
    refine ⟨cf, by simp [Named, other], rfl, fun n y hx => ?_⟩
    rcases hm n y hx with ⟨_, rfl⟩ | ⟨_, rfl⟩
    · exact ⟨hf.1, hf.2.1⟩
    · exact ⟨⟨plainVal_none, by simp [x], hb⟩, ⟨fun v hv => by rw [hd v hv]; simp [Blank], fun v hv => by rw [hd v hv]; simp, by simp [x]⟩⟩
  have hc : Asks bv other "cmd" (.str "press_key") :=
    ⟨⟨.str "press_key", Option.none, [], []⟩, ⟨by simp [other], .inl ⟨by simp, by simp⟩⟩, .literal (x := ⟨.str "press_key", Option.none, [], []⟩) (by simp [Blank])⟩
  have hk : Asks bv other "key" (.str "a") := ⟨x, ⟨by simp [other], .inr (.inl ⟨"k", rfl, by decide⟩)⟩, hda⟩
  refine ⟨exPy H, other, bv, hr, hc, hk, ?_⟩
  have hup : exUpper "a" = "A" := by decide
  have hon : OnKeyboard "A" := .inr ⟨'A', rfl, .inr ⟨by decide, by decide⟩⟩
  rcases C36_partial hr exUpper _ hc (by simp) (by simp) "a" hk (by decide) (by decide)
    (fun n y hy => by rcases hm n y hy with ⟨h, _⟩ | ⟨h, _⟩ <;> simp [h]) with ⟨_, _, he⟩ | ⟨hn, _⟩
  · rw [hup] at he; exact he
  · exfalso; apply hn
    refine ⟨"a", ⟨fun n y hy => ?_, fun n y hy => ?_, hc, hk⟩, by rw [hup]; exact hon⟩
    · rcases hm n y hy with ⟨_, rfl⟩ | ⟨_, rfl⟩
      · exact hf.2.2
      · rintro (⟨y, hy, _, h⟩ | ⟨_, h, _⟩ | ⟨_, h⟩ | ⟨v, w, hv, hw, hn⟩)
        · simp only [x, Option.some.injEq] at hy; subst hy; simp [BV.get, bv, alook] at h
        · simp [x] at h
        · simp [x] at h
        · rw [hd v hv, hd w hw] at hn; exact hn rfl
    · rcases hm n y hy with ⟨h, _⟩ | ⟨h, _⟩ <;> simp [h]

end Verif.Props
