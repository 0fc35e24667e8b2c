import Verif.Spec.Types
import Verif.Props.Storage
import Verif.Lemmas.ChunkType
/-! # Chunk types in simulations (property C90) -/
namespace Verif.Props
open Verif Verif.Spec

variable {s s' : Sim} {C : Cfg} {w w' : Mach} {args : Option EnvArgs} {t : ℚ} {typ : String} {fs : List String}

/-! ## Creating chunks -/

/-- Types are kept with their slots, those of the modules as they are, and slots stay sorted. -/
structure TypesKept (E : PyEnv) (r r' : Reg) : Prop where
  kept : ∀ {typ fs}, alook typ r = some fs → ∃ fs', alook typ r' = some fs' ∧ (∀ f ∈ fs, f ∈ fs') ∧ (Wired typ → fs' = fs)
  wired : ∀ {typ}, Wired typ → alook typ r = Option.none → alook typ r' = Option.none
  sorted : RegOk E r → RegOk E r'

theorem typesKept_refl (E : PyEnv) (r : Reg) : TypesKept E r r := ⟨fun h => ⟨_, h, fun _ h => h, fun _ => rfl⟩, fun _ h => h, id⟩

theorem TypesKept.trans {E : PyEnv} {a b c : Reg} (h1 : TypesKept E a b) (h2 : TypesKept E b c) : TypesKept E a c where
  kept h := by
    obtain ⟨f1, a1, a2, a3⟩ := h1.kept h
    obtain ⟨f2, b1, b2, b3⟩ := h2.kept a1
    exact ⟨f2, b1, fun f hf => b2 f (a2 f hf), fun hw => (b3 hw).trans (a3 hw)⟩
  wired hw h := h2.wired hw (h1.wired hw h)
  sorted h := h2.sorted (h1.sorted h)

theorem wired_special (h : Wired typ) (l : List String) : SpecialMismatch typ (.names l) := by
  rcases h with rfl | rfl | rfl <;> simp [SpecialMismatch, specialTypes]

/-- A type that is created or extended. -/
theorem typesKept_new {E : PyEnv} {r r' : Reg} {l : List String} (h : chunktype E r typ (.names l) [] = .ok r') (hl : ∀ fs, alook typ r = some fs → ∀ f ∈ fs, f ∈ l) : TypesKept E r r' := by
  have hr := regOk_chunktype (E := E) h
  obtain ⟨fs', rfl, _, hf, _, _, _, hs, _⟩ := chunktype_ok h
  have hw : ¬ Wired typ := fun h => hs (wired_special h l)
  refine ⟨fun {k fs} hk => ?_, fun {k} hk h => ?_, hr⟩
  · by_cases e : k = typ
    · subst e
      exact ⟨fs', by rw [alook_aset, if_pos rfl], fun f h => (hf f).2 (.inl (hl fs hk f h)), fun h => absurd h hw⟩
    · exact ⟨fs, by rw [alook_aset, if_neg e]; exact hk, fun _ h => h, fun _ => rfl⟩
  · rw [alook_aset, if_neg (fun e : k = typ => hw (e ▸ hk))]; exact h

theorem typesKept_create (E : PyEnv) (r : Reg) (typ : String) (dict : List (String × SlotArg)) : TypesKept E r (createChunk E r typ dict).1 := by
  unfold createChunk
  split
  · exact typesKept_refl E r
  · dsimp only
    split
    · rename_i fields hk
      split
      · exact typesKept_refl E r
      · split
        · exact typesKept_refl E r
        · rename_i r' hr
          have := typesKept_new hr fun fs h f hf => by
            rw [hk] at h; cases h
            rw [List.map_append, List.mem_append]
            by_cases hc : f ∈ (List.map (fun p : String × VarVal => (p.1, (SlotOf.vv p.2 : Slot))) ‹_›).map Prod.fst
            · exact .inl hc
            · exact .inr (List.mem_map.2 ⟨(f, .empty), List.mem_map.2 ⟨f, List.mem_filter.2 ⟨hf, by simpa using hc⟩, rfl⟩, rfl⟩)
          split <;> exact this
    · rename_i hk
      split
      · exact typesKept_refl E r
      · rename_i r' hr
        have := typesKept_new hr fun fs h => by rw [hk] at h; cases h
        split <;> exact this

/-! ## Simulations -/

theorem mint_types (P : Py) : Minting P (TypesKept P.toPyEnv) := ⟨typesKept_refl _, fun _ _ _ h1 h2 => h1.trans h2, typesKept_create _⟩

/-- The relation for states of the model. -/
def Typed (C : Cfg) (w w' : Mach) : Prop := TypesKept C.P.toPyEnv w.reg w'.reg

theorem typed_same (h : w'.reg = w.reg) : Typed C w w' := by unfold Typed; rw [h]; exact typesKept_refl _ _

theorem atoms_typed (C : Cfg) : Atoms C (TypesKept C.P.toPyEnv) (Typed C) where
  mint := mint_types C.P
  refl _ := typed_same rfl
  trans _ _ _ h1 h2 := TypesKept.trans h1 h2
  upd w n f _ := typed_same (upd_reg ..)
  other w w' h _ _ _ _ _ _ := typed_same h
  environ w e := typed_same rfl
  reg w r h := h
  mems w l _ := typed_same rfl
  buf w n b st hb h := by
    have e : (w.putBst n st).reg = st.reg := by unfold Mach.putBst; rw [upd_reg]
    unfold Typed
    rw [e]
    generalize hst : w.bst b = st0 at h
    have e0 : w.reg = st0.reg := by rw [← hst]; rfl
    rw [e0]
    cases h with
    | reg r hr => exact hr
    | _ => exact typesKept_refl _ _
  exec w n b c _ := typed_same (upd_reg ..)
  reward n t w := typed_same (by unfold rewardStep; split <;> [split <;> rfl; rfl])
  compile w := typed_same (by
    unfold compileIn
    split
    · dsimp only
      split <;> rfl
    · rfl)

/-! ## The property -/

/-- C90: whatever a simulation does from any of its states on, no chunk type is lost, and none loses a slot; the types of the modules
for vision and hands keep exactly the slots they have. -/
theorem C90 (h : Reachable C w args t s) (hg : GoesOn C s s') (ht : Slotted s.w typ fs) : ∃ fs', Slotted s'.w typ fs' ∧ (∀ f ∈ fs, f ∈ fs') ∧ (Wired typ → fs' = fs) :=
  (regime_goesOn (atoms_typed C).regime h hg).kept ht

/-- C90: the types of the modules are never made up. -/
theorem C90_wired (h : Reachable C w args t s) (hw : Wired typ) (ht : Slotted s.w typ fs) : Slotted w typ fs := by
  have hk := regime_reachable (atoms_typed C).regime h
  unfold Slotted at *
  cases he : alook typ w.reg with
  | none => rw [hk.wired hw he] at ht; cases ht
  | some fs0 =>
    obtain ⟨fs', h1, _, h3⟩ := hk.kept he
    rw [ht] at h1
    cases h1
    rw [h3 hw]

/-- C90: slots are always sorted, no slot occurs twice, and all names are legal, if it is so at the beginning. -/
theorem C90_sorted (h : Reachable C w args t s) (hw : ∀ k l, Slotted w k l → FieldsSorted l ∧ (∀ f ∈ l, C.P.fieldOk f = true) ∧ C.P.typeOk k = true) (ht : Slotted s.w typ fs) :
    FieldsSorted fs ∧ fs.Nodup ∧ (∀ f ∈ fs, C.P.fieldOk f = true) ∧ C.P.typeOk typ = true := by
  obtain ⟨h1, h2, h3⟩ := (regime_reachable (atoms_typed C).regime h).sorted hw typ fs ht
  exact ⟨h1, h1.nodup, h2, h3⟩

/-! ## Examples -/

/-- A rule that puts a chunk with a slot that its type does not have into the goal buffer. -/
def exNoterRule : CRule := ⟨⟨.ok [], .ok [(⟨'+', "g"⟩, .chunk ⟨"note", [("k", .vv (exLit "x"))]⟩)]⟩, 0, Option.none⟩

/-- A model with this rule. -/
def exNoter : Mach :=
  { exMach [("_manual", ["cmd", "key"]), ("note", [])] [("g", { exBuf .goal with dm := some 0 })] with
    mems := [⟨[], [], [], []⟩], dms := [("decmem", 0)], rules := [("note", exNoterRule)], ordered := ["note"] }

/-- The type has been extended. -/
theorem exNoter_extends : ∃ s, Reachable exFullC exNoter Option.none 0 s ∧ s.w.reg = [("_manual", ["cmd", "key"]), ("note", ["k"])] := by
  have hb : (Stepped.state? (stepsOf exFullC 20 (Sim.init exNoter Option.none 0))).map (fun s => s.w.reg) = some [("_manual", ["cmd", "key"]), ("note", ["k"])] := by decide +kernel
  cases h1 : Stepped.state? (stepsOf exFullC 20 (Sim.init exNoter Option.none 0)) with
  | none => rw [h1] at hb; cases hb
  | some s =>
    rw [h1] at hb
    exact ⟨s, stepsOf_ok .init (state?_some h1), Option.some.inj hb⟩

/-- C90, an instance: whatever happens next, the new slot stays, and so do those of the hands. -/
example : ∃ s, Reachable exFullC exNoter Option.none 0 s ∧ ¬ Slotted exNoter "note" ["k"] ∧ ∀ s', GoesOn exFullC s s' →
    (∃ fs, Slotted s'.w "note" fs ∧ "k" ∈ fs) ∧ Slotted s'.w "_manual" ["cmd", "key"] := by
  obtain ⟨s, hs, hr⟩ := exNoter_extends
  refine ⟨s, hs, by unfold Slotted; decide +kernel, fun s' hg => ⟨?_, ?_⟩⟩
  · obtain ⟨fs, h1, h2, _⟩ := C90 hs hg (typ := "note") (fs := ["k"]) (by unfold Slotted; rw [hr]; decide)
    exact ⟨fs, h1, h2 _ (.head _)⟩
  · obtain ⟨fs, h1, _, h3⟩ := C90 hs hg (typ := "_manual") (fs := ["cmd", "key"]) (by unfold Slotted; rw [hr]; decide)
    rw [← h3 (.inl rfl)]; exact h1

theorem exNoter_types {k : String} {l : List String} (h : Slotted exNoter k l) : (k = "_manual" ∧ l = ["cmd", "key"]) ∨ (k = "note" ∧ l = []) := by
  unfold Slotted exNoter exMach at h
  simp only [alook] at h
  split at h
  · rename_i e; cases h; exact .inl ⟨e.symm, rfl⟩
  · split at h
    · rename_i e; cases h; exact .inr ⟨e.symm, rfl⟩
    · cases h

/-- C90_sorted and C90_wired, instances. -/
example : ∃ s, Reachable exFullC exNoter Option.none 0 s ∧ (FieldsSorted ["k"] ∧ ["k"].Nodup ∧ (∀ f ∈ ["k"], exFullC.P.fieldOk f = true) ∧ exFullC.P.typeOk "note" = true) ∧
    Slotted exNoter "_manual" ["cmd", "key"] ∧ ∀ fs, ¬ Slotted s.w "_visual" fs := by
  obtain ⟨s, hs, hr⟩ := exNoter_extends
  refine ⟨s, hs, C90_sorted hs (fun k l h => ?_) (by unfold Slotted; rw [hr]; decide), C90_wired hs (.inl rfl) (by unfold Slotted; rw [hr]; decide), fun fs h => ?_⟩
  · rcases exNoter_types h with ⟨rfl, rfl⟩ | ⟨rfl, rfl⟩
    · exact ⟨by unfold FieldsSorted; decide +kernel, by decide +kernel, by decide +kernel⟩
    · exact ⟨List.Pairwise.nil, by simp, by decide +kernel⟩
  · rcases exNoter_types (C90_wired hs (.inr (.inl rfl)) h) with ⟨h, _⟩ | ⟨h, _⟩ <;> exact absurd h (by decide)

end Verif.Props
