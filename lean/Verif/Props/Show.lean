import Verif.Model.Show
import Verif.Spec.Show
import Verif.Lemmas.Seen
import Verif.Props.Repr
import Verif.Props.BoundVars
/-! # Showing the content of buffers (property C91) -/
namespace Verif.Props
open Verif Verif.Spec

variable {E : PyEnv} {reg reg' : Reg} {typ name : String} {dict : List (String × SlotArg)} {c : Chunk} {st st' : BState}

theorem showAttr_slot {s : Slot} (hd : st.data = [c]) (hn : ¬ Taken name) (hs : alook name c.slots = some s) : st.showAttr name = .text (name ++ (" " ++ slotStr s)) := by
  have h : chunkAttributes.contains name = false := by simpa [Taken, chunkAttributes] using hn
  unfold BState.showAttr Chunk.attr
  rw [hd]
  simp only [h, hs, Option.map_some, Bool.false_eq_true, if_false]

theorem showAttr_no (hd : st.data = [c]) (hn : ¬ Taken name) (hs : alook name c.slots = Option.none) : st.showAttr name = .text name := by
  have h : chunkAttributes.contains name = false := by simpa [Taken, chunkAttributes] using hn
  unfold BState.showAttr Chunk.attr
  rw [hd]
  simp only [h, hs, Option.map_none, Bool.false_eq_true, if_false]

theorem added_data (ha : st.bufferAdd (some c) = (st', .ok ())) : st'.data = [c] := by
  cases ha; rfl

theorem given_slot {a : SlotArg} (hc : createChunk E reg typ dict = (reg', .ok c)) (ha : alook name dict = some a) : ∃ x, a.convert E = .ok x ∧ alook name c.slots = some (.vv x) := by
  obtain ⟨x, h1, h2, h3⟩ := createChunk_given hc ha
  obtain ⟨y, hy⟩ := mem_keys_iff.1 (List.mem_map.2 ⟨_, h2, rfl⟩ : name ∈ c.slots.map Prod.fst)
  refine ⟨x, h1, ?_⟩
  rw [hy, h3 y (alook_mem hy)]

/-! ## The property -/

/-- C91 in full: a chunk that was created with a text for a slot is put into a buffer, then `show` prints the name of the slot and the text. -/
def C91_full : Prop := ∀ (E : PyEnv) (reg reg' : Reg) (typ name v : String) (dict : List (String × SlotArg)) (c : Chunk) (st st' : BState),
  createChunk E reg typ dict = (reg', .ok c) → alook name dict = some (.text v) → v ≠ "" → NameOk v → st.bufferAdd (some c) = (st', .ok ()) →
  st'.showAttr name = .text (name ++ (" " ++ v))

/-- C91: except for slots that have the same name as an attribute of chunks. -/
theorem C91_partial {v : String} (hn : ¬ Taken name) (hc : createChunk E reg typ dict = (reg', .ok c)) (hv : alook name dict = some (.text v)) (h0 : v ≠ "") (hok : NameOk v)
    (ha : st.bufferAdd (some c) = (st', .ok ())) : st'.showAttr name = .text (name ++ (" " ++ v)) := by
  obtain ⟨x, h1, h2⟩ := given_slot hc hv
  have ht : (Val.str v).truthy = true := by simpa [Val.truthy] using h0
  have hr : varvalRepr ⟨.str v, Option.none, [], []⟩ = v := by
    simp [varvalRepr, slotText, ht, Val.text, optStrTruthy, negText, negvarText]
  have hp := (C75_reading E.toSetOrder ⟨.str v, Option.none, [], []⟩ ⟨.inr ⟨v, rfl, h0, hok⟩, by simp, by simp, by simp, by simp⟩).1 rfl rfl
  rw [hr] at hp
  have : x = ⟨.str v, Option.none, [], []⟩ := by
    simp only [SlotArg.convert] at h1
    rw [hp] at h1
    cases h1; rfl
  subst this
  rw [showAttr_slot (added_data ha) hn h2, slotStr, hr]

/-- C91, chunks as values: the chunk is printed as it is printed by itself. -/
theorem C91_chunk_partial {d : Chunk} (hn : ¬ Taken name) (hc : createChunk E reg typ dict = (reg', .ok c)) (hv : alook name dict = some (.chunk d)) (hd : d.slots ≠ [])
    (ha : st.bufferAdd (some c) = (st', .ok ())) : st'.showAttr name = .text (name ++ (" " ++ d.repr)) := by
  obtain ⟨x, h1, h2⟩ := given_slot hc hv
  cases h1
  have ht : d.val.truthy = true := by
    cases hs : d.slots with
    | nil => exact absurd hs hd
    | cons a r => simp [Chunk.val, Val.truthy, hs]
  have hr : varvalRepr ⟨d.val, Option.none, [], []⟩ = d.repr := by
    simp [varvalRepr, slotText, ht, Chunk.repr, optStrTruthy, negText, negvarText]
  rw [showAttr_slot (added_data ha) hn h2, slotStr, hr]

/-- C91, slots that were not given: a slot of the type is shown as None, anything else is shown as its name alone. -/
theorem C91_other_partial (hn : ¬ Taken name) (hr : RegOk E reg) (hd : (dict.map Prod.fst).Nodup) (hc : createChunk E reg typ dict = (reg', .ok c)) (hv : name ∉ dict.map Prod.fst)
    (ha : st.bufferAdd (some c) = (st', .ok ())) :
    (∀ fs, alook typ reg = some fs → name ∈ fs → st'.showAttr name = .text (name ++ " None")) ∧
    ((∀ fs, alook typ reg = some fs → name ∉ fs) → st'.showAttr name = .text name) := by
  cases hvals : convertAll E dict with
  | error e => unfold createChunk at hc; rw [hvals] at hc; cases hc
  | ok vals =>
    have hno : alook name (vals.map (fun p => (p.1, (SlotOf.vv p.2 : Slot)))) = Option.none := by
      cases h : alook name (vals.map (fun p => (p.1, (SlotOf.vv p.2 : Slot)))) with
      | none => rfl
      | some y =>
        have := mem_keys_iff.2 ⟨y, h⟩
        rw [List.map_map] at this
        exact absurd ((convertAll_ok hvals).1 ▸ this) hv
    rcases createChunk_cases hr hd hvals with ⟨_, sl, r', h1, _, h3, _⟩ | ⟨_, e, h1, _⟩
    · rw [hc] at h1
      cases h1
      have hs := h3 name
      rw [hno, Option.none_or] at hs
      constructor
      · intro fs hf hm
        rw [hf, Option.getD_some, if_pos hm] at hs
        rw [showAttr_slot (added_data ha) hn hs]; rfl
      · intro hf
        rw [if_neg] at hs
        · exact showAttr_no (added_data ha) hn hs
        · cases hk : alook typ reg with
          | none => simp
          | some fs => exact hf fs hk
    · rw [hc] at h1; cases h1

/-- A chunk with the slots count and first. -/
def exCounts : List (String × SlotArg) := [("count", .text "two"), ("first", .text "one")]

/-- It can be created. -/
theorem exCounts_made (H : PyHash) : createChunk (exPy H).toPyEnv [("num", ["count", "first", "last"])] "num" exCounts =
    ([("num", ["count", "first", "last"])], .ok ⟨"num", [("count", .vv ⟨.str "two", Option.none, [], []⟩), ("first", .vv ⟨.str "one", Option.none, [], []⟩), ("last", .empty)]⟩) := by
  rfl

/-- The slot count is not shown: chunks are sequences, and these have a method count. -/
theorem C91_refuted : ¬ C91_full := fun h => by
  obtain ⟨H, _⟩ := exists_collisionFree
  have := h (exPy H).toPyEnv _ _ "num" "count" "two" exCounts _ ⟨[], [], Option.none, []⟩ _ (exCounts_made H) rfl (by decide) (by unfold NameOk; decide) rfl
  exact absurd this (by decide)

/-- C91_partial and C91_other_partial, instances. -/
example (H : PyHash) (st : BState) : ∃ c st', st.bufferAdd (some c) = (st', .ok ()) ∧ st'.showAttr "first" = .text "first one" ∧ st'.showAttr "last" = .text "last None" ∧ st'.showAttr "next" = .text "next" := by
  have hr : RegOk (exPy H).toPyEnv [("num", ["count", "first", "last"])] := fun k l h => by
    simp only [alook] at h
    split at h
    · rename_i e; subst e; cases h; exact ⟨by unfold FieldsSorted; decide +kernel, by simp [exPy], rfl⟩
    · cases h
  have h1 := C91_partial (name := "first") (v := "one") (st := st) (by decide) (exCounts_made H) rfl (by decide) (by unfold NameOk; decide) rfl
  have h2 := (C91_other_partial (name := "last") (st := st) (by decide) hr (by decide) (exCounts_made H) (by decide) rfl).1 _ rfl (by decide)
  have h3 := (C91_other_partial (name := "next") (st := st) (by decide) hr (by decide) (exCounts_made H) (by decide) rfl).2 fun fs h => by cases h; decide
  exact ⟨_, _, rfl, h1, h2, h3⟩

/-- C91_chunk_partial, an instance. -/
example (H : PyHash) (st : BState) : ∃ c st', st.bufferAdd (some c) = (st', .ok ()) ∧ st'.showAttr "of" = .text "of num(first= one)" := by
  have hm : createChunk (exPy H).toPyEnv [("pair", ["of"])] "pair" [("of", .chunk ⟨"num", [("first", .vv ⟨.str "one", Option.none, [], []⟩)]⟩)] = ([("pair", ["of"])], .ok ⟨"pair",
    [("of", .vv ⟨.chunk "num" [("first", .vv ⟨.str "one", Option.none, [], []⟩)], Option.none, [], []⟩)]⟩) := rfl
  have h1 := C91_chunk_partial (name := "of") (d := ⟨"num", [("first", .vv ⟨.str "one", Option.none, [], []⟩)]⟩) (st := st) (by decide) hm rfl (by simp) rfl
  exact ⟨_, _, rfl, h1⟩

end Verif.Props
