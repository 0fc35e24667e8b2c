import Verif.Lemmas.ChunkType
import Verif.Lemmas.Words
import Verif.Spec.Chunk
/-! # Properties C09 and C10: creating chunks and chunk types -/
namespace Verif.Props
open Verif Verif.Spec

/-- An example environment: every non-empty name is legal, sets keep their order. -/
def exEnv : PyEnv := ⟨⟨id, fun _ => List.Perm.refl _⟩, fun s => s != "", fun s => s != ""⟩

/-- The whole of C10. -/
def C10_full : Prop := ∀ (E : PyEnv) (reg : Reg) (name : String) (a : FieldArg) (incl given : List String), Given a given →
  (∀ reg', chunktype E reg name a incl = .ok reg' →
    (∃ fs, alook name reg' = some fs ∧ FieldsSorted fs ∧ fs.Nodup ∧
      (∀ f, f ∈ fs ↔ f ∈ given ∨ ∃ p ∈ incl, HasField reg p f)) ∧
    ∀ t, t ≠ name → alook t reg' = alook t reg) ∧
  ((∃ reg', chunktype E reg name a incl = .ok reg') ↔
    ¬ SpecialMismatch name a ∧ (∀ p ∈ incl, ∃ fs, alook p reg = some fs) ∧ E.typeOk name = true ∧
      (∀ f, (f ∈ given ∨ ∃ p ∈ incl, HasField reg p f) → E.fieldOk f = true) ∧ (incl = [] → given.Nodup) ∧
      "isa" ∉ given) ∧
  ((SpecialMismatch name a ∨ (∃ p ∈ incl, alook p reg = Option.none) ∨ "isa" ∈ given) →
    chunktype E reg name a incl = .error .actr)

/-- C10 is false: a slot named `isa` is accepted. -/
theorem C10_refuted : ¬ C10_full := by
  intro h
  have h1 := (h exEnv [] "t" (.names ["isa"]) [] ["isa"] rfl).2.2 (.inr (.inr (by simp)))
  obtain ⟨reg', h2⟩ := chunktype_total (E := exEnv) (reg := []) (name := "t") (a := .names ["isa"]) (incl := [])
    (by rintro ⟨s, hm, _⟩; simp [specialTypes] at hm) (by simp) (by decide) (by simp [FieldArg.list, exEnv])
    (by simp [FieldArg.list])
  rw [h1] at h2; cases h2

/-- C10 without the claim that `isa` is rejected: a successful call defines a type whose slots are exactly the given ones
and those of all parents, sorted and without duplicates, and changes no other type; it succeeds exactly when special types
are not redefined, all parents exist and names are legal (and distinct, if there is no parent); a redefined special type or
an unknown parent raises ACTRError. Since `chunktype` updates the registry in its last step, an exception leaves it as it
was. -/
theorem C10_partial (E : PyEnv) (reg : Reg) (name : String) (a : FieldArg) (incl given : List String) (hg : Given a given) :
    (∀ reg', chunktype E reg name a incl = .ok reg' →
      (∃ fs, alook name reg' = some fs ∧ FieldsSorted fs ∧ fs.Nodup ∧
        (∀ f, f ∈ fs ↔ f ∈ given ∨ ∃ p ∈ incl, HasField reg p f)) ∧
      ∀ t, t ≠ name → alook t reg' = alook t reg) ∧
    ((∃ reg', chunktype E reg name a incl = .ok reg') ↔
      ¬ SpecialMismatch name a ∧ (∀ p ∈ incl, ∃ fs, alook p reg = some fs) ∧ E.typeOk name = true ∧
        (∀ f, (f ∈ given ∨ ∃ p ∈ incl, HasField reg p f) → E.fieldOk f = true) ∧ (incl = [] → given.Nodup)) ∧
    ((SpecialMismatch name a ∨ (∃ p ∈ incl, alook p reg = Option.none)) →
      chunktype E reg name a incl = .error .actr) := by
  have hl := given_list hg
  subst hl
  refine ⟨?_, ?_, ?_⟩
  · intro reg' h
    obtain ⟨fs, rfl, h1, h2, _⟩ := chunktype_ok h
    refine ⟨⟨fs, by simp [alook_aset], h1, h1.nodup, h2⟩, ?_⟩
    intro t ht; simp [alook_aset, ht]
  · constructor
    · rintro ⟨reg', h⟩
      obtain ⟨fs, rfl, h1, h2, h3, h4, h5, h6, h7⟩ := chunktype_ok h
      exact ⟨h6, h5, h4, fun f hf => h3 f ((h2 f).mpr hf), h7⟩
    · rintro ⟨h1, h2, h3, h4, h5⟩
      exact chunktype_total h1 h2 h3 h4 h5
  · intro h
    by_cases hs : SpecialMismatch name a
    · exact (chunktype_eq E reg name a incl).1 hs
    · rcases h with h | ⟨p, hp, hn⟩
      · exact absurd h hs
      · rw [(chunktype_eq E reg name a incl).2 hs]
        cases hi : inheritLoop reg (sortFields a.list) [] incl with
        | error e => rw [inheritLoop_err _ _ _ _ hi]
        | ok r =>
          obtain ⟨fs, hfs⟩ := (inheritLoop_ok incl _ [] r (by simp) hi).2.2.2 p hp
          rw [hn] at hfs; cases hfs

/-- Every argument means some list of names, so C10_partial applies to every call. -/
example (a : FieldArg) : ∃ l, Given a l := given_exists a

/-- A string with commas and blanks. -/
example : Given (.text "b, a") ["b", "a"] := by
  refine ⟨[['b'], ['a']], ?_, rfl⟩
  have h : WordsOf ([] ++ ['b'] ++ ([',', ' '] ++ ['a'] ++ [])) [['b'], ['a']] :=
    .word (by simp) (by simp) (by simp [IsSep]) (by simp [IsSep]) (.word (by simp [IsSep]) (by simp) (by simp [IsSep]) (by simp)
      (.done (by simp)))
  exact h

/-- A successful call with a parent that shares a slot, and one with an unknown parent. -/
example : (∃ reg', chunktype exEnv [("p", ["a", "c"])] "t" (.names ["b", "a"]) ["p"] = .ok reg') ∧
    chunktype exEnv [("p", ["a", "c"])] "t" (.names ["b", "a"]) ["q"] = .error .actr ∧
    chunktype exEnv [] "_manual" (.names ["b"]) [] = .error .actr := by
  refine ⟨?_, ?_, ?_⟩
  · refine ((C10_partial exEnv _ "t" (.names ["b", "a"]) ["p"] _ rfl).2.1).mpr ⟨?_, ?_, by decide, ?_, by simp⟩
    · rintro ⟨s, hm, _⟩; simp [specialTypes] at hm
    · simp [alook]
    · intro f hf
      simp [HasField, alook] at hf
      rcases hf with (rfl | rfl) | rfl | rfl <;> decide
  · exact (C10_partial exEnv _ "t" (.names ["b", "a"]) ["q"] _ rfl).2.2 (.inr ⟨"q", by simp, by simp [alook]⟩)
  · exact (C10_partial exEnv [] "_manual" (.names ["b"]) [] _ rfl).2.2 (.inl ⟨"cmd, key", by simp [specialTypes], by simp⟩)

/-- What a slot holds after it was given `a`: a chunk as its value, a parsed description as it is, a string as parsed by the
mini-language (C11). -/
def Holds (E : PyEnv) : SlotArg → VarVal → Prop
  | .chunk c, x => x = ⟨.chunk c.typ c.slots, Option.none, [], []⟩
  | .vv y, x => x = y
  | .text s, x => parseSlot E.toSetOrder s = .ok x

theorem holds_iff {E : PyEnv} {a : SlotArg} {x : VarVal} : Holds E a x ↔ a.convert E = .ok x := by
  cases a <;> simp [Holds, SlotArg.convert, Chunk.val, eq_comm]

/-- C09: a created chunk has its type's slots and the given ones, sorted; the given slots hold what was given and all others
are empty; the type has exactly the chunk's slots afterwards and no other type is touched. -/
theorem C09_slots {E : PyEnv} {reg : Reg} (hreach : Reach E reg) (typ : String) (dict : List (String × SlotArg))
    (hd : (dict.map Prod.fst).Nodup) (c : Chunk) (reg' : Reg) (h : createChunk E reg typ dict = (reg', .ok c)) :
    c.typ = typ ∧ FieldsSorted (c.slots.map Prod.fst) ∧
    (∀ f, f ∈ c.slots.map Prod.fst ↔ HasField reg typ f ∨ f ∈ dict.map Prod.fst) ∧
    (∀ f a, (f, a) ∈ dict → ∃ x, Holds E a x ∧ (f, SlotOf.vv x) ∈ c.slots) ∧
    (∀ f, HasField reg typ f → f ∉ dict.map Prod.fst → (f, SlotOf.empty) ∈ c.slots) ∧
    alook typ reg' = some (c.slots.map Prod.fst) ∧
    (∀ t, t ≠ typ → alook t reg' = alook t reg) := by
  have hr := regOk_reach hreach
  cases hv : convertAll E dict with
  | error e => simp only [createChunk, hv, Prod.mk.injEq, reduceCtorEq, and_false] at h
  | ok vals =>
    rcases createChunk_cases (typ := typ) hr hd hv with ⟨_, sl, reg'', h', hs, hl, ht, ho, _⟩ | ⟨_, e, h', _⟩
    · rw [h'] at h
      simp only [Prod.mk.injEq, Except.ok.injEq] at h
      obtain ⟨rfl, rfl⟩ := h
      obtain ⟨hk, hcv⟩ := convertAll_ok hv
      have hkeys : (vals.map (fun p => (p.1, (SlotOf.vv p.2 : Slot)))).map Prod.fst = dict.map Prod.fst := by
        rw [← hk]; simp [Function.comp_def]
      have hnv : ((vals.map (fun p => (p.1, (SlotOf.vv p.2 : Slot)))).map Prod.fst).Nodup := by rw [hkeys]; exact hd
      have hF : ∀ f, f ∈ (alook typ reg).getD [] ↔ HasField reg typ f := by
        intro f; cases he : alook typ reg <;> simp [HasField, he]
      refine ⟨rfl, hs, ?_, ?_, ?_, ht, ho⟩
      · intro f
        rw [mem_keys_iff]
        simp only [hl f]
        cases he : alook f (vals.map (fun p => (p.1, (SlotOf.vv p.2 : Slot)))) with
        | some s =>
          have : f ∈ dict.map Prod.fst := hkeys ▸ mem_keys_iff.mpr ⟨s, he⟩
          simp only [Option.some_or, this, or_true, iff_true]; exact ⟨s, rfl⟩
        | none =>
          have : f ∉ dict.map Prod.fst := by
            intro hm; rw [← hkeys] at hm; obtain ⟨s, h⟩ := mem_keys_iff.mp hm; rw [he] at h; cases h
          simp only [Option.none_or, this, or_false, ← hF f]
          split <;> simp_all
      · intro f a hm
        obtain ⟨x, hx, hmx⟩ := hcv f a hm
        refine ⟨x, holds_iff.mpr hx, alook_mem ?_⟩
        rw [hl f, alook_of_mem (a := SlotOf.vv x) hnv (List.mem_map.mpr ⟨(f, x), hmx, rfl⟩)]; rfl
      · intro f hf hn
        apply alook_mem
        rw [hl f]
        cases he : alook f (vals.map (fun p => (p.1, (SlotOf.vv p.2 : Slot)))) with
        | some s => exact absurd (hkeys ▸ mem_keys_iff.mpr ⟨s, he⟩) hn
        | none => simp [(hF f).mpr hf]
    · rw [h'] at h
      simp only [Prod.mk.injEq, reduceCtorEq, and_false] at h

/-- C09: when a chunk can be created: all slot strings are well formed, and either the type is known and has all given slots,
or the type is not a special one and all names are legal. -/
theorem C09_success {E : PyEnv} {reg : Reg} (hreach : Reach E reg) (typ : String) (dict : List (String × SlotArg))
    (hd : (dict.map Prod.fst).Nodup) :
    (∃ c, (createChunk E reg typ dict).2 = .ok c) ↔
      (∀ f a, (f, a) ∈ dict → ∃ x, Holds E a x) ∧
      ((∃ fs, alook typ reg = some fs ∧ ∀ f ∈ dict.map Prod.fst, f ∈ fs) ∨
        (typ ≠ "_manual" ∧ typ ≠ "_visual" ∧ typ ≠ "_visuallocation" ∧ E.typeOk typ = true ∧
          ∀ f ∈ dict.map Prod.fst, E.fieldOk f = true)) := by
  have hr := regOk_reach hreach
  have hsp : ¬ IsSpecial typ ↔ typ ≠ "_manual" ∧ typ ≠ "_visual" ∧ typ ≠ "_visuallocation" := by
    constructor
    · intro h
      refine ⟨?_, ?_, ?_⟩ <;> (rintro rfl; apply h; simp [IsSpecial, specialTypes])
    · rintro ⟨h1, h2, h3⟩ ⟨s, hs⟩
      simp only [specialTypes, List.mem_cons, Prod.mk.injEq, List.not_mem_nil, or_false] at hs
      rcases hs with ⟨h, _⟩ | ⟨h, _⟩ | ⟨h, _⟩
      · exact h1 h
      · exact h2 h
      · exact h3 h
  cases hv : convertAll E dict with
  | error e =>
    obtain ⟨f, a, hm, ha⟩ := convertAll_err hv
    constructor
    · rintro ⟨c, hc⟩; simp [createChunk, hv] at hc
    · rintro ⟨h, _⟩
      obtain ⟨x, hx⟩ := h f a hm
      rw [holds_iff, ha] at hx; cases hx
  | ok vals =>
    have h1 : ∀ f a, (f, a) ∈ dict → ∃ x, Holds E a x := by
      intro f a hm
      obtain ⟨x, hx, _⟩ := (convertAll_ok hv).2 f a hm
      exact ⟨x, holds_iff.mpr hx⟩
    rcases createChunk_cases (typ := typ) hr hd hv with ⟨hc, sl, reg'', h', _⟩ | ⟨hc, e, h', _⟩
    · constructor
      · intro _
        refine ⟨h1, ?_⟩
        rcases hc with hc | ⟨a, b, c⟩
        · exact .inl hc
        · obtain ⟨x, y, z⟩ := hsp.mp a; exact .inr ⟨x, y, z, b, c⟩
      · intro _; exact ⟨_, by rw [h']⟩
    · constructor
      · rintro ⟨c, h⟩; rw [h'] at h; cases h
      · rintro ⟨_, h⟩
        exfalso; apply hc
        rcases h with h | ⟨x, y, z, b, c⟩
        · exact .inl h
        · exact .inr ⟨hsp.mpr ⟨x, y, z⟩, b, c⟩

/-- C09: if no chunk is created, no type has changed. -/
theorem C09_failure {E : PyEnv} {reg : Reg} (hreach : Reach E reg) (typ : String) (dict : List (String × SlotArg))
    (hd : (dict.map Prod.fst).Nodup) (e : PyErr) (reg' : Reg) (h : createChunk E reg typ dict = (reg', .error e)) :
    reg' = reg := by
  cases hv : convertAll E dict with
  | error e' => simp only [createChunk, hv, Prod.mk.injEq] at h; exact h.1.symm
  | ok vals =>
    rcases createChunk_cases (typ := typ) (regOk_reach hreach) hd hv with ⟨_, sl, reg'', h', _⟩ | ⟨_, e', h', _⟩
    · rw [h'] at h; simp only [Prod.mk.injEq, reduceCtorEq, and_false] at h
    · rw [h'] at h; simp only [Prod.mk.injEq] at h; exact h.1.symm

/-- A reachable registry with a type that is extended by creating a chunk with an unknown slot. -/
example : ∃ reg, Reach exEnv reg ∧ HasField reg "t" "a" ∧
    ∃ c, (createChunk exEnv reg "t" [("b", .vv ⟨.str "1", Option.none, [], []⟩)]).2 = .ok c ∧
      c.slots.map Prod.fst = ["a", "b"] := by
  have h1 : ∃ reg', chunktype exEnv [] "t" (.names ["a"]) [] = .ok reg' :=
    ((C10_partial exEnv [] "t" (.names ["a"]) [] _ rfl).2.1).mpr
      ⟨by rintro ⟨s, hm, _⟩; simp [specialTypes] at hm, by simp, by decide, by simp [exEnv], by simp⟩
  obtain ⟨reg', h1⟩ := h1
  have hre : Reach exEnv reg' := .type .empty h1
  obtain ⟨⟨fs, hfs, _, _, hmem⟩, _⟩ := (C10_partial exEnv [] "t" (.names ["a"]) [] _ rfl).1 reg' h1
  have hfa : ∀ f, HasField reg' "t" f ↔ f = "a" := by
    intro f; simp [HasField, hfs, hmem]
  refine ⟨reg', hre, (hfa "a").mpr rfl, ?_⟩
  obtain ⟨c, hc⟩ := (C09_success hre "t" [("b", .vv ⟨.str "1", Option.none, [], []⟩)] (by simp)).mpr
    ⟨by intro f a hm; simp at hm; obtain ⟨rfl, rfl⟩ := hm; exact ⟨_, rfl⟩,
      .inr ⟨by decide, by decide, by decide, by decide, by simp [exEnv]⟩⟩
  refine ⟨c, hc, ?_⟩
  obtain ⟨_, hsorted, hkeys, _⟩ := C09_slots hre "t" [("b", .vv ⟨.str "1", Option.none, [], []⟩)] (by simp) c
    (createChunk exEnv reg' "t" [("b", .vv ⟨.str "1", Option.none, [], []⟩)]).1 (by rw [← hc])
  have hperm : (c.slots.map Prod.fst).Perm ["a", "b"] := by
    rw [List.perm_ext_iff_of_nodup hsorted.nodup (by simp)]
    intro f; rw [hkeys, hfa]; simp
  have hsab : FieldsSorted ["a", "b"] := by
    simp only [FieldsSorted, List.pairwise_cons, List.mem_cons, List.not_mem_nil, or_false, forall_eq, false_implies,
      implies_true, List.Pairwise.nil, and_true]
    decide
  exact List.Perm.eq_of_pairwise (fun a b _ _ h1 h2 => absurd (String.lt_trans h1 h2) (String.lt_irrefl _)) hsorted hsab hperm

end Verif.Props
