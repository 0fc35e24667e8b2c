import Verif.Lemmas.Buffer
import Verif.Props.ChunkType
import Verif.Props.BoundVars
import Verif.Props.StringSplit
/-! # Properties C15, C16 and C17: buffers -/
namespace Verif.Props
open Verif Verif.Spec

/-- Each operation leaves at most one chunk in a buffer that had at most one, whether it succeeds or raises. -/
theorem step_atMostOne (P : Py) (k : BufKind) (st : BState) (op : BufOp) (h : st.data.length ≤ 1) :
    (st.step P k op).1.data.length ≤ 1 := by
  have hadd : ∀ (st : BState) e, (st.bufferAdd e).1.data.length ≤ 1 := by
    intro st e; cases e <;> simp [BState.bufferAdd]
  have hclear : ∀ (st : BState) t hv, st.data.length ≤ 1 → (st.clear P k t hv).1.data.length ≤ 1 := by
    intro st t hv h
    unfold BState.clear
    split
    · simp
    · split
      · exact h
      · next c rest hd =>
        rw [hd] at h
        split
        · rw [hd]; exact h
        · simp only [BState.harvest]
          simp only [List.length_cons] at h
          omega
  have haddk : ∀ (k' : BufKind) (st : BState) e t hv, k' = k → st.data.length ≤ 1 → (st.add P k' e t hv).1.data.length ≤ 1 := by
    intro k' st e t hv hk h
    subst hk
    have hc := hclear st t hv h
    unfold BState.add
    split
    · exact hadd _ _
    · exact h
    · split
      · exact hadd _ _
      · next st' e' he => rw [he] at hc; exact hc
  cases op with
  | add e t hv => exact haddk k st e t hv rfl h
  | clear t hv => exact hclear st t hv h
  | modify o bv =>
    simp only [BState.step, BState.modify]
    split
    · exact h
    · next elem rest hd =>
      have hr : rest = [] := by
        rw [hd] at h; simpa using h
      subst hr
      split
      · simp
      · split
        · simp
        · simp [setAddChunk]
  | create o bv hv =>
    simp only [BState.step]
    split
    · next hk =>
      simp only [BState.create]
      split
      · exact h
      · split
        · exact h
        · exact haddk .goal _ _ _ _ hk.symm h
    · exact h
  | discard c =>
    simp only [BState.step, BState.discard]
    exact le_trans (List.length_filter_le _ _) h
  | pop =>
    simp only [BState.step, BState.pop]
    split
    · exact h
    · exact le_trans (List.length_filter_le _ _) h

/-- C15: after any history of operations on a buffer of any kind, successful or failing, it holds at most one chunk. -/
theorem C15_atMostOne (P : Py) (k : BufKind) (st : BState) (ops : List BufOp) (h : st.data.length ≤ 1) :
    (st.run P k ops).data.length ≤ 1 := by
  induction ops generalizing st with
  | nil => exact h
  | cons op r ih => exact ih _ (step_atMostOne P k st op h)

/-- A new buffer is empty or given one chunk, so the property applies to it. -/
example (P : Py) (k : BufKind) (ops : List BufOp) (c : Chunk) : (BState.run P k ⟨[], [c], some 0, [DecMem.empty]⟩ ops).data.length ≤ 1 :=
  C15_atMostOne P k _ ops (by simp)

/-- What C16 says about a successful modification. -/
def ModifyOk (P : Py) (st st' : BState) (elem other : Chunk) (bv : BV) : Prop :=
  ∃ c, st'.data = [c] ∧ c.typ = other.typ ∧ st'.mems = st.mems ∧ st'.dm = st.dm ∧
    (∀ n x, MentionsSlot other n x → ∃ r, (n, SlotOf.vv r) ∈ c.slots ∧ r.vars = Option.none ∧ r.negvars = [] ∧
      (PlainRequest bv x → Ordinary bv x → Resolves bv x r)) ∧
    (∀ n s, (n, s) ∈ elem.slots → (¬ ∃ x, MentionsSlot other n x) → ∃ y, KeptAs s y ∧ (n, SlotOf.vv y) ∈ c.slots) ∧
    (∀ n s, (n, s) ∈ c.slots → (∃ x, MentionsSlot other n x) ∨ (∃ s', (n, s') ∈ elem.slots) ∨
      (HasField st.reg other.typ n ∧ s = .empty))

/-- The whole of C16. -/
def C16_full : Prop := ∀ (P : Py) (st st' : BState) (elem other : Chunk) (bv : BV) (r : Except PyErr Unit),
  P.H.CollisionFree → Reach P.toPyEnv st.reg → Named elem → Named other → st.data = [elem] →
  st.modify P other bv = (st', r) →
    (r = .ok () → ModifyOk P st st' elem other bv) ∧ (∀ e, r = .error e → st'.data = st.data)

/-- A failing modification of a full buffer always empties it: the chunk is lost. -/
theorem C16_failure (P : Py) (st st' : BState) (elem other : Chunk) (bv : BV) (e : PyErr) (hd : st.data = [elem])
    (h : st.modify P other bv = (st', .error e)) : st'.data = [] ∧ st'.mems = st.mems := by
  simp only [BState.modify, hd] at h
  split at h
  · simp only [Prod.mk.injEq] at h; obtain ⟨rfl, _⟩ := h; exact ⟨rfl, rfl⟩
  · split at h
    · simp only [Prod.mk.injEq] at h; obtain ⟨rfl, _⟩ := h; exact ⟨rfl, rfl⟩
    · simp at h

/-- Modifying an empty buffer raises KeyError and changes nothing. -/
theorem C16_empty (P : Py) (st : BState) (other : Chunk) (bv : BV) (hd : st.data = []) :
    st.modify P other bv = (st, .error .key) := by simp [BState.modify, hd]

/-- C16 is false: a modification with an unbound variable fails and empties the buffer. -/
theorem C16_refuted : ¬ C16_full := by
  intro h
  obtain ⟨H, cf⟩ := exists_collisionFree
  let elem : Chunk := ⟨"t", [("a", .vv ⟨.str "1", Option.none, [], []⟩)]⟩
  let other : Chunk := ⟨"t", [("a", .vv ⟨.none, some "x", [], []⟩)]⟩
  let st : BState := ⟨[], [elem], some 0, [DecMem.empty]⟩
  have hm : st.modify (exPy H) other ⟨[], []⟩ = ({ st with data := [] }, .error .actr) := by
    have h1 : removeUnused H other = [("a", ⟨.none, some "x", [], []⟩)] := by
      simp [removeUnused, other, optStrTruthy]
    have h2 : checkBoundVars (exPy H) ⟨[], []⟩ true (.vv ⟨.none, some "x", [], []⟩) = .error .actr := by
      simp [checkBoundVars_eq, splitting, cbvValues, CbvState.init, Val.truthy, cbvCombine_none, cbvVars, optStrTruthy,
        BV.get, alook, Except.bind]
    have h3 : (exPy H).H = H := rfl
    simp [BState.modify, st, h3, h1, resolveAll, h2]
  have := (h (exPy H) st _ elem other ⟨[], []⟩ _ cf .empty (by simp [Named, elem]) (by simp [Named, other]) rfl hm).2 .actr rfl
  simp [st] at this

theorem check_vars_none {P : Py} {bv : BV} {ni : Bool} {e : Slot} {r : VarVal} (h : checkBoundVars P bv ni e = .ok r) :
    r.vars = Option.none ∧ r.negvars = [] := by
  have fin : ∀ st, cbvFinish P st = .ok r → r.vars = Option.none ∧ r.negvars = [] := by
    intro st h
    simp only [cbvFinish] at h
    split at h
    · split at h
      · cases h; exact ⟨rfl, rfl⟩
      · cases h
    · cases h; exact ⟨rfl, rfl⟩
  simp only [checkBoundVars, Except.bind] at h
  repeat (split at h; · cases h)
  exact fin _ h

/-- C16 for successful modifications: exactly the mentioned slots get their resolved values (see C13), every other slot of
the chunk is kept, the other slots of the modifier's type are empty, the type is the modifier's, and memories do not
change. -/
theorem C16_partial (P : Py) (st st' : BState) (elem other : Chunk) (bv : BV) (cf : P.H.CollisionFree)
    (hreach : Reach P.toPyEnv st.reg) (he : Named elem) (ho : Named other) (hd : st.data = [elem])
    (h : st.modify P other bv = (st', .ok ())) : ModifyOk P st st' elem other bv := by
  simp only [BState.modify, hd] at h
  split at h
  · simp at h
  · next mods hmods =>
    split at h
    · simp at h
    · next reg' c hc =>
      simp only [Prod.mk.injEq, and_true] at h
      subst h
      obtain ⟨hk, hall, hback⟩ := resolveAll_ok hmods
      have hkn : (mods.map Prod.fst).Nodup := by
        rw [hk]; exact (removeUnused_sublist P.H other).nodup ho
      have hmk : ((mods.map (fun p => (p.1, SlotArg.vv p.2))).map Prod.fst) = mods.map Prod.fst := by
        simp [Function.comp_def]
      have hek : ((elem.slots.map (fun p => (p.1, slotToArg p.2))).map Prod.fst) = elem.slots.map Prod.fst := by
        simp [Function.comp_def]
      have hnd : ((modifyDict elem mods).map Prod.fst).Nodup := nodup_dictUpdate _ _ (by rw [hek]; exact he)
      have hlook : ∀ f, alook f (modifyDict elem mods) = (alook f (mods.map (fun p => (p.1, SlotArg.vv p.2)))).or
          (alook f (elem.slots.map (fun p => (p.1, slotToArg p.2)))) := fun f =>
        alook_dictUpdate f _ _ (by rw [hmk]; exact hkn)
      obtain ⟨ht, _, hslots, hgiven, hempty, _, _⟩ := C09_slots hreach other.typ _ hnd c reg' hc
      have hment : ∀ n, (∃ x, MentionsSlot other n x) ↔ n ∈ mods.map Prod.fst := by
        intro n
        rw [hk]
        constructor
        · rintro ⟨x, hx⟩; exact List.mem_map_of_mem (f := Prod.fst) ((mem_removeUnused cf other n x).mpr hx)
        · intro hn
          obtain ⟨⟨m, x⟩, hx, rfl⟩ := List.mem_map.mp hn
          exact ⟨x, (mem_removeUnused cf other m x).mp hx⟩
      refine ⟨c, by simp [setAddChunk], ht, rfl, rfl, ?_, ?_, ?_⟩
      · intro n x hx
        obtain ⟨r, hr, hm⟩ := hall n x ((mem_removeUnused cf other n x).mpr hx)
        have h1 : alook n (mods.map (fun p => (p.1, SlotArg.vv p.2))) = some (.vv r) :=
          alook_of_mem (by rw [hmk]; exact hkn) (List.mem_map.mpr ⟨(n, r), hm, rfl⟩)
        obtain ⟨y, hy, hm'⟩ := hgiven n (.vv r) (alook_mem (by rw [hlook, h1]; rfl))
        simp only [Holds] at hy; subst hy
        obtain ⟨hv, hn⟩ := check_vars_none hr
        refine ⟨y, hm', hv, hn, fun hp ho' => ?_⟩
        obtain ⟨h1, h2⟩ := C13_partial P bv true x cf hp ho'
        by_cases hi : Illegal bv true x
        · rw [h1 hi] at hr; cases hr
        · obtain ⟨r', hr', hres⟩ := h2 hi
          rw [hr] at hr'; cases hr'; exact hres
      · intro n s hs hnm
        have h1 : alook n (mods.map (fun p => (p.1, SlotArg.vv p.2))) = Option.none := by
          rw [alook_none_iff]
          intro a ha
          exact hnm ((hment n).mpr (hmk ▸ List.mem_map_of_mem (f := Prod.fst) ha))
        have h2 : alook n (elem.slots.map (fun p => (p.1, slotToArg p.2))) = some (slotToArg s) :=
          alook_of_mem (by rw [hek]; exact he) (List.mem_map.mpr ⟨(n, s), hs, rfl⟩)
        obtain ⟨y, hy, hm'⟩ := hgiven n (slotToArg s) (alook_mem (by rw [hlook, h1, h2]; rfl))
        refine ⟨y, ?_, hm'⟩
        cases s with
        | empty =>
          simp only [slotToArg, Holds] at hy
          rw [C11_plain _ "None" (by decide)] at hy
          cases hy; rfl
        | vv x => exact hy
      · intro n s hs
        by_cases hm : ∃ x, MentionsSlot other n x
        · exact .inl hm
        by_cases hel : ∃ s', (n, s') ∈ elem.slots
        · exact .inr (.inl hel)
        refine .inr (.inr ?_)
        have hnk : n ∉ (modifyDict elem mods).map Prod.fst := by
          rw [mem_keys_iff]
          rintro ⟨a, ha⟩
          rw [hlook] at ha
          have h1 : alook n (mods.map (fun p => (p.1, SlotArg.vv p.2))) = Option.none := by
            rw [alook_none_iff]
            intro a ha
            exact hm ((hment n).mpr (hmk ▸ List.mem_map_of_mem (f := Prod.fst) ha))
          have h2 : alook n (elem.slots.map (fun p => (p.1, slotToArg p.2))) = Option.none := by
            rw [alook_none_iff]
            intro a ha
            obtain ⟨p, hp, hpe⟩ := List.mem_map.mp ha
            cases hpe
            exact hel ⟨p.2, hp⟩
          rw [h1, h2] at ha; cases ha
        have hf : HasField st.reg other.typ n := by
          rcases (hslots n).mp (List.mem_map_of_mem (f := Prod.fst) hs) with h | h
          · exact h
          · exact absurd h hnk
        refine ⟨hf, ?_⟩
        have hsn : (c.slots.map Prod.fst).Nodup := by
          have : FieldsSorted (c.slots.map Prod.fst) := (C09_slots hreach other.typ _ hnd c reg' hc).2.1
          exact this.nodup
        have h1 := alook_of_mem hsn (hempty n hf hnk)
        have h2 := alook_of_mem hsn hs
        rw [h1] at h2; exact (Option.some.inj h2).symm

/-- When a modification succeeds: every mentioned slot can be resolved, and the chunk type has all slots or can be
(re)defined. -/
theorem C16_success (P : Py) (st : BState) (elem other : Chunk) (bv : BV) (cf : P.H.CollisionFree)
    (hreach : Reach P.toPyEnv st.reg) (he : Named elem) (ho : Named other) (hd : st.data = [elem])
    (hres : ∀ n x, MentionsSlot other n x → PlainRequest bv x ∧ Ordinary bv x ∧ ¬ Illegal bv true x)
    (hty : (∃ fs, alook other.typ st.reg = some fs ∧
        ∀ n, ((∃ x, MentionsSlot other n x) ∨ ∃ s, (n, s) ∈ elem.slots) → n ∈ fs) ∨
      (other.typ ≠ "_manual" ∧ other.typ ≠ "_visual" ∧ other.typ ≠ "_visuallocation" ∧ P.typeOk other.typ = true ∧
        ∀ n, ((∃ x, MentionsSlot other n x) ∨ ∃ s, (n, s) ∈ elem.slots) → P.fieldOk n = true)) :
    ∃ st', st.modify P other bv = (st', .ok ()) := by
  have hall : ∀ l : List (String × VarVal), (∀ n x, (n, x) ∈ l → ∃ r, checkBoundVars P bv true (.vv x) = .ok r) →
      ∃ vs, resolveAll P bv true l = .ok vs := by
    intro l
    induction l with
    | nil => intro _; exact ⟨[], rfl⟩
    | cons p r ih =>
      intro h
      obtain ⟨n, x⟩ := p
      obtain ⟨v, hv⟩ := h n x (by simp)
      obtain ⟨vs, hvs⟩ := ih (fun m y hm => h m y (by simp [hm]))
      exact ⟨(n, v) :: vs, by simp [resolveAll, hv, hvs]⟩
  obtain ⟨mods, hmods⟩ := hall (removeUnused P.H other) (by
    intro n x hx
    obtain ⟨h1, h2, h3⟩ := hres n x ((mem_removeUnused cf other n x).mp hx)
    obtain ⟨r, hr, _⟩ := (C13_partial P bv true x cf h1 h2).2 h3
    exact ⟨r, hr⟩)
  obtain ⟨hk, _, hback⟩ := resolveAll_ok hmods
  have hkn : (mods.map Prod.fst).Nodup := by
    rw [hk]; exact (removeUnused_sublist P.H other).nodup ho
  have hmk : ((mods.map (fun p => (p.1, SlotArg.vv p.2))).map Prod.fst) = mods.map Prod.fst := by
    simp [Function.comp_def]
  have hek : ((elem.slots.map (fun p => (p.1, slotToArg p.2))).map Prod.fst) = elem.slots.map Prod.fst := by
    simp [Function.comp_def]
  have hnd : ((modifyDict elem mods).map Prod.fst).Nodup := nodup_dictUpdate _ _ (by rw [hek]; exact he)
  have hsrc : ∀ f a, (f, a) ∈ modifyDict elem mods →
      (∃ r, a = .vv r ∧ (f, r) ∈ mods) ∨ (∃ s, a = slotToArg s ∧ (f, s) ∈ elem.slots) := by
    intro f a hm
    have h1 := alook_of_mem hnd hm
    rw [modifyDict, alook_dictUpdate f _ _ (by rw [hmk]; exact hkn)] at h1
    cases h2 : alook f (mods.map (fun p => (p.1, SlotArg.vv p.2))) with
    | some b =>
      rw [h2] at h1; cases h1
      obtain ⟨q, hq, hqe⟩ := List.mem_map.mp (alook_mem h2)
      cases hqe; exact .inl ⟨_, rfl, hq⟩
    | none =>
      rw [h2] at h1
      obtain ⟨q, hq, hqe⟩ := List.mem_map.mp (alook_mem h1)
      cases hqe; exact .inr ⟨_, rfl, hq⟩
  have hkeys : ∀ f ∈ (modifyDict elem mods).map Prod.fst, (∃ x, MentionsSlot other f x) ∨ ∃ s, (f, s) ∈ elem.slots := by
    intro f hf
    obtain ⟨⟨g, a⟩, hm, rfl⟩ := List.mem_map.mp hf
    rcases hsrc g a hm with ⟨r, _, hr⟩ | ⟨s, _, hs⟩
    · obtain ⟨x, hx, _⟩ := hback g r hr
      exact .inl ⟨x, (mem_removeUnused cf other g x).mp hx⟩
    · exact .inr ⟨s, hs⟩
  obtain ⟨c, hc⟩ := (C09_success hreach other.typ _ hnd).mpr ⟨by
      intro f a hm
      rcases hsrc f a hm with ⟨r, rfl, _⟩ | ⟨s, rfl, _⟩
      · exact ⟨r, rfl⟩
      · cases s with
        | empty => exact ⟨_, C11_plain _ "None" (by decide)⟩
        | vv x => exact ⟨x, rfl⟩,
    hty.imp (fun ⟨fs, h1, h2⟩ => ⟨fs, h1, fun f hf => h2 f (hkeys f hf)⟩)
      (fun ⟨h1, h2, h3, h4, h5⟩ => ⟨h1, h2, h3, h4, fun f hf => h5 f (hkeys f hf)⟩)⟩
  rcases hcc : createChunk P.toPyEnv st.reg other.typ (modifyDict elem mods) with ⟨reg', r⟩
  rw [hcc] at hc; simp only at hc; subst hc
  exact ⟨_, by simp only [BState.modify, hd, hmods, hcc]; rfl⟩

/-- A modification that replaces one slot of two with the value of a variable succeeds. -/
example (H : PyHash) (cf : H.CollisionFree) : let elem : Chunk := ⟨"t", [("a", .vv ⟨.str "1", Option.none, [], []⟩), ("b", .empty)]⟩
    ∃ st', (BState.mk [] [elem] (some 0) [DecMem.empty]).modify (exPy H) ⟨"t", [("a", .vv ⟨.none, some "x", [], []⟩), ("c", .empty)]⟩
      ⟨[("x", .str "2")], []⟩ = (st', .ok ()) := by
  intro elem
  have hx : ∀ n x, MentionsSlot ⟨"t", [("a", .vv ⟨.none, some "x", [], []⟩), ("c", .empty)]⟩ n x → n = "a" ∧ x = ⟨.none, some "x", [], []⟩ := by
    rintro n x ⟨h, _⟩; simpa using h
  have hg : BV.get ⟨[("x", .str "2")], []⟩ "x" = some (.str "2") := by simp [BV.get, alook]
  have hdem : ∀ v, Demands ⟨[("x", .str "2")], []⟩ ⟨.none, some "x", [], []⟩ v → v = .str "2" := by
    rintro v (h | ⟨h, _, h'⟩)
    · exact absurd trivial h
    · simp only [Option.some.injEq] at h; subst h; rw [hg] at h'; exact (Option.some.inj h').symm
  refine C16_success (exPy H) _ elem _ _ cf .empty (by simp [Named, elem]) (by simp [Named]) rfl ?_ (.inr ⟨by decide, by decide, by decide, rfl, ?_⟩)
  · intro n x h
    obtain ⟨rfl, rfl⟩ := hx n x h
    refine ⟨⟨plainVal_none, by simp, ?_⟩, ⟨?_, ?_, by simp⟩, ?_⟩
    · intro y v h
      simp only [BV.get, alook] at h
      split at h
      · cases h; exact plainVal_str _
      · cases h
    · intro v hv; rw [hdem v hv]; simp [Blank]
    · intro v hv; rw [hdem v hv]
      exact ⟨fun h => absurd (Val.str.inj h) (by decide), fun h => absurd (Val.str.inj h) (by decide)⟩
    · rintro (⟨y, h, _, h'⟩ | ⟨y, h, _⟩ | ⟨_, h⟩ | ⟨v, w, h1, h2, h3⟩)
      · simp only [Option.some.injEq] at h; subst h; rw [hg] at h'; cases h'
      · cases h
      · simp at h
      · rw [hdem v h1, hdem w h2] at h3; exact h3 (by simp [SameVal])
  · rintro n (⟨x, h⟩ | ⟨s, h⟩)
    · rw [(hx n x h).1]; rfl
    · simp only [elem, List.mem_cons, Prod.mk.injEq, List.not_mem_nil, or_false] at h
      rcases h with ⟨rfl, _⟩ | ⟨rfl, _⟩ <;> rfl

/-- The whole of C17: clearing and overwriting harvest, and no operation of a history loses a chunk. -/
def C17_full : Prop := ∀ (P : Py) (k : BufKind) (st : BState) (ops : List BufOp) (c : Chunk), P.H.CollisionFree → k ≠ .motor →
  Plain c → (∀ d ∈ st.data, Plain d) → (∀ m ∈ st.mems, GoodMem m) → st.data.length ≤ 1 →
  (∀ op ∈ ops, Harvesting k st op) → total c (st.run P k ops) = total c st + puts c ops

/-- C17 is false: adding a chunk to a goal loses the previous one. -/
theorem C17_refuted : ¬ C17_full := by
  intro h
  obtain ⟨H, cf⟩ := exists_collisionFree
  let c : Chunk := ⟨"t", [("a", .vv ⟨.str "1", Option.none, [], []⟩)]⟩
  have hp : Plain c := by simp [Plain, c, PlainSlots, PlainSlot, PlainVal]
  have := h (exPy H) .goal ⟨[], [c], some 0, [DecMem.empty]⟩ [.add (some c) 0 (some 0)] c cf (by decide) hp (by simpa using hp)
    (by simp [DecMem.empty]; exact ⟨by simp, by simp⟩) (by simp)
    (by simp only [List.mem_singleton, forall_eq]
        exact ⟨fun d hd => (Option.some.inj hd) ▸ hp, 0, .inr ⟨by decide, .inl rfl⟩, by simp⟩)
  simp [total, BState.run, BState.step, BState.add, BState.bufferAdd, puts, nTraces, DecMem.empty] at this

/-- What harvesting does to the memory `m`: exactly one more trace for `c`, stamped with the rounded time; no other chunk's
traces change, no chunk appears except possibly `c`, stored activations do not change. -/
structure Harvested (m m' : DecMem) (c : Chunk) (t : ℚ) : Prop where
  good : GoodMem m'
  same : ∀ d l, Plain d → chunkContent d = chunkContent c → HasTraces m d l → ∃ r, IsRounded t r ∧ HasTraces m' d (l ++ [r])
  other : ∀ d l, Plain d → chunkContent d ≠ chunkContent c → HasTraces m d l → HasTraces m' d l
  keys : m'.data.map Prod.fst = m.data.map Prod.fst ∨ m'.data.map Prod.fst = m.data.map Prod.fst ++ [c]
  act : m'.act = m.act

theorem addOne_harvested {H : PyHash} (cf : H.CollisionFree) {m : DecMem} (hg : GoodMem m) {c : Chunk} (hc : Plain c) (t : ℚ) :
    Harvested m (m.addOne H c (.one t)) c t := by
  have hg' := addOne_good cf hg hc (.one t)
  refine ⟨hg', ?_, ?_, ?_, addOne_act _ _ _ _⟩
  · intro d l hd he hl
    refine ⟨round4 t, round4_isRounded t, ?_⟩
    rw [hasTraces_iff cf hg hd] at hl
    rw [hasTraces_iff cf hg' hd, addOne_data, cdLook_cdSet, if_pos ((ceq_content cf hc hd).mpr he.symm), hl,
      cdLook_congr ((ceq_content cf hc hd).mpr he.symm)]
    rfl
  · intro d l hd he hl
    rw [hasTraces_iff cf hg hd] at hl
    rw [hasTraces_iff cf hg' hd, addOne_data, cdLook_cdSet, if_neg (fun h => he ((ceq_content cf hc hd).mp h).symm), hl]
  · rw [addOne_data, cdSet_keys]
    split
    · exact .inl rfl
    · exact .inr rfl

theorem target_eq {k : BufKind} {st : BState} {hv : Option ℕ} {i : ℕ} (h : Target k st hv i) :
    (if k = .retrieval then st.dm else hv.or st.dm) = some i := by
  rcases h with ⟨rfl, h⟩ | ⟨hk, rfl | ⟨rfl, h⟩⟩
  · simpa using h
  · simp [hk]
  · simpa [hk] using h

theorem clear_eq {P : Py} {k : BufKind} {st : BState} {c : Chunk} {t : ℚ} {hv : Option ℕ} {i : ℕ} (hk : k ≠ .motor)
    (hd : st.data = [c]) (ht : Target k st hv i) :
    st.clear P k t hv = (({ st with data := [] } : BState).harvest P i c t, .ok ()) := by
  have := target_eq ht
  unfold BState.clear
  split
  · exact absurd rfl hk
  · simp only [hd, this]

/-- C17, clearing a goal, retrieval or visual buffer: the chunk is harvested into the target memory, no other memory
changes, the buffer is empty. -/
theorem C17_clear (P : Py) (cf : P.H.CollisionFree) (k : BufKind) (hk : k ≠ .motor) (st : BState) (c : Chunk) (hc : Plain c)
    (hd : st.data = [c]) (t : ℚ) (hv : Option ℕ) (i : ℕ) (ht : Target k st hv i) (m : DecMem) (hm : st.mems[i]? = some m)
    (hg : GoodMem m) :
    ∃ st' m', st.clear P k t hv = (st', .ok ()) ∧ st'.data = [] ∧ st'.dm = st.dm ∧ st'.mems[i]? = some m' ∧
      (∀ j, j ≠ i → st'.mems[j]? = st.mems[j]?) ∧ Harvested m m' c t := by
  refine ⟨_, m.addOne P.H c (.one t), clear_eq hk hd ht, rfl, rfl, ?_, ?_, addOne_harvested cf hg hc t⟩
  · simp [BState.harvest, List.getElem?_modify, hm]
  · intro j hj; simp [BState.harvest, List.getElem?_modify, Ne.symm hj]

/-- C17, overwriting a retrieval or visual buffer: the old chunk is harvested, the new one is in the buffer. -/
theorem C17_overwrite (P : Py) (cf : P.H.CollisionFree) (k : BufKind) (hk : k = .retrieval ∨ k = .visual) (st : BState)
    (c new : Chunk) (hc : Plain c) (hd : st.data = [c]) (t : ℚ) (hv : Option ℕ) (i : ℕ) (ht : Target k st hv i) (m : DecMem)
    (hm : st.mems[i]? = some m) (hg : GoodMem m) :
    ∃ st' m', st.add P k (some new) t hv = (st', .ok ()) ∧ st'.data = [new] ∧ st'.dm = st.dm ∧ st'.mems[i]? = some m' ∧
      (∀ j, j ≠ i → st'.mems[j]? = st.mems[j]?) ∧ Harvested m m' c t := by
  have hk' : k ≠ .motor := by rcases hk with rfl | rfl <;> decide
  obtain ⟨st', m', h1, h2, h3, h4, h5, h6⟩ := C17_clear P cf k hk' st c hc hd t hv i ht m hm hg
  refine ⟨{ st' with data := [new] }, m', ?_, rfl, h3, h4, h5, h6⟩
  rcases hk with rfl | rfl <;> simp [BState.add, h1, BState.bufferAdd]

/-- Without any memory to harvest into, clearing and overwriting raise AttributeError and change nothing: the chunk stays. -/
theorem C17_nomemory (P : Py) (k : BufKind) (hk : k ≠ .motor) (st : BState) (c : Chunk) (hd : st.data = [c]) (t : ℚ)
    (hm : st.dm = Option.none) : st.clear P k t Option.none = (st, .error .attribute) ∧
      (k ≠ .goal → ∀ e, st.add P k e t Option.none = (st, .error .attribute)) := by
  have h : st.clear P k t Option.none = (st, .error .attribute) := by
    unfold BState.clear
    split
    · exact absurd rfl hk
    · simp only [hd, hm, Option.or_none, ite_self]
  refine ⟨h, fun hg e => ?_⟩
  unfold BState.add
  split
  · exact absurd rfl hg
  · exact absurd rfl hk
  · rw [h]

/-- The invariant of harvesting histories. -/
structure Tidy (st : BState) : Prop where
  one : st.data.length ≤ 1
  plain : ∀ d ∈ st.data, Plain d
  mems : ∀ m ∈ st.mems, GoodMem m

theorem clear_total {P : Py} (cf : P.H.CollisionFree) {k : BufKind} (hk : k ≠ .motor) {st : BState} (ht : Tidy st) (c : Chunk)
    (t : ℚ) (hv : Option ℕ) (i : ℕ) (htg : Target k st hv i) (hi : i < st.mems.length) :
    ∃ st', st.clear P k t hv = (st', .ok ()) ∧ Tidy st' ∧ st'.data = [] ∧ st'.dm = st.dm ∧
      st'.mems.length = st.mems.length ∧ total c st' = total c st := by
  rcases hd : st.data with _ | ⟨d, r⟩
  · refine ⟨st, ?_, ht, hd, rfl, rfl, rfl⟩
    unfold BState.clear
    split
    · exact absurd rfl hk
    · simp only [hd]
  · have hr : r = [] := by
      have := ht.one; rw [hd] at this; simpa using this
    subst hr
    have hpd : Plain d := ht.plain d (by rw [hd]; simp)
    refine ⟨_, clear_eq hk hd htg, ⟨by simp [BState.harvest], by simp [BState.harvest], ?_⟩, rfl, rfl,
      by simp [BState.harvest], ?_⟩
    · intro m hm
      obtain ⟨j, hj⟩ := List.mem_iff_getElem?.mp hm
      simp only [BState.harvest, List.getElem?_modify] at hj
      cases hmj : st.mems[j]? with
      | none => simp [hmj] at hj
      | some m0 =>
        have hg0 := ht.mems m0 (List.mem_of_getElem? hmj)
        rw [hmj] at hj
        by_cases hij : i = j
        · simp [hij] at hj; rw [← hj]; exact addOne_good cf hg0 hpd _
        · simp [hij] at hj; rw [← hj]; exact hg0
    · simp only [total, BState.harvest, hd, List.map_nil, List.sum_nil, List.map_cons, List.sum_cons]
      rw [sum_modify (nTraces c) _ _ st.mems i hi (fun m hm => nTraces_addOne cf hpd m (ht.mems m hm).plain t)]
      omega

theorem harvesting_congr {k : BufKind} {st st' : BState} {op : BufOp} (h1 : st'.dm = st.dm) (h2 : st'.mems.length = st.mems.length)
    (h : Harvesting k st op) : Harvesting k st' op := by
  cases op <;> simp_all [Harvesting, Target]

/-- C17 over histories of the retrieval buffer and visual buffers: every chunk ever put into the buffer is accounted for by
one trace in some memory or by being in the buffer still. What is missing: goals, which lose a chunk when another is added
(`C17_refuted`), and operations other than adding and clearing. -/
theorem C17_partial (P : Py) (k : BufKind) (st : BState) (ops : List BufOp) (c : Chunk) (cf : P.H.CollisionFree)
    (hk : k = .retrieval ∨ k = .visual) (hp : ∀ d ∈ st.data, Plain d) (hg : ∀ m ∈ st.mems, GoodMem m)
    (h1 : st.data.length ≤ 1) (hops : ∀ op ∈ ops, Harvesting k st op) :
    total c (st.run P k ops) = total c st + puts c ops := by
  have hk' : k ≠ .motor := by rcases hk with rfl | rfl <;> decide
  have key : ∀ (ops : List BufOp) (st : BState), Tidy st → (∀ op ∈ ops, Harvesting k st op) →
      total c (st.run P k ops) = total c st + puts c ops := by
    intro ops
    induction ops with
    | nil => intro st _ _; rfl
    | cons op r ih =>
      intro st ht hops
      have hstep : ∃ st', (st.step P k op).1 = st' ∧ Tidy st' ∧ st'.dm = st.dm ∧ st'.mems.length = st.mems.length ∧
          total c st' + puts c r = total c st + puts c (op :: r) := by
        have h := hops op (by simp)
        cases op with
        | clear t hv =>
          obtain ⟨i, htg, hi⟩ := h
          obtain ⟨st', h1, h2, _, h3, h4, h5⟩ := clear_total cf hk' ht c t hv i htg hi
          exact ⟨st', by simp [BState.step, h1], h2, h3, h4, by simp [h5, puts]⟩
        | add e t hv =>
          obtain ⟨hpe, i, htg, hi⟩ := h
          obtain ⟨st', h1, h2, h0, h3, h4, h5⟩ := clear_total cf hk' ht c t hv i htg hi
          have hadd : st.add P k e t hv = st'.bufferAdd e := by
            rcases hk with rfl | rfl <;> simp [BState.add, h1]
          cases e with
          | none =>
            exact ⟨{ st' with data := [] }, by simp [BState.step, hadd, BState.bufferAdd], ⟨by simp, by simp, h2.mems⟩, h3, h4,
              by rw [← h5]; simp [total, h0, puts]⟩
          | some d =>
            refine ⟨{ st' with data := [d] }, by simp [BState.step, hadd, BState.bufferAdd],
              ⟨by simp, by simpa using hpe d rfl, h2.mems⟩, h3, h4, ?_⟩
            rw [← h5]; simp [total, h0, puts]; omega
        | _ => exact h.elim
      obtain ⟨st', h1, h2, h3, h4, h5⟩ := hstep
      rw [← h5, ← ih st' h2 (fun o ho => harvesting_congr h3 h4 (hops o (by simp [ho])))]
      simp [BState.run, h1]
  exact key ops st ⟨h1, hp, hg⟩ hops

/-- A retrieval buffer that gets a chunk twice and is cleared: two traces more than before. -/
example (H : PyHash) (cf : H.CollisionFree) (c : Chunk) (hc : Plain c) :
    total c ((BState.mk [] [] (some 0) [DecMem.empty]).run (exPy H) .retrieval
      [.add (some c) 1 Option.none, .add (some c) 2 Option.none, .clear 3 Option.none]) = 2 := by
  have ht : Target .retrieval ⟨[], [], some 0, [DecMem.empty]⟩ Option.none 0 := .inl ⟨rfl, rfl⟩
  rw [C17_partial (exPy H) .retrieval _ _ c cf (.inl rfl) (by simp) (by simp [DecMem.empty]; exact ⟨by simp, by simp⟩) (by simp)]
  · simp [total, puts, nTraces, DecMem.empty]
  · have hadd : ∀ t, Harvesting .retrieval ⟨[], [], some 0, [DecMem.empty]⟩ (.add (some c) t Option.none) :=
      fun t => ⟨fun d hd => (Option.some.inj hd) ▸ hc, 0, ht, by simp⟩
    have hcl : Harvesting .retrieval ⟨[], [], some 0, [DecMem.empty]⟩ (.clear 3 Option.none) := ⟨0, ht, by simp⟩
    simp [hadd, hcl]

end Verif.Props
