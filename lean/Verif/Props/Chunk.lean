import Verif.Lemmas.Partial
/-!
# Properties C01–C07: chunk equality and matching

`H : PyHash` stands for CPython's hash functions and set order; `exists_collisionFree` shows that the hypothesis
`H.CollisionFree` can be met.
-/
namespace Verif.Props
open Verif Verif.Spec

/-- The hypothesis `CollisionFree` used below is satisfiable. -/
example : ∃ H : PyHash, H.CollisionFree := exists_collisionFree

/-! ## Example chunks used to show that hypotheses can be met -/

/-- A slot with a plain value. -/
abbrev pv (s : String) : Slot := .vv ⟨.str s, Option.none, [], []⟩
/-- A slot with a variable. -/
abbrev pvar (x : String) : Slot := .vv ⟨.none, some x, [], []⟩

/-- `f(a=1, b=g(k=2), c)` -/
abbrev exD : Chunk := ⟨"f", [("a", pv "1"), ("b", .vv ⟨.chunk "g" [("k", pv "2")], Option.none, [], []⟩), ("c", .empty)]⟩
/-- The same content, another type name, other empty slots. -/
abbrev exD' : Chunk := ⟨"h", [("a", pv "1"), ("b", .vv ⟨.chunk "gg" [("j", pv "None"), ("k", pv "2")], Option.none, [], []⟩)]⟩
/-- A pattern `a=1, b~='x', c=None` without variables. -/
abbrev exP : Chunk := ⟨"f", [("a", pv "1"), ("b", .vv ⟨.none, Option.none, [.str "x"], []⟩), ("c", pv "None")]⟩
/-- A pattern `a==x, b~=x` with variables. -/
abbrev exV : Chunk := ⟨"f", [("a", pvar "x"), ("b", .vv ⟨.none, Option.none, [], ["x"]⟩)]⟩

theorem exD_data : DataChunk exD := by
  refine ⟨?_, ?_, ?_⟩
  · simp [Plain, PlainSlots, PlainSlot, PlainVal]
  · simp [Named]
  · intro n x h; simp at h; rcases h with ⟨_, rfl⟩ | ⟨_, rfl⟩ <;> simp

/-! ## C01 -/

/-- C01: two chunks without variables and negations are `==` exactly if they have the same content. -/
theorem C01_eq_iff_content {H : PyHash} (cf : H.CollisionFree) (a b : Chunk) (ha : Plain a) (hb : Plain b) :
    a.eq H BV.init b = true ↔ chunkContent a = chunkContent b :=
  eq_iff_content cf BV.init a b ha hb

theorem mem_content (a : Chunk) (n : String) (c : Content) :
    (n, c) ∈ chunkContent a ↔ ∃ x, (n, SlotOf.vv x) ∈ a.slots ∧ ¬ Noneish x.values ∧ c = content x.values := by
  rw [chunkContent, contentSlots_eq, List.mem_map]
  constructor
  · rintro ⟨⟨m, v⟩, h, h2⟩
    simp only [Prod.mk.injEq] at h2
    obtain ⟨rfl, rfl⟩ := h2
    obtain ⟨x, hx, rfl, hn⟩ := (mem_valuePairs _ _ _).mp h
    exact ⟨x, hx, hn, rfl⟩
  · rintro ⟨x, hx, hn, rfl⟩
    exact ⟨(n, x.values), (mem_valuePairs _ _ _).mpr ⟨x, hx, rfl, hn⟩, rfl⟩

theorem sorted_content {a : Chunk} (h : SortedSlots a) : (chunkContent a).Pairwise (fun x y => x.1 ++ "_" < y.1 ++ "_") := by
  unfold SortedSlots chunkContent at *
  induction hsl : a.slots generalizing a with
  | nil => simp [contentSlots]
  | cons x r ih =>
    obtain ⟨n, s⟩ := x
    rw [hsl] at h
    have h1 : ∀ y ∈ r, n ++ "_" < y.1 ++ "_" := (List.pairwise_cons.mp h).1
    have h2 := List.Pairwise.of_cons h
    have ih' := @ih ⟨a.typ, r⟩ h2 rfl
    have hlt : ∀ y ∈ contentSlots r, n ++ "_" < y.1 ++ "_" := by
      intro y hy
      obtain ⟨x, hx, _⟩ := (mem_content ⟨"", r⟩ y.1 y.2).mp hy
      exact h1 _ hx
    cases s with
    | empty => simpa [contentSlots, contentSlot] using ih'
    | vv x =>
      obtain ⟨v, vr, nv, nvr⟩ := x
      simp only [contentSlots, contentSlot]
      split
      · simpa using ih'
      · simp only [List.singleton_append, List.pairwise_cons]
        exact ⟨hlt, ih'⟩

theorem content_ext {a b : Chunk} (ha : SortedSlots a) (hb : SortedSlots b)
    (h : ∀ n c, (n, c) ∈ chunkContent a ↔ (n, c) ∈ chunkContent b) : chunkContent a = chunkContent b := by
  have ha' := sorted_content ha
  have hb' := sorted_content hb
  have nd : ∀ {l : List (String × Content)}, l.Pairwise (fun x y => x.1 ++ "_" < y.1 ++ "_") → l.Nodup := by
    intro l hl
    refine List.Pairwise.imp ?_ hl
    rintro x y hxy rfl
    exact String.lt_irrefl _ hxy
  have hp : (chunkContent a).Perm (chunkContent b) :=
    (List.perm_ext_iff_of_nodup (nd ha') (nd hb')).mpr (fun x => h x.1 x.2)
  refine hp.eq_of_pairwise ?_ ha' hb'
  intro x y _ _ hxy hyx
  exact absurd (String.lt_trans hxy hyx) (String.lt_irrefl _)

/-- C01, for the slot order `Chunk.__init__` produces: `==` only depends on which non-empty slots there are with which
content. -/
theorem C01_eq_iff_same_slots {H : PyHash} (cf : H.CollisionFree) (a b : Chunk) (ha : Plain a) (hb : Plain b)
    (sa : SortedSlots a) (sb : SortedSlots b) :
    a.eq H BV.init b = true ↔ ∀ n c,
      (∃ x, (n, SlotOf.vv x) ∈ a.slots ∧ ¬ Noneish x.values ∧ c = content x.values) ↔
      (∃ x, (n, SlotOf.vv x) ∈ b.slots ∧ ¬ Noneish x.values ∧ c = content x.values) := by
  rw [C01_eq_iff_content cf a b ha hb]
  simp only [← mem_content]
  exact ⟨fun h n c => by rw [h], content_ext sa sb⟩

/-- C01: `==` is an equivalence relation and equal chunks hash equally, for all chunks and any hash functions (also with
variables, as long as none is bound). -/
theorem C01_equivalence (H : PyHash) :
    (∀ a : Chunk, a.eq H BV.init a = true) ∧
    (∀ a b : Chunk, a.eq H BV.init b = true → b.eq H BV.init a = true) ∧
    (∀ a b c : Chunk, a.eq H BV.init b = true → b.eq H BV.init c = true → a.eq H BV.init c = true) ∧
    (∀ a b : Chunk, a.eq H BV.init b = true → a.hash H BV.init = b.hash H BV.init) := by
  simp only [Chunk.eq, beq_iff_eq]
  exact ⟨fun _ => trivial, fun _ _ h => h.symm, fun _ _ _ h h' => h.trans h', fun _ _ h => h⟩

/-- The hypotheses of C01 are met by chunks that differ in type names, nesting types and empty slots but are equal. -/
example : Plain exD ∧ Plain exD' ∧ SortedSlots exD ∧ SortedSlots exD' ∧ chunkContent exD = chunkContent exD' := by
  refine ⟨by simp [Plain, PlainSlots, PlainSlot, PlainVal], by simp [Plain, PlainSlots, PlainSlot, PlainVal], ?_, ?_, ?_⟩
  · simp only [SortedSlots, List.pairwise_cons]; simp
  · simp only [SortedSlots, List.pairwise_cons]; simp
  · simp [chunkContent, contentSlots, contentSlot, Noneish, content]

/-- ... and by chunks that are different. -/
example : chunkContent exD ≠ chunkContent ⟨"f", [("a", pv "1")]⟩ := by
  simp [chunkContent, contentSlots, contentSlot, Noneish, content]

/-! ## C02 -/

/-- C02 in full: for variable-free patterns and data chunks, `<=` has exactly the declarative meaning. False in one corner:
see `C02_refuted`. -/
def C02_full : Prop := ∀ H : PyHash, H.CollisionFree → ∀ (bv : BV) (p d : Chunk), DataChunk d → Named p → VarFree p →
  ((p.le H bv d).1 = true ↔ Means p d)

/-- C02 (partial): for variable-free patterns, `<=` has exactly the declarative meaning and binds nothing. Missing: a
pattern requiring the literal value 'None' in a slot that the chunk does not even have (see `C02_refuted`). -/
theorem C02_partial {H : PyHash} (cf : H.CollisionFree) (bv : BV) (p d : Chunk) (hd : DataChunk d) (hp : Named p)
    (hv : VarFree p) (hn : NoneCovered p d) :
    ((p.le H bv d).1 = true ↔ Means p d) ∧ ((p.le H bv d).1 = true → (p.le H bv d).2 = bv) := by
  have hM : Means p d ↔ ∀ n x, (n, SlotOf.vv x) ∈ p.slots →
      Accepts x.values (matchingVal d n) ∧ ∀ v ∈ x.negvalues, ¬ Forbids v (matchingVal d n) := by
    constructor
    · intro h n x hx; exact h n x _ hx ((slotHas_iff hd.named n _).mpr rfl)
    · intro h n x w hx hw
      rw [(slotHas_iff hd.named n w).mp hw]; exact h n x hx
  have hAll := varFree_allOK cf hv hd.plain bv p.slots (fun _ h => h)
  constructor
  · rw [le_fst_iff, hM, hAll]
    constructor
    · rintro (h | h)
      · intro n x hx
        obtain ⟨h1, h2, h3, h4⟩ := hv n x hx
        -- bound variables play no role: use the empty bindings
        have heq : p.eq H BV.init d = true := by
          have : ∀ lk lk' : String → Option View, ∀ sl : Slots, (∀ n x, (n, SlotOf.vv x) ∈ sl → x.vars = Option.none ∧ x.negvars = []) →
              hashItems H lk (viewSlots H sl) = hashItems H lk' (viewSlots H sl) := by
            intro lk lk' sl hsl
            induction sl with
            | nil => rfl
            | cons y r ih =>
              obtain ⟨m, s⟩ := y
              have ih' := ih (fun n x h => hsl n x (by simp [h]))
              cases s with
              | empty => simp [viewSlots, viewSlot, hashItems, ih']
              | vv y =>
                obtain ⟨g1, g2⟩ := hsl m y (by simp)
                obtain ⟨v, vr, nv, nvr⟩ := y
                simp only at g1 g2
                subst g1 g2
                simp [viewSlots, viewSlot, hashItems, ih', slotItems, slotChars, slotVals, slotNegs, unresolvedItems, optStrTruthy]
          simp only [Chunk.eq, Chunk.hash] at h ⊢
          rw [this _ (fun n => (bv.get n).map (Val.view H)) p.slots (fun n x hx => ⟨(hv n x hx).1, (hv n x hx).2.1⟩)]
          exact h
        obtain ⟨_, e2, _, e4⟩ := eq_slot cf hd.plain hd.named hp (fun n x hx => ⟨(hv n x hx).2.2.1, (hv n x hx).2.2.2⟩)
          (by intro y v hyv; simp [BV.init, BV.get, alook] at hyv) heq hx (by simp [h1])
          (fun hxn => ⟨Or.inl h1, (hn n x hx hxn).elim fun _ hs => data_ne_none hd hs⟩)
        exact ⟨e4, by simp [e2]⟩
      · exact h
    · exact fun h => Or.inr h
  · intro h
    have h' : p.le H bv d = (true, (p.le H bv d).2) := Prod.ext h rfl
    rcases (le_true_iff ..).mp h' with ⟨_, h2⟩ | ⟨_, _, h2⟩
    · exact h2
    · rw [h2]; exact varFree_afterSlots H hv bv p.slots (fun _ h => h)

/-- The hypotheses of C02 are met, for a matching and a non-matching chunk. -/
example : DataChunk exD ∧ Named exP ∧ VarFree exP ∧ NoneCovered exP exD ∧ Means exP exD ∧
    ¬ Means exP ⟨"f", [("a", pv "1"), ("b", pv "x"), ("c", .empty)]⟩ := by
  refine ⟨exD_data, by simp [Named], ?_, ?_, ?_, ?_⟩
  · intro n x h; simp at h; rcases h with ⟨_, rfl⟩ | ⟨_, rfl⟩ | ⟨_, rfl⟩ <;> simp [PlainVal]
  · intro n x h hx
    simp at h
    rcases h with ⟨rfl, rfl⟩ | ⟨rfl, rfl⟩ | ⟨rfl, rfl⟩
    · simp at hx
    · simp at hx
    · exact ⟨.empty, by simp⟩
  · intro n x w h hw
    rw [(slotHas_iff exD_data.named n w).mp hw]
    simp at h
    rcases h with ⟨rfl, rfl⟩ | ⟨rfl, rfl⟩ | ⟨rfl, rfl⟩ <;>
      simp [matchingVal, alook, Accepts, SameVal, NoRequirement, Forbids, Noneish]
  · intro h
    have := (h "b" ⟨.none, Option.none, [.str "x"], []⟩ (.str "x") (by simp) (.val (x := ⟨.str "x", Option.none, [], []⟩) (by simp))).2
    exact this (.str "x") (by simp) (Or.inl rfl)

/-- C02 fails when 'None' is required of a slot that does not exist: `p(a='None', b=1) <= d(b=1)` holds through the
equality shortcut, `p(a='None', b=1) <= d(b=1, c=2)` does not, for any collision-free hash. -/
theorem C02_refuted : ¬ C02_full := by
  intro hall
  obtain ⟨H, cf⟩ := exists_collisionFree
  let p : Chunk := ⟨"f", [("a", pv "None"), ("b", pv "1")]⟩
  let d : Chunk := ⟨"g", [("b", pv "1")]⟩
  have hd : DataChunk d := by
    refine ⟨by simp [d, Plain, PlainSlots, PlainSlot, PlainVal], by simp [d, Named], ?_⟩
    intro n x h; simp [d] at h; rcases h with ⟨_, rfl⟩; simp
  have hv : VarFree p := by
    intro n x h; simp [p] at h; rcases h with ⟨_, rfl⟩ | ⟨_, rfl⟩ <;> simp [PlainVal]
  have h := hall H cf BV.init p d hd (by simp [p, Named]) hv
  have hle : (p.le H BV.init d).1 = true := by
    rw [le_fst_iff]
    left
    rw [C01_eq_iff_content cf p d (by simp [p, Plain, PlainSlots, PlainSlot, PlainVal]) hd.plain]
    simp [p, d, chunkContent, contentSlots, contentSlot, Noneish, content]
  have := h.mp hle "a" ⟨.str "None", Option.none, [], []⟩ .none (by simp [p]) (.missing (by simp [d]))
  simp [Accepts, NoRequirement, SameVal] at this

/-! ## C03 -/

/-- Names and literals in a pattern for which the equality shortcut of `<=` is harmless. -/
def ShortcutSafe (bv : BV) (p : Chunk) : Prop :=
  ∀ n x, (n, SlotOf.vv x) ∈ p.slots → (∀ y, x.vars = some y → CharSafe bv y) ∧
    (x.values = .str "None" → x.vars = Option.none ∨ x.vars = some "")

/-- C03 in full, soundness: after a successful match the bindings are a solution of the pattern. -/
def C03_sound_full : Prop := ∀ H : PyHash, H.CollisionFree → ∀ D, Domain D → ∀ (bv bv' : BV) (p d : Chunk), Plain d → Named d →
  InDomain D d p → Named p → PlainLits p → GoodBV D bv → p.le H bv d = (true, bv') → Solution D bv p d bv'.get

/-- C03 (partial), soundness: after a successful match the bindings are a solution of the pattern that extends the given
bindings; newly bound variables are variables of the pattern and get values of the chunk; the bindings are again consistent
with the values excluded so far, which only grow, by values of slots with negated variables. Slots the chunk does not have
are allowed if 'None' does not occur as a value (`NoNoneStr`). Missing: multi-letter variables all of whose letters are
themselves bound variables, a slot that both has a variable and requires 'None' or requires 'None' and does not exist. -/
theorem C03_sound_partial {H : PyHash} (cf : H.CollisionFree) {D : Val → Prop} (hD : Domain D) (bv bv' : BV) (p d : Chunk)
    (hpd : Plain d) (hnd : Named d) (hc : InDomain D d p) (hn : Named p) (hp : PlainLits p) (hnc : NoneFilled p d) (hg : GoodBV D bv)
    (hs : ShortcutSafe bv p) (h : p.le H bv d = (true, bv')) :
    Solution D bv p d bv'.get ∧ GoodBV D bv' ∧
    (∀ y v, bv'.get y = some v → bv.get y = some v ∨
      ∃ n x, (n, SlotOf.vv x) ∈ p.slots ∧ x.vars = some y ∧ y ≠ "" ∧ SlotHas d n v) ∧
    (∀ y w, w ∈ bv.negGet y → w ∈ bv'.negGet y) ∧
    (∀ n x y w, (n, SlotOf.vv x) ∈ p.slots → y ∈ x.negvars → SlotHas d n w → ∃ w' ∈ bv'.negGet y, SameVal w' w) ∧
    (∀ y w, w ∈ bv'.negGet y → w ∈ bv.negGet y ∨ ∃ n x, (n, SlotOf.vv x) ∈ p.slots ∧ y ∈ x.negvars ∧ SlotHas d n w) := by
  have hh : ∀ n, SlotHas d n (matchingVal d n) := fun n => (slotHas_iff hnd n _).mpr rfl
  rcases (le_true_iff ..).mp h with ⟨he, rfl⟩ | ⟨_, hok, rfl⟩
  · have hslot : ∀ n x, (n, SlotOf.vv x) ∈ p.slots → x.negvars = [] ∧ x.negvalues = [] ∧
        (∀ y, x.vars = some y → y ≠ "" → ∃ v, bv'.get y = some v ∧ SameVal v (matchingVal d n)) ∧
        Accepts x.values (matchingVal d n) := by
      intro n x hx
      exact eq_slot cf hpd hnd hn hp (fun y v hv => hD.plain _ (hg.pos y v hv)) he hx (hs n x hx).1
        (fun hxn => ⟨(hs n x hx).2 hxn, hnc n x _ hx hxn (hh n)⟩)
    refine ⟨⟨fun y v hv => hg.pos y v hv, fun _ _ h => h, ?_, ?_, fun y v w hv hw => hg.ok y v w hv hw, ?_⟩, hg,
      fun y v hv => Or.inl hv, fun _ _ h => h, ?_, fun _ _ h => Or.inl h⟩
    · intro n x y w hx hy hy' hw
      rw [(slotHas_iff hnd n w).mp hw]
      exact (hslot n x hx).2.2.1 y hy hy'
    · intro n x y w v hx hy
      rw [(hslot n x hx).1] at hy; simp at hy
    · intro n x w hx hw
      rw [(slotHas_iff hnd n w).mp hw]
      exact ⟨(hslot n x hx).2.2.2, by rw [(hslot n x hx).2.1]; simp⟩
    · intro n x y w hx hy
      rw [(hslot n x hx).1] at hy; simp at hy
  · have F := allOK_facts cf hD p.slots (fun n s hm => matchingVal_data hnd hc hm) bv hg hok
    refine ⟨facts_solution cf hD hnd hpd hc hp F, F.good, ?_, F.negKeep, ?_, ?_⟩
    · intro y v hv
      rcases F.only y v hv with h1 | ⟨n, s, hm, hy, hy', rfl⟩
      · exact Or.inl h1
      · cases s with
        | empty => simp [splitting] at hy
        | vv x => exact Or.inr ⟨n, x, hm, hy, hy', hh n⟩
    · intro n x y w hx hy hw
      obtain ⟨w', hw', hk⟩ := F.negOcc n _ y hx hy
      refine ⟨w', hw', ?_⟩
      rw [(slotHas_iff hnd n w).mp hw]
      exact dkey_sameVal hD (F.good.neg y w' hw') (matchingVal_data hnd hc hx) hk
    · intro y w hw
      rcases F.negOnly y w hw with h1 | ⟨n, s, hm, hy, rfl⟩
      · exact Or.inl h1
      · cases s with
        | empty => simp [splitting] at hy
        | vv x => exact Or.inr ⟨n, x, hm, hy, hh n⟩

/-- C03, completeness: if some assignment extending the given bindings satisfies the pattern, the match succeeds. -/
theorem C03_complete {H : PyHash} (cf : H.CollisionFree) {D : Val → Prop} (hD : Domain D) (bv : BV) (p d : Chunk) (hnd : Named d)
    (hc : InDomain D d p) (hp : PlainLits p) (hg : GoodBV D bv) (h : ∃ σ, Solution D bv p d σ) : (p.le H bv d).1 = true := by
  obtain ⟨σ, S⟩ := h
  rw [le_fst_iff]
  exact Or.inr (solution_to_allOK cf hD hnd hc hp hg S)

/-- The hypotheses of C03 are met by a pattern with a positive and a negated variable, on a chunk that has all slots. -/
example : Domain DataVal ∧ Plain exD ∧ Named exD ∧ InDomain DataVal exD exV ∧ NoneFilled exV exD ∧ Named exV ∧ PlainLits exV ∧
    GoodBV DataVal BV.init ∧ ShortcutSafe BV.init exV ∧
    Solution DataVal BV.init exV exD (fun y => if y = "x" then some (.str "1") else Option.none) := by
  refine ⟨dataDomain, exD_data.plain, exD_data.named, ?_, ?_, by simp [Named], ?_, ?_, ?_, ?_⟩
  · refine dataChunk_inDomain exD_data ?_
    intro n s h; simp at h; rcases h with ⟨rfl, rfl⟩ | ⟨rfl, rfl⟩ <;> simp
  · intro n x w h hx; simp at h; rcases h with ⟨rfl, rfl⟩ | ⟨rfl, rfl⟩ <;> simp at hx
  · intro n x h; simp at h; rcases h with ⟨_, rfl⟩ | ⟨_, rfl⟩ <;> simp [PlainVal]
  · refine ⟨?_, ?_, ?_⟩ <;> intro y v <;> simp [BV.init, BV.get, BV.negGet, alook]
  · intro n x h
    simp at h
    rcases h with ⟨_, rfl⟩ | ⟨_, rfl⟩
    · refine ⟨?_, by simp⟩
      intro y hy; simp at hy; subst hy
      exact Or.inl ⟨'x', by decide⟩
    · simp
  · refine ⟨?_, ?_, ?_, ?_, ?_, ?_⟩
    · intro y v h
      split at h
      · simp only [Option.some.injEq] at h; subst h; exact ⟨by simp [PlainVal], by simp⟩
      · cases h
    · simp [BV.init, BV.get, alook]
    · intro n x y w h hy _ hw
      rw [(slotHas_iff exD_data.named n w).mp hw]
      simp at h
      rcases h with ⟨rfl, rfl⟩ | ⟨rfl, rfl⟩
      · simp at hy; subst hy; exact ⟨.str "1", by simp, by simp [matchingVal, alook, SameVal]⟩
      · simp at hy
    · intro n x y w v h hy hw hv
      rw [(slotHas_iff exD_data.named n w).mp hw]
      simp at h
      rcases h with ⟨rfl, rfl⟩ | ⟨rfl, rfl⟩
      · simp at hy
      · simp at hy; subst hy; simp at hv; subst hv; simp [matchingVal, alook, SameVal]
    · simp [BV.init, BV.negGet, alook]
    · intro n x w h hw
      simp at h
      rcases h with ⟨rfl, rfl⟩ | ⟨rfl, rfl⟩ <;> simp [Accepts, NoRequirement]

/-- They are also met when the chunk lacks the slot of the variable: it is bound to Python's None. -/
example (H : PyHash) : Domain NoNoneStr ∧ InDomain NoNoneStr ⟨"f", [("b", pv "1")]⟩ ⟨"f", [("a", pvar "x")]⟩ ∧
    ((⟨"f", [("a", pvar "x")]⟩ : Chunk).le H BV.init ⟨"f", [("b", pv "1")]⟩).1 = true := by
  refine ⟨noNoneDomain, ?_, ?_⟩
  · intro n s w h hw
    rw [(slotHas_iff (by simp [Named]) n w).mp hw]
    simp at h
    rcases h with ⟨rfl, rfl⟩
    exact ⟨by simp [matchingVal, alook, PlainVal], by simp [matchingVal, alook]⟩
  · rw [le_fst_iff]; right
    refine ⟨?_, trivial⟩
    constructor <;>
      simp [splitting, BV.init, BV.get, BV.negGet, alook, afterNeg, afterVar, matchingVal, pyEq, View.eq, Val.view, Val.truthy]

/-- C03 fails for a multi-letter variable all of whose letters are bound variables: with =x bound to 'v', the pattern
`a==xx` matches `f(a=v)` without binding =xx. This holds for all hash functions. -/
theorem C03_multichar (H : PyHash) :
    (⟨"f", [("a", pvar "xx")]⟩ : Chunk).le H ⟨[("x", .str "v")], []⟩ ⟨"f", [("a", pv "v")]⟩ =
      (true, ⟨[("x", .str "v")], []⟩) := by
  rw [le_true_iff]
  left
  refine ⟨?_, rfl⟩
  simp [Chunk.eq, Chunk.hash, viewSlots, viewSlot, viewVals, hashItems, VVOf.nonEmpty, View.eq, Val.view, optStrTruthy,
    slotItems, slotChars, slotVals, slotNegs, unresolvedItems, BV.get, alook, View.setAdd, View.keyEq, View.setHashes,
    order_singleton, View.hash, order_nil]

/-- Hence C03 is false in full. -/
theorem C03_refuted : ¬ C03_sound_full := by
  intro hall
  obtain ⟨H, cf⟩ := exists_collisionFree
  have hnd : Named (⟨"f", [("a", pv "v")]⟩ : Chunk) := by simp [Named]
  have h := hall H cf DataVal dataDomain _ _ _ _ ?_ hnd ?_ ?_ ?_ ?_ (C03_multichar H)
  · obtain ⟨v, hv, _⟩ := h.pos "a" ⟨.none, some "xx", [], []⟩ "xx" (.str "v") (by simp) rfl (by simp)
      (.val (x := ⟨.str "v", Option.none, [], []⟩) (by simp))
    simp [BV.get, alook] at hv
  · simp [Plain, PlainSlots, PlainSlot, PlainVal]
  · intro n s w h hw
    rw [(slotHas_iff hnd n w).mp hw]
    simp at h; rcases h with ⟨rfl, rfl⟩
    exact ⟨by simp [matchingVal, alook, PlainVal], by simp [matchingVal, alook]⟩
  · simp [Named]
  · intro n x h; simp at h; rcases h with ⟨_, rfl⟩; simp [PlainVal]
  · refine ⟨?_, ?_, ?_⟩
    · intro y v h
      simp only [BV.get, alook] at h
      split at h
      · simp only [Option.some.injEq] at h; subst h; exact ⟨by simp [PlainVal], by simp⟩
      · cases h
    · intro y v; simp [BV.negGet, alook]
    · intro y v w; simp [BV.negGet, alook]

/-! ## C04 -/

theorem solution_perm {D : Val → Prop} {bv : BV} {p q d : Chunk} {σ : String → Option Val} (hpq : p.slots.Perm q.slots)
    (S : Solution D bv p d σ) : Solution D bv q d σ :=
  ⟨S.data, S.ext, fun n x y w h => S.pos n x y w (hpq.mem_iff.mpr h), fun n x y w v h => S.neg n x y w v (hpq.mem_iff.mpr h),
    S.excl, fun n x w h => S.lit n x w (hpq.mem_iff.mpr h)⟩

/-- C04 in full: the order of the slots of a pattern does not matter. -/
def C04_full : Prop := ∀ H : PyHash, H.CollisionFree → ∀ (bv : BV) (p q d : Chunk), DataChunk d → p.slots.Perm q.slots →
  Named p → PlainLits p → GoodBV PlainVal bv → ((p.le H bv d).1 = (q.le H bv d).1)

/-- C04 (partial): whether a pattern matches, and the value bound to each of its variables, do not depend on the order of its
slots. Slots the chunk does not have are allowed if 'None' does not occur as a value (`NoNoneStr`; see `C04_refuted` for both
together). Missing: the restrictions of C03. -/
theorem C04_partial {H : PyHash} (cf : H.CollisionFree) {D : Val → Prop} (hD : Domain D) (bv : BV) (p q d : Chunk) (hpd : Plain d)
    (hnd : Named d) (hc : InDomain D d p) (hnc : NoneFilled p d)
    (hn : Named p) (hp : PlainLits p) (hg : GoodBV D bv) (hs : ShortcutSafe bv p) (hpq : p.slots.Perm q.slots) :
    (p.le H bv d).1 = (q.le H bv d).1 ∧
    ((p.le H bv d).1 = true → ∀ n x y, (n, SlotOf.vv x) ∈ p.slots → x.vars = some y → y ≠ "" →
      ∃ v w, (p.le H bv d).2.get y = some v ∧ (q.le H bv d).2.get y = some w ∧ SameVal v w) := by
  have hc' : InDomain D d q := fun n s w h => hc n s w (hpq.mem_iff.mpr h)
  have hnc' : NoneFilled q d := fun n x w h => hnc n x w (hpq.mem_iff.mpr h)
  have hn' : Named q := (hpq.map Prod.fst).nodup_iff.mp hn
  have hp' : PlainLits q := fun n x h => hp n x (hpq.mem_iff.mpr h)
  have hs' : ShortcutSafe bv q := fun n x h => hs n x (hpq.mem_iff.mpr h)
  have pq : (p.le H bv d).1 = true → Solution D bv p d (p.le H bv d).2.get := fun h =>
    (C03_sound_partial cf hD bv _ p d hpd hnd hc hn hp hnc hg hs (Prod.ext h rfl)).1
  have qq : (q.le H bv d).1 = true → Solution D bv q d (q.le H bv d).2.get := fun h =>
    (C03_sound_partial cf hD bv _ q d hpd hnd hc' hn' hp' hnc' hg hs' (Prod.ext h rfl)).1
  have hiff : (p.le H bv d).1 = true ↔ (q.le H bv d).1 = true :=
    ⟨fun h => C03_complete cf hD bv q d hnd hc' hp' hg ⟨_, solution_perm hpq (pq h)⟩,
     fun h => C03_complete cf hD bv p d hnd hc hp hg ⟨_, solution_perm hpq.symm (qq h)⟩⟩
  refine ⟨by rw [Bool.eq_iff_iff]; exact hiff, ?_⟩
  intro h n x y hx hy hy'
  have S := pq h
  have T := qq (hiff.mp h)
  have hw : SlotHas d n (matchingVal d n) := (slotHas_iff hnd n _).mpr rfl
  obtain ⟨v, hv, h1⟩ := S.pos n x y _ hx hy hy' hw
  obtain ⟨w, hw', h2⟩ := T.pos n x y _ (hpq.mem_iff.mp hx) hy hy' hw
  exact ⟨v, w, hv, hw', dkey_sameVal hD (S.data y v hv) (T.data y w hw') ((sameVal_dkey h1).trans (sameVal_dkey h2).symm)⟩

/-- C04 fails in full: `=x` in slots holding 'None', nothing, and not existing, respectively, is accepted or rejected
depending on the order (None, 'None' and the empty value are not transitively equal). -/
theorem C04_refuted : ¬ C04_full := by
  intro hall
  obtain ⟨H, cf⟩ := exists_collisionFree
  have h := hall H cf BV.init ⟨"f", [("a", pvar "x"), ("b", pvar "x"), ("c", pvar "x")]⟩
    ⟨"f", [("b", pvar "x"), ("a", pvar "x"), ("c", pvar "x")]⟩ ⟨"g", [("a", pv "None"), ("b", .empty)]⟩ ?_
    (List.Perm.swap _ _ _) (by simp [Named]) ?_ ?_
  · have e1 : ((⟨"f", [("b", pvar "x"), ("a", pvar "x"), ("c", pvar "x")]⟩ : Chunk).le H BV.init
        ⟨"g", [("a", pv "None"), ("b", .empty)]⟩).1 = true := by
      rw [le_fst_iff]; right
      refine ⟨?_, ?_, ?_, trivial⟩ <;> constructor <;>
        simp [splitting, BV.init, BV.get, BV.negGet, alook, afterSlot, afterNeg, afterVar, BV.bind, aset, matchingVal, pyEq,
          View.eq, Val.view, Val.truthy]
    rw [e1] at h
    rcases (le_fst_iff ..).mp h with h1 | ⟨_, _, h3, _⟩
    · have := cf.tup_inj _ _ (by simpa [Chunk.eq, Chunk.hash] using h1)
      simp [viewSlots, viewSlot, viewVals, hashItems, VVOf.nonEmpty, View.eq, Val.view, optStrTruthy,
        slotItems, slotChars, slotVals, slotNegs, unresolvedItems, BV.get, BV.init, alook] at this
    · have := h3.posEq "x" rfl (by simp)
      simp [splitting, BV.init, BV.get, BV.negGet, alook, afterSlot, afterNeg, afterVar, BV.bind, aset, matchingVal, pyEq,
          View.eq, Val.view] at this
  · refine ⟨by simp [Plain, PlainSlots, PlainSlot, PlainVal], by simp [Named], ?_⟩
    intro n x h; simp at h; rcases h with ⟨_, rfl⟩; simp
  · intro n x h; simp at h; rcases h with ⟨_, rfl⟩ | ⟨_, rfl⟩ | ⟨_, rfl⟩ <;> simp [PlainVal]
  · refine ⟨?_, ?_, ?_⟩ <;> intro y v <;> simp [BV.init, BV.get, BV.negGet, alook]

/-! ## C05 -/

mutual
/-- `v` and `w` differ at most in type names (at any depth). -/
inductive SameButTypes : Val → Val → Prop
  | none : SameButTypes .none .none
  | empty : SameButTypes .empty .empty
  | str (s : String) : SameButTypes (.str s) (.str s)
  | chunk (t t' : String) {a b : Slots} : SlotsSameButTypes a b → SameButTypes (.chunk t a) (.chunk t' b)
inductive SlotsSameButTypes : Slots → Slots → Prop
  | nil : SlotsSameButTypes [] []
  | empty (n : String) {a b : Slots} : SlotsSameButTypes a b → SlotsSameButTypes ((n, .empty) :: a) ((n, .empty) :: b)
  | vv (n : String) {v v' : Val} {l l' : List Val} (vr : Option String) (nvr : List String) {a b : Slots} :
      SameButTypes v v' → ValsSameButTypes l l' → SlotsSameButTypes a b →
      SlotsSameButTypes ((n, .vv ⟨v, vr, l, nvr⟩) :: a) ((n, .vv ⟨v', vr, l', nvr⟩) :: b)
inductive ValsSameButTypes : List Val → List Val → Prop
  | nil : ValsSameButTypes [] []
  | cons {v v' : Val} {l l' : List Val} : SameButTypes v v' → ValsSameButTypes l l' → ValsSameButTypes (v :: l) (v' :: l')
end

/-- C05: what Python can observe of a value with `==` and `hash` does not depend on type names, at any depth. -/
theorem C05_types_invisible (H : PyHash) {v w : Val} (h : SameButTypes v w) : v.view H = w.view H := by
  refine SameButTypes.rec (motive_1 := fun v w _ => v.view H = w.view H)
    (motive_2 := fun a b _ => viewSlots H a = viewSlots H b) (motive_3 := fun l l' _ => viewVals H l = viewVals H l')
    ?_ ?_ ?_ ?_ ?_ ?_ ?_ ?_ ?_ h
  · rfl
  · rfl
  · intro s; rfl
  · intro t t' a b _ ih; simp only [Val.view, ih]
  · rfl
  · intro n a b _ ih; simp only [viewSlots, viewSlot, ih]
  · intro n v v' l l' vr nvr a b _ _ _ i1 i2 i3; simp only [viewSlots, viewSlot, i1, i2, i3]
  · rfl
  · intro v v' l l' _ _ i1 i2; simp only [viewVals, i1, i2]

theorem viewSlots_of_sameButTypes (H : PyHash) {a b : Slots} (h : SlotsSameButTypes a b) :
    viewSlots H a = viewSlots H b := by
  have := C05_types_invisible H (SameButTypes.chunk "" "" h)
  cases h with
  | nil => rfl
  | empty n h =>
    refine SlotsSameButTypes.rec (motive_1 := fun v w _ => v.view H = w.view H)
      (motive_2 := fun a b _ => viewSlots H a = viewSlots H b) (motive_3 := fun l l' _ => viewVals H l = viewVals H l')
      ?_ ?_ ?_ ?_ ?_ ?_ ?_ ?_ ?_ (SlotsSameButTypes.empty n h)
    · rfl
    · rfl
    · intro s; rfl
    · intro t t' a b _ ih; simp only [Val.view, ih]
    · rfl
    · intro n a b _ ih; simp only [viewSlots, viewSlot, ih]
    · intro n v v' l l' vr nvr a b _ _ _ i1 i2 i3; simp only [viewSlots, viewSlot, i1, i2, i3]
    · rfl
    · intro v v' l l' _ _ i1 i2; simp only [viewVals, i1, i2]
  | vv n vr nvr h1 h2 h3 =>
    refine SlotsSameButTypes.rec (motive_1 := fun v w _ => v.view H = w.view H)
      (motive_2 := fun a b _ => viewSlots H a = viewSlots H b) (motive_3 := fun l l' _ => viewVals H l = viewVals H l')
      ?_ ?_ ?_ ?_ ?_ ?_ ?_ ?_ ?_ (SlotsSameButTypes.vv n vr nvr h1 h2 h3)
    · rfl
    · rfl
    · intro s; rfl
    · intro t t' a b _ ih; simp only [Val.view, ih]
    · rfl
    · intro n a b _ ih; simp only [viewSlots, viewSlot, ih]
    · intro n v v' l l' vr nvr a b _ _ _ i1 i2 i3; simp only [viewSlots, viewSlot, i1, i2, i3]
    · rfl
    · intro v v' l l' _ _ i1 i2; simp only [viewVals, i1, i2]

/-- C05: changing type names (of the chunks and of all chunks nested in them) changes neither `==` nor the hash, for any
bound variables. -/
theorem C05_eq_hash (H : PyHash) (bv : BV) {a a' b b' : Chunk} (ha : SlotsSameButTypes a.slots a'.slots)
    (hb : SlotsSameButTypes b.slots b'.slots) :
    a.hash H bv = a'.hash H bv ∧ a.eq H bv b = a'.eq H bv b' := by
  simp only [Chunk.hash, Chunk.eq, viewSlots_of_sameButTypes H ha, viewSlots_of_sameButTypes H hb, and_self]

/-! ## C06 -/

theorem sameVal_trans {a b c : Val} (hb : b ≠ .none) (ha : ¬ Noneish a) (h1 : SameVal a b) (h2 : SameVal b c) :
    SameVal a c := by
  revert ha h1 h2
  cases a <;> cases b <;> cases c <;> simp [Noneish, SameVal] <;> grind

/-- C06 on fully specified chunks: `<=` is reflexive, transitive and antisymmetric up to `==`; `<` is its strict part. -/
theorem C06_preorder {H : PyHash} (cf : H.CollisionFree) (a b c : Chunk) (ha : Solid a) (hb : Solid b) (hc : Solid c) :
    (a.le H BV.init a).1 = true ∧
    ((a.le H BV.init b).1 = true → (b.le H BV.init c).1 = true → (a.le H BV.init c).1 = true) ∧
    ((a.le H BV.init b).1 = true → (b.le H BV.init a).1 = true → a.eq H BV.init b = true) ∧
    ((a.lt H BV.init b).1 = true ↔ ((a.le H BV.init b).1 = true ∧ ¬ (b.le H BV.init a).1 = true)) := by
  have vf : ∀ {x : Chunk}, Solid x → VarFree x := by
    intro x hx n y hy
    have := (plainSlots_iff _).mp hx.data.plain n y hy
    obtain ⟨h1, h2, h3, h4⟩ := this
    exact ⟨h2, h4, h1, by simp [h3]⟩
  have nc : ∀ {x y : Chunk}, Solid x → NoneCovered x y := by
    intro x y hx n z hz hv
    exact absurd (by rw [hv]; rfl) (hx.real n z hz).1
  have le_iff : ∀ {x y : Chunk}, Solid x → Solid y → ((x.le H BV.init y).1 = true ↔ Means x y) := fun hx hy =>
    (C02_partial cf BV.init _ _ hy.data hx.data.named (vf hx) (nc hx)).1
  have req : ∀ {x y : Chunk}, Solid x → Solid y → Means x y → ∀ n z, (n, SlotOf.vv z) ∈ x.slots →
      ∃ z', (n, SlotOf.vv z') ∈ y.slots ∧ SameVal z.values z'.values := by
    intro x y hx hy hM n z hz
    have hw := (slotHas_iff hy.data.named n _).mpr (rfl : matchingVal y n = _)
    have hr := hx.real n z hz
    have hs : SameVal z.values (matchingVal y n) := by
      rcases (hM n z _ hz hw).1 with h | h
      · exact absurd h hr.2
      · exact h
    generalize matchingVal y n = w at hw hs
    cases hw with
    | missing _ => exfalso; revert hs hr; cases z.values <;> simp [SameVal, Noneish, NoRequirement]
    | empty _ => exfalso; revert hs hr; cases z.values <;> simp [SameVal, Noneish, NoRequirement] <;> tauto
    | val h => exact ⟨_, h, hs⟩
  have mk : ∀ {x y : Chunk}, Solid x → Solid y → (∀ n z, (n, SlotOf.vv z) ∈ x.slots →
      ∃ z', (n, SlotOf.vv z') ∈ y.slots ∧ SameVal z.values z'.values) → Means x y := by
    intro x y hx hy h n z w hz hw
    obtain ⟨z', hz', hs⟩ := h n z hz
    have hneg : z.negvalues = [] := ((plainSlots_iff _).mp hx.data.plain n z hz).2.2.1
    refine ⟨Or.inr ?_, by simp [hneg]⟩
    have : w = z'.values := by
      rw [(slotHas_iff hy.data.named n w).mp hw]
      exact ((slotHas_iff hy.data.named n _).mp (.val hz')).symm
    rw [this]; exact hs
  have anti : (a.le H BV.init b).1 = true → (b.le H BV.init a).1 = true → a.eq H BV.init b = true := by
    intro h1 h2
    have r1 := req ha hb ((le_iff ha hb).mp h1)
    have r2 := req hb ha ((le_iff hb ha).mp h2)
    have sc : ∀ {v w : Val}, ¬ Noneish v → SameVal v w → ¬ Noneish w ∧ content v = content w := by
      intro v w; cases v <;> cases w <;> simp [Noneish, SameVal, content] <;> grind
    rw [C01_eq_iff_same_slots cf a b ha.data.plain hb.data.plain ha.sorted hb.sorted]
    intro n c
    constructor
    · rintro ⟨x, hx, hn, rfl⟩
      obtain ⟨z', hz', hs⟩ := r1 n x hx
      exact ⟨z', hz', (sc hn hs).1, (sc hn hs).2⟩
    · rintro ⟨x, hx, hn, rfl⟩
      obtain ⟨z', hz', hs⟩ := r2 n x hx
      exact ⟨z', hz', (sc hn hs).1, (sc hn hs).2⟩
  refine ⟨?_, ?_, anti, ?_⟩
  · rw [le_fst_iff]; left; exact (C01_equivalence H).1 a
  · intro h1 h2
    have r1 := req ha hb ((le_iff ha hb).mp h1)
    have r2 := req hb hc ((le_iff hb hc).mp h2)
    refine (le_iff ha hc).mpr (mk ha hc ?_)
    intro n z hz
    obtain ⟨z', hz', hs⟩ := r1 n z hz
    obtain ⟨z'', hz'', hs'⟩ := r2 n z' hz'
    exact ⟨z'', hz'', sameVal_trans (hb.data.noNone n z' hz') (ha.real n z hz).1 hs hs'⟩
  · have hlt : (a.lt H BV.init b).1 = true ↔ (a.le H BV.init b).1 = true ∧ a.eq H BV.init b = false := by
      simp only [Chunk.lt, Chunk.le]
      cases he : a.eq H BV.init b with
      | true => simp
      | false =>
        simp only [Bool.false_eq_true, if_false, and_true]
    rw [hlt]
    constructor
    · rintro ⟨h1, h2⟩
      exact ⟨h1, fun h3 => by rw [anti h1 h3] at h2; cases h2⟩
    · rintro ⟨h1, h2⟩
      refine ⟨h1, ?_⟩
      by_contra h3
      have h4 : a.eq H BV.init b = true := by simpa using h3
      exact h2 ((le_fst_iff ..).mpr (Or.inl ((C01_equivalence H).2.1 a b h4)))

/-- The hypotheses of C06 are met by `f(a=1) < f(a=1, b=g(k=2), c)`. -/
example : Solid exD ∧ Solid ⟨"f", [("a", pv "1")]⟩ ∧ Means ⟨"f", [("a", pv "1")]⟩ exD := by
  refine ⟨⟨exD_data, ?_, ?_⟩, ⟨⟨?_, ?_, ?_⟩, ?_, ?_⟩, ?_⟩
  · simp only [SortedSlots, List.pairwise_cons]; simp
  · intro n x h; simp at h; rcases h with ⟨_, rfl⟩ | ⟨_, rfl⟩ <;> simp [Noneish, NoRequirement]
  · simp [Plain, PlainSlots, PlainSlot, PlainVal]
  · simp [Named]
  · intro n x h; simp at h; rcases h with ⟨_, rfl⟩; simp
  · simp [SortedSlots]
  · intro n x h; simp at h; rcases h with ⟨_, rfl⟩; simp [Noneish, NoRequirement]
  · intro n x w h hw
    rw [(slotHas_iff exD_data.named n w).mp hw]
    simp at h; rcases h with ⟨rfl, rfl⟩; simp [matchingVal, alook, Accepts, SameVal]

/-- Without the restriction to real values transitivity fails already on slot values: a chunk with only empty slots
accepts a chunk without slots, which as a requirement accepts everything. -/
example : ¬ ∀ x y z : Val, Accepts x y → Accepts y z → Accepts x z := by
  intro h
  have := h (.chunk "f" [("a", .empty)]) (.chunk "f" []) (.str "z") (Or.inr (by simp [SameVal, contentSlots, contentSlot]))
    (Or.inl rfl)
  simp [Accepts, NoRequirement, SameVal] at this

/-! ## C07 -/

/-- C07: with partial matching, `match` never rejects. -/
theorem C07_never_rejects (H : PyHash) (cfg : MatchCfg) (hp : cfg.partialm = true) (bv : BV) (p d : Chunk) :
    ∃ st, p.matchC H cfg bv d = .ok st := by
  simp only [Chunk.matchC]
  split
  · exact ⟨_, rfl⟩
  · obtain ⟨st, h, _⟩ := rel_matchSlots H cfg hp [] d ⟨bv, 0⟩ p.slots
    exact ⟨st, h⟩

/-- C07: if the exact match succeeds, the partial match gives score 0 and the same bindings. -/
theorem C07_exact_zero (H : PyHash) (cfg : MatchCfg) (hp : cfg.partialm = true) (bv bv' : BV) (p d : Chunk)
    (h : p.le H bv d = (true, bv')) : p.matchC H cfg bv d = .ok ⟨bv', 0⟩ := by
  simp only [Chunk.matchC]
  rcases (le_true_iff ..).mp h with ⟨he, rfl⟩ | ⟨he, hok, rfl⟩
  · simp [he]
  · simp only [he, Bool.false_eq_true, if_false]
    obtain ⟨st, h1, _, h3⟩ := rel_matchSlots H cfg hp [] d ⟨bv, 0⟩ p.slots
    have := (matchSlots_ok H [] d p.slots ⟨bv, 0⟩ _).mpr ⟨hok, rfl⟩
    rcases h3 with h3 | ⟨⟨b, h3⟩, _⟩
    · rw [h3] at this; rw [h1]; exact this
    · rw [h3] at this; cases this

/-- C07: the score is the sum of the similarities of the violated constraints, slot by slot (`Spec.score`). -/
theorem C07_score {H : PyHash} (cf : H.CollisionFree) (cfg : MatchCfg) (hp : cfg.partialm = true) (bv : BV) (p d : Chunk)
    (hd : Plain d) (hl : PlainLits p) (hg : PlainBV bv) (hne : p.eq H bv d = false) :
    ∃ bv', p.matchC H cfg bv d =
      .ok ⟨bv', score (getSimilarity H cfg) (matchingVal d) bv.get bv.negGet p.slots⟩ := by
  obtain ⟨bv', h⟩ := score_slots cf cfg hp p.slots (fun n s hm => matchingVal_plain hd n) hl ⟨bv, 0⟩ hg
  exact ⟨bv', by simp only [Chunk.matchC, hne, Bool.false_eq_true, if_false, h, zero_add]⟩

/-- C07: with non-positive similarities and a non-negative penalty no score is positive. -/
theorem C07_nonpos (H : PyHash) (cfg : MatchCfg) (hp : cfg.partialm = true) (hs : ∀ e ∈ cfg.sims, e.2 ≤ 0)
    (hpen : 0 ≤ cfg.penalty) (bv : BV) (p d : Chunk) (st : MState) (h : p.matchC H cfg bv d = .ok st) : st.sim ≤ 0 := by
  have hsim : ∀ x y, getSimilarity H cfg x y ≤ 0 := by
    intro x y
    simp only [getSimilarity]
    cases hl : simLook H y x cfg.sims with
    | none => simpa using hpen
    | some q =>
      obtain ⟨e, he, rfl⟩ : ∃ e ∈ cfg.sims, e.2 = q := by
        revert hl
        generalize cfg.sims = t
        induction t with
        | nil => simp [simLook]
        | cons a r ih =>
          obtain ⟨⟨u, v⟩, q'⟩ := a
          simp only [simLook]
          split
          · intro hq; simp only [Option.some.injEq] at hq; exact ⟨((u, v), q'), by simp, hq⟩
          · intro hq; obtain ⟨e, he, hq⟩ := ih hq; exact ⟨e, by simp [he], hq⟩
      exact hs e he
  simp only [Chunk.matchC] at h
  split at h
  · simp only [Except.ok.injEq] at h; subst h; exact le_refl _
  · obtain ⟨st', h1, h2, _⟩ := rel_matchSlots H cfg hp [] d ⟨bv, 0⟩ p.slots
    rw [h] at h1; cases h1
    exact h2 hsim

/-- C07: if all similarities are negative, the score is 0 exactly when the exact match succeeds. -/
theorem C07_zero_iff (H : PyHash) (cfg : MatchCfg) (hp : cfg.partialm = true)
    (hs : ∀ x y, getSimilarity H cfg x y < 0) (bv : BV) (p d : Chunk) (st : MState)
    (h : p.matchC H cfg bv d = .ok st) : st.sim = 0 ↔ (p.le H bv d).1 = true := by
  constructor
  · intro h0
    rw [le_fst_iff]
    simp only [Chunk.matchC] at h
    split at h
    · next he => exact Or.inl he
    · obtain ⟨st', h1, _, h3⟩ := rel_matchSlots H cfg hp [] d ⟨bv, 0⟩ p.slots
      rw [h] at h1; cases h1
      rcases h3 with h3 | ⟨_, h4⟩
      · exact Or.inr ((matchSlots_ok H [] d p.slots _ _).mp h3).1
      · have := h4 hs
        simp only at this
        linarith
  · intro hle
    have := C07_exact_zero H cfg hp bv _ p d (Prod.ext hle rfl : p.le H bv d = (true, (p.le H bv d).2))
    rw [h] at this; cases this; rfl

/-- C07: further slots in the pattern never raise the score. -/
theorem C07_more_constraints (H : PyHash) (cfg : MatchCfg) (hp : cfg.partialm = true)
    (hs : ∀ x y, getSimilarity H cfg x y ≤ 0) (bv : BV) (t : String) (xs ys : Slots) (d : Chunk) (st st' : MState)
    (h : (⟨t, xs⟩ : Chunk).matchC H cfg bv d = .ok st) (hne : (⟨t, xs⟩ : Chunk).eq H bv d = false)
    (h' : (⟨t, xs ++ ys⟩ : Chunk).matchC H cfg bv d = .ok st') (hne' : (⟨t, xs ++ ys⟩ : Chunk).eq H bv d = false) :
    st'.sim ≤ st.sim := by
  simp only [Chunk.matchC, hne, hne', Bool.false_eq_true, if_false, matchSlots, loopE_append] at h h'
  rw [h] at h'
  obtain ⟨st2, h1, h2, _⟩ := rel_matchSlots H cfg hp [] d st ys
  simp only [matchSlots] at h1
  simp only at h'
  rw [h1] at h'; cases h'
  exact h2 hs

/-- A score that is not 0: pattern `a=1, b~=2` against `f(a=3, b=2)`, no similarities, penalty 1, gives -2. -/
example {H : PyHash} :
    matchSlots H ⟨true, 1, []⟩ ⟨"f", [("a", pv "3"), ("b", pv "2")]⟩ ⟨BV.init, 0⟩
      [("a", pv "1"), ("b", .vv ⟨.none, Option.none, [.str "2"], []⟩)] = .ok ⟨BV.init, -2⟩ := by
  simp [matchSlots, loopE, matchSlot, splitting, matchVar, matchValue, matchNegVal, matchingVal, alook, penalise,
    getSimilarity, simLook, pyEq, Val.view, View.eq, Val.truthy, negValHit]
  norm_num

end Verif.Props
