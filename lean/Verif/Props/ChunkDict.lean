import Verif.Lemmas.ChunkDict
import Verif.Props.ChunkType
/-! # Property C12: chunks from strings -/
namespace Verif.Props
open Verif Verif.Spec

/-- The chunks whose names are used contain no variables or negations. -/
def PlainNamed (named : List (String × Chunk)) (toks : List (String × PTok)) : Prop := ∀ n s c, (n, .plain s) ∈ toks → alook s named = some c → Plain c

/-- The whole of C12: a conflict in some slot is reported as ACTRError; otherwise (with legal names) a chunk of the type
given by `isa` is made, whose slots collect everything said about them. -/
def C12_full : Prop := ∀ (H : PyHash) (_ : H.CollisionFree) (E : PyEnv) (w : World) (_ : Reach E w.types)
  (toks : List (String × PTok)) (_ : PlainNamed w.named toks) (_ : ∀ n t, (n, t) ∈ toks → WellTok t) (name : String),
  ((∃ n, Conflict w.named toks n) → chunkstring H E w name toks = (w, .error .actr)) ∧
  ((¬ ∃ n, Conflict w.named toks n) → (∀ n, Mentioned toks n → n ≠ "isa" → E.fieldOk n = true) →
    ∀ t, ("isa", .plain t) ∈ toks → Unquoted t → t ≠ "" → E.typeOk t = true →
      t ≠ "_manual" → t ≠ "_visual" → t ≠ "_visuallocation" →
      ∃ c, (chunkstring H E w name toks).2 = .ok c ∧ c.typ = t ∧
        ∀ n, Mentioned toks n → n ≠ "isa" → ∃ x, (n, SlotOf.vv x) ∈ c.slots ∧ Collects w.named toks n x)

theorem dict_rel {H : PyHash} (cf : H.CollisionFree) {named : List (String × Chunk)}
    (toks : List (String × PTok)) (hn : PlainNamed named toks) (ht : ∀ n t, (n, t) ∈ toks → WellTok t) :
    DictRel H named toks (accAll H named [] toks) := by
  have := accAll_rel cf toks hn ht [] [] (dictRel_nil H named)
  simpa using this

/-- C12: two different values or variables for a slot raise ACTRError and nothing is created. -/
theorem C12_conflict {H : PyHash} (cf : H.CollisionFree) (E : PyEnv) (w : World)
    (toks : List (String × PTok)) (hn : PlainNamed w.named toks) (ht : ∀ n t, (n, t) ∈ toks → WellTok t) (name : String)
    (hc : ∃ n, Conflict w.named toks n) : chunkstring H E w name toks = (w, .error .actr) := by
  have hr := dict_rel cf toks hn ht
  have herr : closeAll E.toSetOrder (accAll H w.named [] toks) = .error .actr := by
    cases h : closeAll E.toSetOrder (accAll H w.named [] toks) with
    | error e =>
      obtain ⟨n, a, hm, ha⟩ := closeAll_err h
      rcases close_cases E.toSetOrder (hr.acc n a (alook_of_mem hr.nodup hm)) with ⟨_, h'⟩ | ⟨_, x, h', _⟩
      · rw [ha] at h'; cases h'; rfl
      · rw [ha] at h'; cases h'
    | ok xs =>
      obtain ⟨n, hcn⟩ := hc
      have hmen : Mentioned toks n := by
        rcases hcn with ⟨v, _, ⟨t, h, _⟩, _⟩ | ⟨v, _, ⟨t, h, _⟩, _⟩ <;> exact ⟨t, h⟩
      obtain ⟨a, ha⟩ := mem_keys_iff.mp ((hr.keys n).mpr hmen)
      obtain ⟨x, hx, _⟩ := (closeAll_ok h).2 n a ha
      rcases close_cases E.toSetOrder (hr.acc n a ha) with ⟨_, h'⟩ | ⟨hnc, _⟩
      · rw [hx] at h'; cases h'
      · exact absurd hcn hnc
  simp [chunkstring, createchunkdict, herr]

theorem alook_filter_ne {α : Type} (n m : String) (h : m ≠ n) (l : List (String × α)) :
    alook m (l.filter (fun p => p.1 ≠ n)) = alook m l := by
  induction l with
  | nil => rfl
  | cons x r ih =>
    obtain ⟨k, a⟩ := x
    by_cases hk : k = n
    · subst hk
      simp only [ne_eq, not_true_eq_false, decide_false, Bool.false_eq_true, not_false_eq_true, List.filter_cons_of_neg, alook,
        Ne.symm h, if_false]
      simpa using ih
    · simp only [ne_eq, hk, not_false_eq_true, decide_true, List.filter_cons_of_pos, alook]
      simp only [ne_eq] at ih
      rw [ih]

/-- C12, parsing: without conflicts, the dictionary has exactly the mentioned slots except `isa`, each collecting what is said
about it, and the type is what is said about `isa`. Missing: the spelling `ISA` must not be used (it is only looked at when
`isa` is there as well). -/
theorem C12_collect_partial {H : PyHash} (cf : H.CollisionFree) (O : SetOrder) (named : List (String × Chunk))
    (toks : List (String × PTok)) (hn : PlainNamed named toks) (ht : ∀ n t, (n, t) ∈ toks → WellTok t)
    (hc : ¬ ∃ n, Conflict named toks n) (hISA : ¬ Mentioned toks "ISA") :
    ∃ typ d, createchunkdict H O named toks = .ok (typ, d) ∧ (d.map Prod.fst).Nodup ∧
      (∀ n, n ∈ d.map Prod.fst ↔ Mentioned toks n ∧ n ≠ "isa") ∧
      (∀ n x, (n, x) ∈ d → Collects named toks n x) ∧
      (¬ Mentioned toks "isa" → typ = .str "") ∧
      (Mentioned toks "isa" → ∃ x, Collects named toks "isa" x ∧ typ = x.values) := by
  have hr := dict_rel cf toks hn ht
  cases h : closeAll O (accAll H named [] toks) with
  | error e =>
    exfalso
    obtain ⟨n, a, hm, ha⟩ := closeAll_err h
    rcases close_cases O (hr.acc n a (alook_of_mem hr.nodup hm)) with ⟨h', _⟩ | ⟨_, x, h', _⟩
    · exact hc ⟨n, h'⟩
    · rw [ha] at h'; cases h'
  | ok xs =>
    obtain ⟨hk, hx⟩ := closeAll_ok h
    have hnd : (xs.map Prod.fst).Nodup := by rw [hk]; exact hr.nodup
    have hmem : ∀ n, n ∈ xs.map Prod.fst ↔ Mentioned toks n := by intro n; rw [hk]; exact hr.keys n
    have hcol : ∀ n x, alook n xs = some x → Collects named toks n x := by
      intro n x hnx
      have : n ∈ (accAll H named [] toks).map Prod.fst := by rw [← hk]; exact mem_keys_iff.mpr ⟨x, hnx⟩
      obtain ⟨a, ha⟩ := mem_keys_iff.mp this
      obtain ⟨y, hy1, hy2⟩ := hx n a ha
      rw [hnx] at hy2; cases hy2
      rcases close_cases O (hr.acc n a ha) with ⟨_, h'⟩ | ⟨_, z, h', hz⟩
      · rw [hy1] at h'; cases h'
      · rw [hy1] at h'; cases h'; exact hz
    have hISA' : alook "ISA" xs = Option.none := by
      cases he : alook "ISA" xs with
      | none => rfl
      | some x => exact absurd ((hmem _).mp (mem_keys_iff.mpr ⟨x, he⟩)) hISA
    cases hi : alook "isa" xs with
    | none =>
      have hnm : ¬ Mentioned toks "isa" := by
        intro hm; obtain ⟨a, ha⟩ := mem_keys_iff.mp ((hmem _).mpr hm); rw [hi] at ha; cases ha
      refine ⟨.str "", xs, by simp [createchunkdict, h, popTypes, apop, hi], hnd, ?_, ?_, fun _ => rfl, fun h => absurd h hnm⟩
      · intro n; rw [hmem]
        refine ⟨fun h => ⟨h, ?_⟩, And.left⟩
        rintro rfl; exact hnm h
      · intro n x hm; exact hcol n x (alook_of_mem hnd hm)
    | some x =>
      have hI2 : alook "ISA" (xs.filter (fun p => p.1 ≠ "isa")) = Option.none := by
        rw [alook_filter_ne _ _ (by decide), hISA']
      refine ⟨x.values, xs.filter (fun p => p.1 ≠ "isa"), ?_, ?_, ?_, ?_, ?_, ?_⟩
      · simp only [createchunkdict, h, popTypes, apop, hi, Option.map_some, hI2, Option.map_none]
      · exact hnd.sublist (List.Sublist.map _ List.filter_sublist)
      · intro n
        simp only [List.mem_map, List.mem_filter, decide_eq_true_eq, ← hmem]
        constructor
        · rintro ⟨p, ⟨hp, hne⟩, rfl⟩; exact ⟨⟨p, hp, rfl⟩, hne⟩
        · rintro ⟨⟨p, hp, rfl⟩, hne⟩; exact ⟨p, ⟨hp, hne⟩, rfl⟩
      · intro n y hm; exact hcol n y (alook_of_mem hnd (List.mem_filter.mp hm).1)
      · intro hm; exact absurd ((hmem "isa").mp (mem_keys_iff.mpr ⟨x, hi⟩)) hm
      · intro _; exact ⟨x, hcol _ _ hi, rfl⟩

theorem convertAll_vv (E : PyEnv) (d : List (String × VarVal)) :
    convertAll E (d.map (fun p => (p.1, SlotArg.vv p.2))) = .ok d := by
  induction d with
  | nil => rfl
  | cons x r ih => simp [convertAll, SlotArg.convert, ih]

/-- C12, the chunk: without conflicts and with legal names, a chunk is made of the type that `isa` says (or of a new
undefined type), its slots collect what is said about them, and it is registered under its name and no other name changes.
Missing: the type must not be the name of an existing chunk, and `ISA` must not be used. -/
theorem C12_chunk_partial {H : PyHash} (cf : H.CollisionFree) (E : PyEnv) (w : World) (hreach : Reach E w.types)
    (toks : List (String × PTok)) (hn : PlainNamed w.named toks) (ht : ∀ n t, (n, t) ∈ toks → WellTok t) (name : String)
    (hc : ¬ ∃ n, Conflict w.named toks n) (hISA : ¬ Mentioned toks "ISA")
    (hf : ∀ n, Mentioned toks n → n ≠ "isa" → E.fieldOk n = true) (t : String)
    (hisa : (("isa", .plain t) ∈ toks ∧ Unquoted t ∧ t ≠ "" ∧ alook t w.named = Option.none) ∨
      (¬ Mentioned toks "isa" ∧ t = "undefined" ++ toString w.counter))
    (hto : E.typeOk t = true) (hsp : t ≠ "_manual" ∧ t ≠ "_visual" ∧ t ≠ "_visuallocation") :
    ∃ c w', chunkstring H E w name toks = (w', .ok c) ∧ c.typ = t ∧
      (∀ n, Mentioned toks n → n ≠ "isa" → ∃ x, (n, SlotOf.vv x) ∈ c.slots ∧ Collects w.named toks n x) ∧
      (∀ n, n ∈ c.slots.map Prod.fst ↔ HasField w.types t n ∨ (Mentioned toks n ∧ n ≠ "isa")) ∧
      alook (if name = "" then "unnamedchunk" else name) w'.named = some c ∧
      (∀ m, m ≠ (if name = "" then "unnamedchunk" else name) → alook m w'.named = alook m w.named) ∧
      Reach E w'.types := by
  obtain ⟨typ, d, hd, hnd, hkeys, hcol, hno, hyes⟩ := C12_collect_partial cf E.toSetOrder w.named toks hn ht hc hISA
  -- the type that is used
  have htyp : (typ.truthy = true ∧ typ = .str t) ∨
      (typ.truthy = false ∧ t = "undefined" ++ toString w.counter) := by
    rcases hisa with ⟨hm, hu, hne, hal⟩ | ⟨hm, rfl⟩
    · left
      obtain ⟨x, hx, rfl⟩ := hyes ⟨_, hm⟩
      have hsaid : SaidOf w.named toks "isa" (.value (.str t)) := ⟨_, hm, .word hu hal⟩
      have hcont := hx.allValues _ hsaid
      have : x.values = .str t := by
        revert hcont
        cases x.values <;> simp [content]
      rw [this]; exact ⟨by simpa [Val.truthy] using hne, rfl⟩
    · right; rw [hno hm]; exact ⟨by decide, rfl⟩
  have hdk : ((d.map (fun p => (p.1, SlotArg.vv p.2))).map Prod.fst) = d.map Prod.fst := by simp [Function.comp_def]
  obtain ⟨c, hcr⟩ := (C09_success hreach t (d.map (fun p => (p.1, SlotArg.vv p.2))) (by rw [hdk]; exact hnd)).mpr
    ⟨by intro f a hm; simp only [List.mem_map, Prod.mk.injEq] at hm; obtain ⟨p, _, rfl, rfl⟩ := hm; exact ⟨_, rfl⟩,
     .inr ⟨hsp.1, hsp.2.1, hsp.2.2, hto, by
      intro f hm; rw [hdk] at hm; obtain ⟨h1, h2⟩ := (hkeys f).mp hm; exact hf f h1 h2⟩⟩
  generalize hres : createChunk E w.types t (d.map (fun p => (p.1, SlotArg.vv p.2))) = res at hcr
  obtain ⟨reg', o⟩ := res
  simp only at hcr
  subst hcr
  obtain ⟨s1, s2, s3, s4, s5, s6, s7⟩ := C09_slots hreach t _ (by rw [hdk]; exact hnd) c reg' hres
  have hcomp : ∃ k, chunkstring H E w name toks =
      (⟨reg', aset (if name = "" then "unnamedchunk" else name) c w.named, k⟩, .ok c) := by
    rcases htyp with ⟨h1, h2⟩ | ⟨h1, h2⟩
    · refine ⟨w.counter, ?_⟩
      subst h2
      simp only [chunkstring, hd, makechunk, h1, if_true, convertAll_vv, hres]
    · refine ⟨w.counter + 1, ?_⟩
      subst h2
      simp only [chunkstring, hd, makechunk, h1, convertAll_vv]
      rw [if_neg (by simp)]
      simp only [hres]
  obtain ⟨k, hcomp⟩ := hcomp
  refine ⟨c, _, hcomp, s1, ?_, ?_, ?_, ?_, ?_⟩
  · intro n hm hne
    obtain ⟨x, hx⟩ := mem_keys_iff.mp ((hkeys n).mpr ⟨hm, hne⟩)
    have hmx := alook_mem hx
    obtain ⟨y, hy1, hy2⟩ := s4 n (.vv x) (List.mem_map.mpr ⟨(n, x), hmx, rfl⟩)
    simp only [Holds] at hy1; subst hy1
    exact ⟨y, hy2, hcol n y hmx⟩
  · intro n; rw [s3, hdk, hkeys]
  · simp [alook_aset]
  · intro m hm; simp [alook_aset, hm]
  · have := Reach.chunk (typ := t) (dict := d.map (fun p => (p.1, SlotArg.vv p.2))) hreach (by rw [hdk]; exact hnd)
    rw [hres] at this; exact this

/-- Tokens of the example: `isa t a 1 a ~2 a =x b 'c d'`. -/
def exToks : List (String × PTok) :=
  [("isa", .plain "t"), ("a", .plain "1"), ("a", .special "~" "2"), ("a", .special "=" "x"), ("b", .plain "'c d'")]

theorem unq (s : String) (h : ∀ c r, s.toList = c :: r → c ≠ '\'' ∧ c ≠ '"') : Unquoted s := by
  intro r
  constructor
  · rintro rfl
    simpa using h '\'' r.toList (by simp [String.toList_append])
  · rintro rfl
    simpa using h '"' r.toList (by simp [String.toList_append])

theorem exToks_well : ∀ n t, (n, t) ∈ exToks → WellTok t := by
  intro n t h
  simp [exToks] at h
  rcases h with ⟨_, rfl⟩ | ⟨_, rfl⟩ | ⟨_, rfl⟩ | ⟨_, rfl⟩ | ⟨_, rfl⟩
  · exact ⟨"t", .inr ⟨unq _ (by simp), rfl⟩⟩
  · exact ⟨"1", .inr ⟨unq _ (by simp), rfl⟩⟩
  · exact .inr ⟨by simp, "2", .inr ⟨unq _ (by simp), rfl⟩⟩
  · exact .inr ⟨by simp, "x", .inr ⟨unq _ (by simp), rfl⟩⟩
  · exact ⟨"c d", .inl (.inl (by decide))⟩

/-- The parsed tokens say one value and one variable about `a`, whatever chunks have names, and there is no conflict. -/
theorem exToks_noConflict (named : List (String × Chunk)) : ¬ ∃ n, Conflict named exToks n := by
  have key : ∀ n c, SaidOf named exToks n c → (n = "isa" ∧ Says named (.plain "t") c) ∨ (n = "a" ∧ (Says named (.plain "1") c ∨
      c = .negval "2" ∨ c = .var "x")) ∨ (n = "b" ∧ Says named (.plain "'c d'") c) := by
    rintro n c ⟨t, ht, hs⟩
    simp [exToks] at ht
    rcases ht with ⟨rfl, rfl⟩ | ⟨rfl, rfl⟩ | ⟨rfl, rfl⟩ | ⟨rfl, rfl⟩ | ⟨rfl, rfl⟩
    · exact .inl ⟨rfl, hs⟩
    · exact .inr (.inl ⟨rfl, .inl hs⟩)
    · have := says_special hs; simp at this
      obtain ⟨u, hu, rfl⟩ := this
      have : u = "2" := wordMeans_unique hu (.inr ⟨unq _ (by simp), rfl⟩)
      subst this; exact .inr (.inl ⟨rfl, .inr (.inl rfl)⟩)
    · have := says_special hs; simp at this
      obtain ⟨u, hu, rfl⟩ := this
      have : u = "x" := wordMeans_unique hu (.inr ⟨unq _ (by simp), rfl⟩)
      subst this; exact .inr (.inl ⟨rfl, .inr (.inr rfl)⟩)
    · exact .inr (.inr ⟨rfl, hs⟩)
  have one : ∀ s v w, Says named (.plain s) (.value v) → Says named (.plain s) (.value w) → v = w := by
    intro s v w h1 h2
    cases h1 with
    | quoted q1 => cases h2 with
      | quoted q2 => rw [← (quotedAs_facts q1).2, ← (quotedAs_facts q2).2]
      | chunk u2 _ => have := (quotedAs_facts q1).1; rw [unquoted_facts u2] at this; cases this
      | word u2 _ => have := (quotedAs_facts q1).1; rw [unquoted_facts u2] at this; cases this
    | chunk u1 l1 => cases h2 with
      | quoted q2 => have := (quotedAs_facts q2).1; rw [unquoted_facts u1] at this; cases this
      | chunk u2 l2 => rw [l1] at l2; cases l2; rfl
      | word u2 l2 => rw [l1] at l2; cases l2
    | word u1 l1 => cases h2 with
      | quoted q2 => have := (quotedAs_facts q2).1; rw [unquoted_facts u1] at this; cases this
      | chunk u2 l2 => rw [l1] at l2; cases l2
      | word u2 l2 => rfl
  have novar : ∀ s y, ¬ Says named (.plain s) (.var y) := by intro s y h; cases h
  rintro ⟨n, ⟨v, w, h1, h2, hne⟩ | ⟨x, y, h1, h2, hne⟩⟩
  · rcases key _ _ h1 with ⟨rfl, k1⟩ | ⟨rfl, k1⟩ | ⟨rfl, k1⟩ <;> have k2 := key _ _ h2 <;> simp at k1 k2
    · exact hne (congrArg content (one _ _ _ k1 k2))
    · exact hne (congrArg content (one _ _ _ k1 k2))
    · exact hne (congrArg content (one _ _ _ k1 k2))
  · rcases key _ _ h1 with ⟨rfl, k1⟩ | ⟨rfl, k1⟩ | ⟨rfl, k1⟩ <;> have k2 := key _ _ h2 <;> simp [novar] at k1 k2
    exact hne (k1.trans k2.symm)

/-- C12 is false: if a chunk has the name that `isa` uses for the type, no chunk is made. -/
theorem C12_refuted : ¬ C12_full := by
  intro h
  obtain ⟨H, cf⟩ := exists_collisionFree
  let w : World := ⟨[], [("t", ⟨"u", [("z", .vv ⟨.str "0", Option.none, [], []⟩)]⟩)], 0⟩
  have hp : PlainNamed w.named exToks := by
    intro _ s c _ hs
    simp only [w, alook] at hs
    split at hs
    · cases hs; simp [Plain, PlainSlots, PlainSlot, PlainVal]
    · cases hs
  obtain ⟨c, hc, _⟩ := (h H cf exEnv w .empty exToks hp exToks_well "n").2 (exToks_noConflict _)
    (by
      rintro n ⟨t, ht⟩ hne
      simp [exToks] at ht
      rcases ht with ⟨rfl, _⟩ | ⟨rfl, _⟩ | ⟨rfl, _⟩ | ⟨rfl, _⟩ | ⟨rfl, _⟩ <;> first | decide | exact absurd rfl hne)
    "t" (by simp [exToks]) (unq _ (by simp)) (by decide) (by decide) (by decide) (by decide) (by decide)
  have hISA : ¬ Mentioned exToks "ISA" := by rintro ⟨t, ht⟩; simp [exToks] at ht
  obtain ⟨typ, d, hd, _, _, _, _, hyes⟩ := C12_collect_partial cf exEnv.toSetOrder w.named exToks hp exToks_well
    (exToks_noConflict _) hISA
  obtain ⟨x, hx, rfl⟩ := hyes ⟨_, by simp [exToks]; rfl⟩
  have hsaid : SaidOf w.named exToks "isa" (.value (.chunk "u" [("z", .vv ⟨.str "0", Option.none, [], []⟩)])) :=
    ⟨.plain "t", by simp [exToks], .chunk (c := ⟨"u", [("z", .vv ⟨.str "0", Option.none, [], []⟩)]⟩) (unq _ (by simp)) rfl⟩
  have hcont := hx.allValues _ hsaid
  have hcs : (chunkstring H exEnv w "n" exToks).2 = .error .key := by
    simp only [chunkstring, hd]
    revert hcont
    cases hv : x.values with
    | none => simp [content]
    | empty => simp [content]
    | str s => simp [content]
    | chunk ty sl =>
      intro hcont
      have htr : (Val.chunk ty sl).truthy = true := by
        cases sl with
        | nil => simp [content, contentSlots, contentSlot, Noneish] at hcont
        | cons => rfl
      simp only [makechunk, htr, if_true, convertAll_vv]
  rw [hcs] at hc; cases hc

/-- The hypotheses of C12_chunk_partial are met by the example. -/
example : Reach exEnv [] ∧ PlainNamed [] exToks ∧ (∀ n t, (n, t) ∈ exToks → WellTok t) ∧ (¬ ∃ n, Conflict [] exToks n) ∧
    ¬ Mentioned exToks "ISA" ∧ (("isa", PTok.plain "t") ∈ exToks ∧ Unquoted "t" ∧ "t" ≠ "" ∧
      alook "t" ([] : List (String × Chunk)) = Option.none) ∧ exEnv.typeOk "t" = true :=
  ⟨.empty, (by intro _ s c _ h; cases h), exToks_well, exToks_noConflict _, (by rintro ⟨t, ht⟩; simp [exToks] at ht),
    ⟨by simp [exToks], unq _ (by simp), by decide, rfl⟩, by decide⟩

/-- A conflict: two different values for one slot. -/
example : Conflict [] [("a", .plain "1"), ("b", .plain "2"), ("a", .plain "3")] "a" :=
  .inl ⟨.str "1", .str "3", ⟨_, by simp, .word (unq "1" (by simp)) rfl⟩, ⟨.plain "3", by simp, .word (unq "3" (by simp)) rfl⟩,
    by simp [content]⟩

end Verif.Props
