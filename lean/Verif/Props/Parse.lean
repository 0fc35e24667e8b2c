import Verif.Lemmas.Parse
import Verif.Props.ChunkDict
/-!
# Properties C54-C56: rules from strings
-/
namespace Verif.Props
open Verif Verif.Spec

/-! ## C54: strings are read as they are written -/

/-- **C54, rules.** A rule in the documented form, with white space of any kind and length, is stored under its name with exactly
the tests and actions that were written, in their order. -/
theorem C54_rule {t : RuleText} {text : String} (h : RuleWritten true t text.toList) (rules : List (String × StoredRule)) {name : String} (hn : name ≠ "")
    (u : ℚ) (rw : Option ℚ) : productionstring rules name text u rw = (aset name ⟨t, u, rw⟩ rules, .ok ⟨t, u, rw⟩) := by
  unfold productionstring
  rw [if_neg hn, parseAll_rule h]

/-- **C54, other strings.** Nothing is left out or made up: what is stored is written in the string (white space may be missing),
from its beginning to its end. -/
theorem C54_nothing_else {rules : List (String × StoredRule)} {name text : String} {u : ℚ} {rw : Option ℚ} {s : StoredRule} (ht : '\t' ∉ text.toList)
    (h : (productionstring rules name text u rw).2 = .ok s) : RuleWritten false s.text text.toList ∧ s.utility = u ∧ s.reward = rw := by
  unfold productionstring at h
  split at h
  · cases h
  · split at h
    · cases h
    · rename_i t e
      obtain rfl : (⟨t, u, rw⟩ : StoredRule) = s := Except.ok.inj h
      exact ⟨parseAll_rule_sound ht e, rfl, rfl⟩

/-- **C54, refusal.** A string that is not a rule, even with white space left out, raises ACTRError and changes nothing. -/
theorem C54_refused {rules : List (String × StoredRule)} {name text : String} {u : ℚ} {rw : Option ℚ} (ht : '\t' ∉ text.toList) (hn : name ≠ "")
    (h : ∀ t, ¬ RuleWritten false t text.toList) : productionstring rules name text u rw = (rules, .error .actr) := by
  unfold productionstring
  rw [if_neg hn]
  cases hp : parseAll readRule text with
  | none => rfl
  | some t => exact (h t (parseAll_rule_sound ht hp)).elim

/-- A string can be read in one way only. -/
theorem C54_unique {t t' : RuleText} {text : String} (h : RuleWritten true t text.toList) (h' : RuleWritten true t' text.toList) : t = t' :=
  Option.some.inj ((parseAll_rule h).symm.trans (parseAll_rule h'))

/-- **C54, chunks.** -/
theorem C54_chunk {l : List (String × PTok)} {text : String} (h : ChunkWritten true l text.toList) (H : PyHash) (E : PyEnv) (w : World) (name : String) :
    chunkFromString H E w name text = ((chunkstring H E w name l).1, some (chunkstring H E w name l).2) := by
  unfold chunkFromString
  rw [parseAll_chunk h]

/-- What is not a chunk is refused and changes nothing; what is made is made from what is written. -/
theorem C54_chunk_else {text : String} (ht : '\t' ∉ text.toList) (H : PyHash) (E : PyEnv) (w : World) (name : String) :
    ((∀ l, ¬ ChunkWritten false l text.toList) → chunkFromString H E w name text = (w, Option.none)) ∧
    ((chunkFromString H E w name text).2.isSome → ∃ l, ChunkWritten false l text.toList ∧
      chunkFromString H E w name text = ((chunkstring H E w name l).1, some (chunkstring H E w name l).2)) := by
  unfold chunkFromString
  cases hp : parseAll readChunk text with
  | none => exact ⟨fun _ => rfl, by simp⟩
  | some l => exact ⟨fun h => (h l (parseAll_chunk_sound ht hp)).elim, fun _ => ⟨l, parseAll_chunk_sound ht hp, rfl⟩⟩

/-- The rule of the example: a test, a query, a modification, a clearing and a command. -/
def exRuleText : RuleText :=
  ⟨[⟨"=", "g", [("isa", .plain "t"), ("x", .special "~=" "y")]⟩, ⟨"?", "m", [("state", .plain "free")]⟩],
   [⟨"=", "g", [("v", .plain "'a b'")]⟩, ⟨"~", "m", []⟩]⟩

def exRuleString : String := "=g>isa\tt  x ~=y\n ?m> state free\n==>\n =g> v 'a b' ~m>"

theorem exRule_written : RuleWritten true exRuleText exRuleString.toList := by
  have gap : ∀ (b : Bool) (g : List Char), g.all wsChar = true → (b && g.isEmpty) = false → Gap b g := by
    intro b g h1 h2
    refine ⟨fun c hc => (wsChar_iff c).1 (List.all_eq_true.1 h1 c hc), ?_⟩
    rintro rfl rfl
    cases h2
  have slot : ∀ (n : String) (c : Char) (t : List Char), n.toList = c :: t → c.isAlpha = true → (t.all fun x => x.isAlphanum) = true → SlotName n :=
    fun n c t e h1 h2 => ⟨c, t, e, .inl h1, fun x hx => .inl (List.all_eq_true.1 h2 x hx)⟩
  have buf : ∀ (n : String) (c : Char) (t : List Char), n.toList = c :: t → c.isAlpha = true → (t.all fun x => x.isAlphanum) = true → BufferName n :=
    fun n c t e h1 h2 => ⟨c, t, e, h1, fun x hx => .inl (List.all_eq_true.1 h2 x hx)⟩
  have word : ∀ w : String, w.toList ≠ [] → (w.toList.all fun x => x.isAlphanum) = true → ValueWritten (.plain w) w.toList :=
    fun w h1 h2 => .word h1 fun x hx => .inl (List.all_eq_true.1 h2 x hx)
  have hl : PartsWritten true ["=", "?"] false exRuleText.lhs _ :=
    .cons (g := []) (h := []) (i := []) (gap _ _ rfl rfl) (by decide) gap_nil (buf "g" 'g' [] rfl (by decide) rfl) gap_nil
      (.cons (g := []) (h := ['\t']) gap_nil (slot "isa" 'i' ['s', 'a'] rfl (by decide) (by decide)) (gap _ _ (by decide) rfl) (word "t" (by decide) (by decide))
        (.cons (g := [' ', ' ']) (h := [' ']) (gap _ _ (by decide) rfl) (slot "x" 'x' [] rfl (by decide) rfl) (gap _ _ (by decide) rfl)
          (.special (op := "~=") (w := "y") (g := []) (by decide) gap_nil (by decide) (by decide)) .nil))
      (.cons (g := ['\n', ' ']) (h := []) (i := []) (gap _ _ (by decide) rfl) (by decide) gap_nil (buf "m" 'm' [] rfl (by decide) rfl) gap_nil
        (.cons (g := [' ']) (h := [' ']) (gap _ _ (by decide) rfl) (slot "state" 's' ['t', 'a', 't', 'e'] rfl (by decide) (by decide)) (gap _ _ (by decide) rfl)
          (word "free" (by decide) (by decide)) .nil)
        .nil)
  have hr : PartsWritten true ["=", "?", "+", "~", "!", "@", "*"] false exRuleText.rhs _ :=
    .cons (g := ['\n', ' ']) (h := []) (i := []) (gap _ _ (by decide) rfl) (by decide) gap_nil (buf "g" 'g' [] rfl (by decide) rfl) gap_nil
      (.cons (g := [' ']) (h := [' ']) (gap _ _ (by decide) rfl) (slot "v" 'v' [] rfl (by decide) rfl) (gap _ _ (by decide) rfl)
        (.quoted (q := '\'') (w := "'a b'") (t := ['a', ' ', 'b']) (.inr rfl) rfl (by decide)) .nil)
      (.cons (g := [' ']) (h := []) (i := []) (gap _ _ (by decide) rfl) (by decide) gap_nil (buf "m" 'm' [] rfl (by decide) rfl) gap_nil .nil .nil)
  exact ⟨by simp [exRuleText], by simp [exRuleText], _, ['\n'], _, [], hl, gap _ _ (by decide) rfl, hr, gap_nil, by decide⟩

/-- The example is read as meant. -/
example : productionstring [] "r" exRuleString 1 Option.none = ([("r", ⟨exRuleText, 1, Option.none⟩)], .ok ⟨exRuleText, 1, Option.none⟩) :=
  C54_rule exRule_written [] (by decide) 1 Option.none

/-- A rule without an arrow is none. -/
theorem exNoArrow (t : RuleText) : ¬ RuleWritten false t "=g> isa t".toList := by
  rintro ⟨-, -, l, g, m, e, -, -, -, -, h⟩
  have hm : ['=', '=', '>'] <:+: "=g> isa t".toList := ⟨l ++ g, m ++ e, by rw [h]; simp⟩
  revert hm
  decide

example (rules : List (String × StoredRule)) : productionstring rules "r" "=g> isa t" 0 Option.none = (rules, .error .actr) :=
  C54_refused (by decide) (by decide) exNoArrow

/-! ## C55: a rule does what its string says -/

/-- The whole of C55: the dictionaries that a rule yields have, for every test and action, an entry under its sign and buffer that
means what was written, and no other entries. -/
def C55_full : Prop := ∀ (H : PyHash) (_ : H.CollisionFree) (E : PyEnv) (right : Bool) (w : World) (_ : Reach E w.types) (parts : List RulePart)
  (_ : ∀ p ∈ parts, PlainNamed w.named p.pairs ∧ (∀ n t, (n, t) ∈ p.pairs → WellTok t) ∧ ¬ Mentioned p.pairs "ISA" ∧ ∀ n, (n, .plain "unnamedchunk") ∉ p.pairs)
  (w' : World) (d : List (String × Yielded)), yieldSide H E right w [] parts = (w', .ok d) →
    (∀ p ∈ parts, ∃ v, alook (p.sign ++ p.buffer) d = some v ∧ PartMeans w.named right p v) ∧
    ∀ k v, alook k d = some v → ∃ p ∈ parts, k = p.sign ++ p.buffer

/-- The parts of the counterexample: one buffer queried twice. -/
def exTwice : List RulePart := [⟨"?", "g", [("buffer", .plain "full")]⟩, ⟨"?", "g", [("state", .plain "free")]⟩]

/-- C55 is false: of two queries (or tests, or actions) with the same sign and buffer only the last one counts. -/
theorem C55_refuted : ¬ C55_full := by
  intro h
  obtain ⟨H, cf⟩ := exists_collisionFree
  have hp : ∀ p ∈ exTwice, PlainNamed [] p.pairs ∧ (∀ n t, (n, t) ∈ p.pairs → WellTok t) ∧ ¬ Mentioned p.pairs "ISA" ∧ ∀ n, (n, .plain "unnamedchunk") ∉ p.pairs := by
    intro p hp
    simp only [exTwice, List.mem_cons, List.not_mem_nil, or_false] at hp
    rcases hp with rfl | rfl
    · refine ⟨fun _ _ _ _ h => (by cases h), ?_, (by rintro ⟨t, ht⟩; simp at ht), by simp⟩
      intro n t ht
      simp only [List.mem_singleton, Prod.mk.injEq] at ht
      obtain ⟨-, rfl⟩ := ht
      exact ⟨"full", .inr ⟨unq _ (by simp), rfl⟩⟩
    · refine ⟨fun _ _ _ _ h => (by cases h), ?_, (by rintro ⟨t, ht⟩; simp at ht), by simp⟩
      intro n t ht
      simp only [List.mem_singleton, Prod.mk.injEq] at ht
      obtain ⟨-, rfl⟩ := ht
      exact ⟨"free", .inr ⟨unq _ (by simp), rfl⟩⟩
  obtain ⟨v, hv, hm⟩ := (h H cf exEnv false ⟨[], [], 0⟩ .empty exTwice hp ⟨[], [], 0⟩ [("?g", .queries [("state", .plain "free")])] rfl).1
    ⟨"?", "g", [("buffer", .plain "full")]⟩ (by simp [exTwice])
  obtain ⟨q, hq, hqs⟩ := hm.1 rfl
  have hk : ("?" : String) ++ "g" = "?g" := by decide
  rw [hk] at hv
  obtain rfl : Yielded.queries [("state", .plain "free")] = v := by simpa [alook] using hv
  obtain rfl : [("state", PTok.plain "free")] = q := by injection hq
  have := (hqs "buffer" (.plain "full")).2 (by simp)
  simp [alook] at this

/-! ### What holds -/

theorem says_congr {named named' : List (String × Chunk)} {t : PTok} (h : ∀ s, t = .plain s → alook s named = alook s named') {c : Contrib} (hs : Says named t c) :
    Says named' t c := by
  cases hs with
  | quoted hq => exact .quoted hq
  | chunk hu hl => exact .chunk hu (by rw [← h _ rfl]; exact hl)
  | word hu hl => exact .word hu (by rw [← h _ rfl]; exact hl)
  | var hw => exact .var hw
  | negval hw => exact .negval hw
  | negvar hw => exact .negvar hw
  | greater => exact .greater
  | smaller => exact .smaller
  | greaterVar => exact .greaterVar
  | greaterVal => exact .greaterVal
  | smallerVar => exact .smallerVar
  | smallerVal => exact .smallerVal

theorem saidOf_congr {named named' : List (String × Chunk)} {toks : List (String × PTok)} (h : ∀ n s, (n, .plain s) ∈ toks → alook s named = alook s named') (n : String) (c : Contrib) :
    SaidOf named toks n c ↔ SaidOf named' toks n c := by
  constructor
  · rintro ⟨t, ht, hs⟩; exact ⟨t, ht, says_congr (fun s e => h n s (e ▸ ht)) hs⟩
  · rintro ⟨t, ht, hs⟩; exact ⟨t, ht, says_congr (fun s e => (h n s (e ▸ ht)).symm) hs⟩

theorem collects_congr {named named' : List (String × Chunk)} {toks : List (String × PTok)} (h : ∀ n s, (n, .plain s) ∈ toks → alook s named = alook s named') {n : String} {x : VarVal}
    (hc : Collects named toks n x) : Collects named' toks n x := by
  have e := saidOf_congr h
  exact ⟨hc.value.imp_right (e n _).1, fun v hv => hc.allValues v ((e n _).2 hv), fun y => (hc.var y).trans (e n _),
    fun v => (hc.negval v).trans ⟨fun ⟨s, a, b⟩ => ⟨s, a, (e n _).1 b⟩, fun ⟨s, a, b⟩ => ⟨s, a, (e n _).2 b⟩⟩, fun y => (hc.negvar y).trans (e n _)⟩

/-- A chunk that is made is as described. -/
theorem chunkstring_describes {H : PyHash} (cf : H.CollisionFree) {E : PyEnv} {w w' : World} (hreach : Reach E w.types) {toks : List (String × PTok)}
    (hn : PlainNamed w.named toks) (ht : ∀ n t, (n, t) ∈ toks → WellTok t) (hISA : ¬ Mentioned toks "ISA") {name : String} {c : Chunk}
    (h : chunkstring H E w name toks = (w', .ok c)) :
    Describes w.named toks c ∧ w'.named = aset (if name = "" then "unnamedchunk" else name) c w.named ∧ Reach E w'.types := by
  have hc : ¬ ∃ n, Conflict w.named toks n := by
    intro hc
    rw [C12_conflict cf E w toks hn ht name hc] at h
    cases h
  obtain ⟨typ, d, hd, hnd, hkeys, hcol, hno, hyes⟩ := C12_collect_partial cf E.toSetOrder w.named toks hn ht hc hISA
  have hdk : ((d.map (fun p => (p.1, SlotArg.vv p.2))).map Prod.fst) = d.map Prod.fst := by simp [Function.comp_def]
  have hmade : ∃ t reg, createChunk E w.types t (d.map (fun p => (p.1, SlotArg.vv p.2))) = (reg, .ok c) ∧ w'.types = reg ∧
      w'.named = aset (if name = "" then "unnamedchunk" else name) c w.named ∧ (typ.truthy = true → typ = .str t) := by
    simp only [chunkstring, hd, makechunk] at h
    by_cases hty : typ.truthy = true
    · cases typ with
      | str s =>
        simp only [hty, if_true, convertAll_vv] at h
        cases hr : createChunk E w.types s (d.map (fun p => (p.1, SlotArg.vv p.2))) with
        | mk reg o =>
          rw [hr] at h
          cases o with
          | error e => simp at h
          | ok c' =>
            simp only [Prod.mk.injEq, Except.ok.injEq] at h
            obtain ⟨rfl, rfl⟩ := h
            exact ⟨s, reg, hr, rfl, rfl, fun _ => rfl⟩
      | none => simp [Val.truthy] at hty
      | empty => simp [hty, convertAll_vv] at h
      | chunk a b => simp [hty, convertAll_vv] at h
    · simp only [hty, convertAll_vv] at h
      rw [if_neg (by simp)] at h
      dsimp only at h
      cases hr : createChunk E w.types ("undefined" ++ toString w.counter) (d.map (fun p => (p.1, SlotArg.vv p.2))) with
      | mk reg o =>
        rw [hr] at h
        cases o with
        | error e => simp at h
        | ok c' =>
          simp only [Prod.mk.injEq, Except.ok.injEq] at h
          obtain ⟨rfl, rfl⟩ := h
          exact ⟨_, reg, hr, rfl, rfl, fun h => absurd h hty⟩
  obtain ⟨t, reg, hcr, hw1, hw2, htt⟩ := hmade
  obtain ⟨s1, s2, s3, s4, s5, s6, s7⟩ := C09_slots hreach t _ (by rw [hdk]; exact hnd) c reg hcr
  refine ⟨⟨?_, ?_⟩, hw2, ?_⟩
  · intro n hm hne
    obtain ⟨x, hx⟩ := mem_keys_iff.mp ((hkeys n).mpr ⟨hm, hne⟩)
    have hmx := alook_mem hx
    obtain ⟨y, hy1, hy2⟩ := s4 n (.vv x) (List.mem_map.mpr ⟨(n, x), hmx, rfl⟩)
    simp only [Holds] at hy1; subst hy1
    exact ⟨y, hy2, hcol n y hmx⟩
  · intro u hu huq hne hl
    obtain ⟨x, hx, rfl⟩ := hyes ⟨_, hu⟩
    have hcont := hx.allValues _ ⟨_, hu, .word huq hl⟩
    have hv : x.values = .str u := by
      revert hcont
      cases x.values <;> simp [content]
    have := htt (by rw [hv]; simpa [Val.truthy] using hne)
    rw [hv] at this
    rw [s1]
    injection this with e
    exact e.symm
  · rw [hw1]
    have := Reach.chunk (typ := t) (dict := d.map (fun p => (p.1, SlotArg.vv p.2))) hreach (by rw [hdk]; exact hnd)
    rw [hcr] at this; exact this

theorem alook_foldl_pairs (l : List (String × PTok)) : ∀ (d : List (String × PTok)), (l.map Prod.fst).Nodup → ∀ n t,
    alook n (l.foldl (fun d p => aset p.1 p.2 d) d) = some t ↔ (n, t) ∈ l ∨ (n ∉ l.map Prod.fst ∧ alook n d = some t) := by
  induction l with
  | nil => intro d _ n t; simp
  | cons x r ih =>
    intro d hnd n t
    obtain ⟨m, s⟩ := x
    simp only [List.map_cons, List.nodup_cons] at hnd
    rw [List.foldl_cons, ih _ hnd.2, alook_aset]
    simp only [List.mem_cons, List.map_cons, Prod.mk.injEq, not_or]
    by_cases hnm : n = m
    · subst hnm
      have hnr : (n, t) ∉ r := fun h => hnd.1 (List.mem_map.mpr ⟨_, h, rfl⟩)
      simp only [hnr, hnd.1, if_true, not_false_eq_true, true_and, not_true_eq_false, false_and, or_false, false_or, Option.some.injEq]
      exact eq_comm
    · simp [hnm]

theorem dictOf_iff {l : List (String × PTok)} (h : (l.map Prod.fst).Nodup) (n : String) (t : PTok) : alook n (dictOf l) = some t ↔ (n, t) ∈ l := by
  unfold dictOf
  rw [alook_foldl_pairs l [] h]
  simp [alook]

/-- The names other than "unnamedchunk" stand for the same chunks. -/
def SameNames (w w' : World) : Prop := ∀ s, s ≠ "unnamedchunk" → alook s w'.named = alook s w.named

/-- One test or action. -/
theorem partValue_means {H : PyHash} (cf : H.CollisionFree) {E : PyEnv} {right : Bool} {w w1 w' : World} (hs : SameNames w w1) (hreach : Reach E w1.types) {p : RulePart}
    (hp : PlainNamed w.named p.pairs ∧ (∀ n t, (n, t) ∈ p.pairs → WellTok t) ∧ ¬ Mentioned p.pairs "ISA" ∧ ∀ n, (n, .plain "unnamedchunk") ∉ p.pairs)
    (hq : p.sign = "?" → (p.pairs.map Prod.fst).Nodup) {v : Yielded} (h : partValue H E right w1 p = (w', .ok v)) :
    PartMeans w.named right p v ∧ SameNames w w' ∧ Reach E w'.types := by
  obtain ⟨hpn, hwt, hISA, hun⟩ := hp
  have hagree : ∀ n s, (n, .plain s) ∈ p.pairs → alook s w1.named = alook s w.named := fun n s hm => hs s (by rintro rfl; exact hun n hm)
  unfold partValue at h
  split at h
  · rename_i hsg
    simp only [Prod.mk.injEq, Except.ok.injEq] at h
    obtain ⟨rfl, rfl⟩ := h
    refine ⟨⟨fun _ => ⟨_, rfl, dictOf_iff (hq hsg)⟩, ?_, ?_, ?_⟩, hs, hreach⟩
    · intro _ h; rw [hsg] at h; exact absurd h (by decide)
    · intro _ h; rw [hsg] at h; exact absurd h (by decide)
    · intro h; rw [hsg] at h; exact absurd h (by cases right <;> decide)
  · rename_i hsg
    split at h
    · rename_i hcl
      simp only [Bool.and_eq_true, beq_iff_eq] at hcl
      simp only [Prod.mk.injEq, Except.ok.injEq] at h
      obtain ⟨rfl, rfl⟩ := h
      refine ⟨⟨fun h => absurd h hsg, fun _ _ => rfl, ?_, ?_⟩, hs, hreach⟩
      · intro _ h; rw [hcl.2] at h; exact absurd h (by decide)
      · intro h; rw [hcl.2, hcl.1] at h; exact absurd h (by decide)
    · rename_i hcl
      simp only [Bool.and_eq_true, beq_iff_eq, not_and] at hcl
      split at h
      · rename_i hex
        simp only [Bool.and_eq_true, beq_iff_eq] at hex
        simp only [Prod.mk.injEq, Except.ok.injEq] at h
        obtain ⟨rfl, rfl⟩ := h
        refine ⟨⟨fun h => absurd h hsg, fun a b => absurd b (hcl a), fun _ _ => rfl, ?_⟩, hs, hreach⟩
        intro h; rw [hex.2, hex.1] at h; exact absurd h (by decide)
      · rename_i hex
        simp only [Bool.and_eq_true, beq_iff_eq, not_and] at hex
        split at h
        · rename_i w2 c hcs
          simp only [Prod.mk.injEq, Except.ok.injEq] at h
          obtain ⟨rfl, rfl⟩ := h
          have hpn1 : PlainNamed w1.named p.pairs := fun n s c hm hl => hpn n s c hm (by rw [← hagree n s hm]; exact hl)
          obtain ⟨hd, hnm, hr⟩ := chunkstring_describes cf hreach hpn1 hwt hISA hcs
          refine ⟨⟨fun h => absurd h hsg, fun a b => absurd b (hcl a), fun a b => absurd b (hex a), fun _ => ⟨c, rfl, ?_, ?_⟩⟩, ?_, hr⟩
          · intro n hm hne
            obtain ⟨x, hx, hc⟩ := hd.slots n hm hne
            exact ⟨x, hx, collects_congr hagree hc⟩
          · intro t hm hu hne hl
            exact hd.typ t hm hu hne (by rw [hagree _ t hm]; exact hl)
          · intro s hsn
            rw [hnm, alook_aset, if_neg (by simpa using hsn)]
            exact hs s hsn
        · simp at h

/-- **C55 partially.** If no two tests (actions) have the same sign and buffer, and no query mentions a slot twice, the dictionaries
have exactly the entries written, with their meanings - also when the rule is called again (`d0` is the dictionary of the last call).
Missing: repeated signs and buffers, of which only the last counts (see C55_refuted). -/
theorem C55_partial {H : PyHash} (cf : H.CollisionFree) {E : PyEnv} {right : Bool} {w : World} (parts : List RulePart)
    (hp : ∀ p ∈ parts, PlainNamed w.named p.pairs ∧ (∀ n t, (n, t) ∈ p.pairs → WellTok t) ∧ ¬ Mentioned p.pairs "ISA" ∧ ∀ n, (n, .plain "unnamedchunk") ∉ p.pairs)
    (hq : ∀ p ∈ parts, p.sign = "?" → (p.pairs.map Prod.fst).Nodup) (hd : (parts.map fun p => p.sign ++ p.buffer).Nodup) :
    ∀ (w1 : World) (_ : SameNames w w1) (_ : Reach E w1.types) (d0 : List (String × Yielded)) (w' : World) (d : List (String × Yielded)),
      yieldSide H E right w1 d0 parts = (w', .ok d) →
      (∀ p ∈ parts, ∃ v, alook (p.sign ++ p.buffer) d = some v ∧ PartMeans w.named right p v) ∧
      (∀ k, (∀ p ∈ parts, k ≠ p.sign ++ p.buffer) → alook k d = alook k d0) ∧ SameNames w w' ∧ Reach E w'.types := by
  induction parts with
  | nil =>
    intro w1 hs hr d0 w' d h
    simp only [yieldSide, Prod.mk.injEq, Except.ok.injEq] at h
    obtain ⟨rfl, rfl⟩ := h
    exact ⟨by simp, by simp, hs, hr⟩
  | cons p r ih =>
    intro w1 hs hr d0 w' d h
    unfold yieldSide at h
    split at h
    · simp at h
    · rename_i w2 v hv
      obtain ⟨hm, hs2, hr2⟩ := partValue_means cf hs hr (hp p (by simp)) (hq p (by simp)) hv
      simp only [List.map_cons, List.nodup_cons] at hd
      obtain ⟨h1, h2, h3, h4⟩ := ih (fun x hx => hp x (by simp [hx])) (fun x hx => hq x (by simp [hx])) hd.2 w2 hs2 hr2 _ w' d h
      refine ⟨?_, ?_, h3, h4⟩
      · intro x hx
        rcases List.mem_cons.1 hx with rfl | hx
        · refine ⟨v, ?_, hm⟩
          rw [h2]
          · simp [alook_aset]
          · intro y hy he
            exact hd.1 (List.mem_map.mpr ⟨y, hy, he.symm⟩)
        · exact h1 x hx
      · intro k hk
        rw [h2 k fun y hy => hk y (by simp [hy]), alook_aset, if_neg (hk p (by simp))]

/-- C55, words: plain words, quoted texts and operators before words without quotes are read so that the hypothesis on them holds. -/
theorem C55_words {t : PTok} {v : List Char} (h : ValueWritten t v) (hq : ∀ op w, t = .special op w → '"' ∉ w.toList ∧ '\'' ∉ w.toList) : WellTok t := by
  cases h with
  | @word w hne hw =>
    refine ⟨w, .inr ⟨unq w ?_, rfl⟩⟩
    intro c r e
    have := hw c (by rw [e]; simp)
    constructor
    · rintro rfl; revert this; decide
    · rintro rfl; revert this; decide
  | @quoted q w t hq' e ht =>
    refine ⟨String.ofList t, .inl ?_⟩
    rcases hq' with rfl | rfl
    · right
      rw [← String.toList_inj, e]; simp [String.toList_append]
    · left
      rw [← String.toList_inj, e]; simp [String.toList_append]
  | @special op w g hop hg hne hw =>
    simp only [List.mem_cons, List.not_mem_nil, or_false] at hop
    obtain ⟨h1, h2⟩ := hq op w rfl
    have hu : WordMeans w w := by
      refine .inr ⟨unq w ?_, rfl⟩
      intro c r e
      constructor
      · rintro rfl; exact h2 (by rw [e]; simp)
      · rintro rfl; exact h1 (by rw [e]; simp)
    rcases hop with rfl | rfl | rfl | rfl | rfl | rfl | rfl
    · exact .inr ⟨by simp, w, hu⟩
    · exact .inr ⟨by simp, w, hu⟩
    · exact .inr ⟨by simp, w, hu⟩
    · exact .inl (by simp)
    · exact .inl (by simp)
    · exact .inl (by simp)
    · exact .inl (by simp)

/-- The example meets the hypotheses of C55_partial on both sides. -/
example : (∀ p ∈ exRuleText.lhs ++ exRuleText.rhs, (∀ n t, (n, t) ∈ p.pairs → WellTok t) ∧ ¬ Mentioned p.pairs "ISA" ∧ ∀ n, (n, .plain "unnamedchunk") ∉ p.pairs) ∧
    (exRuleText.lhs.map fun p => p.sign ++ p.buffer).Nodup ∧ (exRuleText.rhs.map fun p => p.sign ++ p.buffer).Nodup := by
  refine ⟨?_, by decide, by decide⟩
  intro p hp
  simp only [exRuleText, List.cons_append, List.nil_append, List.mem_cons, List.not_mem_nil, or_false] at hp
  rcases hp with rfl | rfl | rfl | rfl
  · refine ⟨?_, (by rintro ⟨t, ht⟩; simp at ht), by simp⟩
    intro n t ht
    simp only [List.mem_cons, Prod.mk.injEq, List.not_mem_nil, or_false] at ht
    rcases ht with ⟨-, rfl⟩ | ⟨-, rfl⟩
    · exact ⟨"t", .inr ⟨unq _ (by simp), rfl⟩⟩
    · exact .inr ⟨by simp, "y", .inr ⟨unq _ (by simp), rfl⟩⟩
  · refine ⟨?_, (by rintro ⟨t, ht⟩; simp at ht), by simp⟩
    intro n t ht
    simp only [List.mem_cons, Prod.mk.injEq, List.not_mem_nil, or_false] at ht
    obtain ⟨-, rfl⟩ := ht
    exact ⟨"free", .inr ⟨unq _ (by simp), rfl⟩⟩
  · refine ⟨?_, (by rintro ⟨t, ht⟩; simp at ht), by simp⟩
    intro n t ht
    simp only [List.mem_cons, Prod.mk.injEq, List.not_mem_nil, or_false] at ht
    obtain ⟨-, rfl⟩ := ht
    exact ⟨"a b", .inl (.inl (by decide))⟩
  · exact ⟨by simp, (by rintro ⟨t, ht⟩; simp at ht), by simp⟩

/-- A rule whose actions - a clearing, a modification and a query - are yielded. -/
example {H : PyHash} (cf : H.CollisionFree) :
    ∃ w' d, yieldSide H exEnv true ⟨[], [], 0⟩ [] [⟨"~", "h", []⟩, ⟨"=", "g", exToks⟩, ⟨"?", "m", [("state", .plain "free")]⟩] = (w', .ok d) := by
  obtain ⟨c, w', hc, -⟩ := C12_chunk_partial cf exEnv ⟨[], [], 0⟩ .empty exToks (by intro _ s c _ h; cases h) exToks_well "" (exToks_noConflict _)
    (by rintro ⟨t, ht⟩; simp [exToks] at ht)
    (by
      rintro n ⟨t, ht⟩ hne
      simp [exToks] at ht
      rcases ht with ⟨rfl, _⟩ | ⟨rfl, _⟩ | ⟨rfl, _⟩ | ⟨rfl, _⟩ | ⟨rfl, _⟩ <;> first | decide | exact absurd rfl hne)
    "t" (.inl ⟨by simp [exToks], unq _ (by simp), by decide, rfl⟩) (by decide) ⟨by decide, by decide, by decide⟩
  simp only [yieldSide, partValue, show ("~" : String) ≠ "?" by decide, if_false, beq_self_eq_true, Bool.and_self, if_true, show ("=" : String) ≠ "?" by decide,
    show (("=" : String) == "~") = false by decide, show (("=" : String) == "!") = false by decide, Bool.and_false, Bool.false_eq_true, hc]
  exact ⟨_, _, rfl⟩

/-! ## C56: names of rules -/

/-- The whole of C56: every rule in the documented form is stored under its name, or under a new name if none is given; no other rule changes. -/
def C56_full : Prop := ∀ (rules : List (String × StoredRule)) (name text : String) (t : RuleText) (u : ℚ) (rw : Option ℚ), RuleWritten true t text.toList →
  ∃ m rules', productionstring rules name text u rw = (rules', .ok ⟨t, u, rw⟩) ∧ (name ≠ "" → m = name) ∧ (name = "" → alook m rules = Option.none) ∧
    alook m rules' = some ⟨t, u, rw⟩ ∧ ∀ k, k ≠ m → alook k rules' = alook k rules

/-- Without a name, no rule can be added, whatever the string: TypeError. -/
theorem C56_nameless (rules : List (String × StoredRule)) (text : String) (u : ℚ) (rw : Option ℚ) : productionstring rules "" text u rw = (rules, .error .type) := by
  simp [productionstring]

theorem C56_refuted : ¬ C56_full := by
  intro h
  obtain ⟨m, rules', h1, -⟩ := h [] "" exRuleString exRuleText 0 Option.none exRule_written
  rw [C56_nameless] at h1
  cases h1

/-- **C56 partially.** With a name, the rule is stored under it, a rule of that name is replaced and the others stay. Missing: rules without a name. -/
theorem C56_partial {t : RuleText} {text : String} (h : RuleWritten true t text.toList) (rules : List (String × StoredRule)) {name : String} (hn : name ≠ "") (u : ℚ) (rw : Option ℚ) :
    ∃ rules', productionstring rules name text u rw = (rules', .ok ⟨t, u, rw⟩) ∧ alook name rules' = some ⟨t, u, rw⟩ ∧ ∀ k, k ≠ name → alook k rules' = alook k rules := by
  refine ⟨_, C54_rule h rules hn u rw, by simp [alook_aset], fun k hk => by simp [alook_aset, hk]⟩

/-- Its hypotheses are met. -/
example : ∃ rules', productionstring [("s", ⟨exRuleText, 0, Option.none⟩)] "r" exRuleString 1 Option.none = (rules', .ok ⟨exRuleText, 1, Option.none⟩) ∧ alook "r" rules' = some ⟨exRuleText, 1, Option.none⟩ ∧
    ∀ k, k ≠ "r" → alook k rules' = alook k [("s", ⟨exRuleText, 0, Option.none⟩)] := C56_partial exRule_written _ (by decide) 1 Option.none

end Verif.Props
