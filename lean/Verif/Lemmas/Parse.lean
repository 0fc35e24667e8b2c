import Verif.Spec.Parse
import Verif.Lemmas.Assoc
/-!
# What the grammars read
-/
namespace Verif
open Verif.Spec

/-! ## Characters -/

theorem alphaChar_eq (c : Char) : alphaChar c = c.isAlpha := by
  unfold alphaChar Char.isAlpha Char.isUpper Char.isLower
  have h : ∀ a b : Char, (decide (a ≤ b)) = decide (b.val ≥ a.val) := fun a b => rfl
  rw [h, h, h, h, Bool.or_comm]
  simp only [Bool.decide_and, ge_iff_le]

theorem alnumChar_eq (c : Char) : alnumChar c = c.isAlphanum := by
  unfold alnumChar Char.isAlphanum Char.isDigit
  rw [alphaChar_eq]
  rfl

theorem wsChar_iff (c : Char) : wsChar c = true ↔ c ∈ [' ', '\n', '\t', '\r'] := by
  simp [wsChar, or_assoc]

/-- White space is not part of any word. -/
theorem alnum_not_ws {c : Char} (h : wsChar c = true) : alnumChar c = false := by
  rw [wsChar_iff] at h
  simp only [List.mem_cons, List.not_mem_nil, or_false] at h
  rcases h with rfl | rfl | rfl | rfl <;> decide

theorem plain_not_ws {c : Char} (h : wsChar c = true) : plainChar c = false := by
  rw [wsChar_iff] at h
  simp only [List.mem_cons, List.not_mem_nil, or_false] at h
  rcases h with rfl | rfl | rfl | rfl <;> decide

theorem op_not_ws {c : Char} (h : wsChar c = true) : opChar c = false := by
  rw [wsChar_iff] at h
  simp only [List.mem_cons, List.not_mem_nil, or_false] at h
  rcases h with rfl | rfl | rfl | rfl <;> decide

theorem slotRest_not_ws {c : Char} (h : wsChar c = true) : (alnumChar c || c == '_') = false := by
  rw [wsChar_iff] at h
  simp only [List.mem_cons, List.not_mem_nil, or_false] at h
  rcases h with rfl | rfl | rfl | rfl <;> decide

theorem plainChar_iff (c : Char) : plainChar c = true ↔ (c.isAlphanum ∨ c ∈ ['_', ':', '|', '.', ',', '%', '&', '$', '`', '*', '-']) := by
  unfold plainChar
  rw [alnumChar_eq, Bool.or_eq_true, List.contains_iff_mem]
  rfl

theorem opChar_iff (c : Char) : opChar c = true ↔ (c.isAlphanum ∨ c ∈ ['_', '"', '\'']) := by
  unfold opChar
  rw [alnumChar_eq]
  simp [or_assoc]

/-! ## White space -/

theorem skipWs_gap {b : Bool} {g : List Char} (h : Gap b g) (r : List Char) : skipWs (g ++ r) = skipWs r := by
  unfold skipWs
  rw [List.dropWhile_append]
  have : List.dropWhile wsChar g = [] := by
    have := List.dropWhile_append_of_pos (p := wsChar) (l₁ := g) (l₂ := []) fun c hc => (wsChar_iff c).2 (h.1 c hc)
    simpa using this
  rw [this]; rfl

theorem skipWs_cons {c : Char} (h : wsChar c = false) (r : List Char) : skipWs (c :: r) = c :: r := by
  simp [skipWs, h]

theorem gap_nil : Gap false [] := ⟨by simp, by simp⟩

theorem Gap.loosen {b : Bool} {g : List Char} (h : Gap b g) : Gap false g := ⟨h.1, by simp⟩

/-- What is skipped is white space. -/
theorem skipWs_split (cs : List Char) : ∃ g, Gap false g ∧ cs = g ++ skipWs cs :=
  ⟨cs.takeWhile wsChar, ⟨fun c hc => (wsChar_iff c).1 (List.all_takeWhile (p := wsChar) |> fun h => (List.all_eq_true.1 h) c hc), by simp⟩,
    (List.takeWhile_append_dropWhile (p := wsChar) (l := cs)).symm⟩

theorem skipWs_head {cs r : List Char} {c : Char} (h : skipWs cs = c :: r) : wsChar c = false := by
  unfold skipWs at h
  have := List.head?_dropWhile_not wsChar cs
  rw [h] at this
  simpa using this

/-! ## Words -/

/-- The text does not go on with such a character. -/
def Stops (p : Char → Bool) (r : List Char) : Prop := ∀ c, r.head? = some c → p c = false

theorem takeWhile_stops {p : Char → Bool} {t r : List Char} (h : ∀ x ∈ t, p x = true) (hr : Stops p r) :
    (t ++ r).takeWhile p = t ∧ (t ++ r).dropWhile p = r := by
  rw [List.takeWhile_append_of_pos h, List.dropWhile_append_of_pos h]
  cases r with
  | nil => simp
  | cons c r => have := hr c rfl; simp [this]

theorem readWord_word {first rest : Char → Bool} {b : Bool} {g r t : List Char} {c : Char} {w : String} (hg : Gap b g) (hw : w.toList = c :: t)
    (hc : first c = true) (ht : ∀ x ∈ t, rest x = true) (hf : ∀ x, wsChar x = true → first x = false) (hr : Stops rest r) :
    readWord first rest (g ++ (w.toList ++ r)) = some (w, r) := by
  unfold readWord
  have hn : wsChar c = false := by
    cases h : wsChar c with
    | false => rfl
    | true => rw [hf c h] at hc; cases hc
  rw [skipWs_gap hg, hw, List.cons_append, skipWs_cons hn]
  obtain ⟨h1, h2⟩ := takeWhile_stops ht hr
  simp only [hc, if_true, h1, h2]
  rw [← hw, String.ofList_toList]

theorem readWord_split {first rest : Char → Bool} {cs r : List Char} {w : String} (h : readWord first rest cs = some (w, r)) :
    ∃ g c t, Gap false g ∧ w.toList = c :: t ∧ first c = true ∧ (∀ x ∈ t, rest x = true) ∧ cs = g ++ (w.toList ++ r) := by
  unfold readWord at h
  obtain ⟨g, hg, he⟩ := skipWs_split cs
  split at h
  · cases h
  · rename_i c t hs
    split at h
    · rename_i hc
      obtain ⟨rfl, rfl⟩ : String.ofList (c :: t.takeWhile rest) = w ∧ t.dropWhile rest = r := by
        have := Option.some.inj h
        exact ⟨congrArg Prod.fst this, congrArg Prod.snd this⟩
      refine ⟨g, c, t.takeWhile rest, hg, by simp, hc, fun x hx => (List.all_eq_true.1 List.all_takeWhile) x hx, ?_⟩
      rw [String.toList_ofList, List.cons_append, List.takeWhile_append_dropWhile, ← hs]
      exact he
    · cases h

theorem readLit_lit {s : String} {b : Bool} {g r t : List Char} {c : Char} (hg : Gap b g) (hs : s.toList = c :: t) (hc : wsChar c = false) :
    readLit s (g ++ (s.toList ++ r)) = some (s, r) := by
  unfold readLit
  have : skipWs (g ++ (s.toList ++ r)) = s.toList ++ r := by
    rw [skipWs_gap hg, hs, List.cons_append, skipWs_cons hc]
  simp only [this]
  rw [if_pos (by rw [List.isPrefixOf_iff_prefix]; exact List.prefix_append _ _), ← String.length_toList, List.drop_left]

theorem readLit_split {s w : String} {cs r : List Char} (h : readLit s cs = some (w, r)) : w = s ∧ ∃ g, Gap false g ∧ cs = g ++ (s.toList ++ r) := by
  unfold readLit at h
  obtain ⟨g, hg, he⟩ := skipWs_split cs
  dsimp only at h
  split at h
  · rename_i hp
    have := Option.some.inj h
    obtain ⟨rfl, rfl⟩ : s = w ∧ (skipWs cs).drop s.length = r := ⟨congrArg Prod.fst this, congrArg Prod.snd this⟩
    refine ⟨rfl, g, hg, ?_⟩
    obtain ⟨t, ht⟩ := List.isPrefixOf_iff_prefix.1 hp
    conv_lhs => rw [he]
    rw [← ht, ← String.length_toList, List.drop_left]
  · cases h

theorem readOneOf_split {l : List String} {w : String} {cs r : List Char} (h : readOneOf l cs = some (w, r)) :
    w ∈ l ∧ ∃ g, Gap false g ∧ cs = g ++ (w.toList ++ r) := by
  induction l with
  | nil => cases h
  | cons s l ih =>
    unfold readOneOf Reader.orElse at h
    cases hs : readLit s cs with
    | some x =>
      rw [hs] at h
      obtain ⟨rfl, g, hg, he⟩ := readLit_split (hs.trans h)
      exact ⟨by simp, g, hg, he⟩
    | none =>
      rw [hs] at h
      obtain ⟨h1, h2⟩ := ih h
      exact ⟨List.mem_cons_of_mem _ h1, h2⟩

/-- `one_of` depends on the text after the white space only. -/
theorem readOneOf_skip (l : List String) {b : Bool} {g : List Char} (hg : Gap b g) (r : List Char) : readOneOf l (g ++ r) = readOneOf l r := by
  induction l with
  | nil => rfl
  | cons s l ih =>
    unfold readOneOf Reader.orElse readLit
    rw [skipWs_gap hg, ih]

theorem readQuoted_split {q : Char} {w : String} {cs r : List Char} (h : readQuoted q cs = some (w, r)) :
    ∃ g t, Gap false g ∧ w.toList = q :: (t ++ [q]) ∧ (∀ x ∈ t, x ≠ q ∧ x ≠ '\n' ∧ x ≠ '\r') ∧ cs = g ++ (w.toList ++ r) := by
  unfold readQuoted at h
  obtain ⟨g, hg, he⟩ := skipWs_split cs
  split at h
  · cases h
  · rename_i c t hs
    split at h
    · rename_i hc
      subst hc
      dsimp only at h
      split at h
      · cases h
      · rename_i d t' hd
        split at h
        · rename_i hq
          subst hq
          have := Option.some.inj h
          obtain ⟨hw, rfl⟩ := And.intro (congrArg Prod.fst this) (congrArg Prod.snd this)
          dsimp only at hw
          refine ⟨g, _, hg, by rw [← hw, String.toList_ofList], ?_, ?_⟩
          · intro x hx
            have := (List.all_eq_true.1 List.all_takeWhile) x hx
            simpa [and_assoc] using this
          · rw [← hw, String.toList_ofList]
            conv_lhs => rw [he, hs]
            simp only [List.cons_append, List.append_assoc, List.nil_append]
            rw [← hd, List.takeWhile_append_dropWhile]
        · cases h
    · cases h

theorem readQuoted_text {q : Char} {w : String} {b : Bool} {g r t : List Char} (hg : Gap b g) (hq : q = '"' ∨ q = '\'') (hw : w.toList = q :: (t ++ [q]))
    (ht : ∀ x ∈ t, x ≠ q ∧ x ≠ '\n' ∧ x ≠ '\r') : readQuoted q (g ++ (w.toList ++ r)) = some (w, r) := by
  unfold readQuoted
  have hn : wsChar q = false := by rcases hq with rfl | rfl <;> decide
  rw [skipWs_gap hg, hw, List.cons_append, skipWs_cons hn]
  have hr : Stops (fun x => x ≠ q && x ≠ '\n' && x ≠ '\r') (q :: r) := by
    intro c hc
    simp only [List.head?_cons, Option.some.injEq] at hc
    simp [hc]
  have hi : ∀ x ∈ t, (fun x : Char => (decide (x ≠ q) && decide (x ≠ '\n') && decide (x ≠ '\r'))) x = true := by
    intro x hx
    simpa [and_assoc] using ht x hx
  obtain ⟨h1, h2⟩ := takeWhile_stops hi hr
  have e : t ++ [q] ++ r = t ++ q :: r := by simp
  simp only [e, if_true, h1, h2]
  rw [← hw, String.ofList_toList]

/-! ## Values -/

/-- Where a word ends in a rule: at white space, before the arrow, at the end of the text. -/
def Ended (r : List Char) : Prop := ∀ c, r.head? = some c → wsChar c = true ∨ c = '='

theorem Ended.plain {r : List Char} (h : Ended r) : Stops plainChar r := fun c hc => (h c hc).elim plain_not_ws (by rintro rfl; decide)
theorem Ended.op {r : List Char} (h : Ended r) : Stops opChar r := fun c hc => (h c hc).elim op_not_ws (by rintro rfl; decide)
theorem Ended.slot {r : List Char} (h : Ended r) : Stops (fun c => alnumChar c || c == '_') r := fun c hc => (h c hc).elim slotRest_not_ws (by rintro rfl; decide)

theorem ended_gap {g : List Char} (h : Gap true g) (r : List Char) : Ended (g ++ r) := by
  obtain ⟨c, t, rfl⟩ := List.exists_cons_of_ne_nil (h.2 rfl)
  intro d hd
  simp only [List.cons_append, List.head?_cons, Option.some.injEq] at hd
  subst hd
  exact .inl ((wsChar_iff c).2 (h.1 c (by simp)))

theorem ended_gap' {b : Bool} {g r : List Char} (h : Gap b g) (hr : Ended r) : Ended (g ++ r) := by
  cases g with
  | nil => exact hr
  | cons c t =>
    intro d hd
    simp only [List.cons_append, List.head?_cons, Option.some.injEq] at hd
    subst hd
    exact .inl ((wsChar_iff c).2 (h.1 c (by simp)))

theorem readWord_fails {first rest : Char → Bool} {b : Bool} {g r : List Char} {c : Char} (hg : Gap b g) (hc : wsChar c = false) (hf : first c = false) :
    readWord first rest (g ++ c :: r) = Option.none := by
  unfold readWord
  rw [skipWs_gap hg, skipWs_cons hc]
  simp [hf]

theorem readOneOf_fails {l : List String} {b : Bool} {g r : List Char} {c : Char} (hg : Gap b g) (hc : wsChar c = false)
    (hl : ∀ s ∈ l, ∃ d t, s.toList = d :: t ∧ d ≠ c) : readOneOf l (g ++ c :: r) = Option.none := by
  induction l with
  | nil => rfl
  | cons s l ih =>
    unfold readOneOf Reader.orElse
    have : readLit s (g ++ c :: r) = Option.none := by
      unfold readLit
      rw [skipWs_gap hg, skipWs_cons hc]
      obtain ⟨d, t, e, hd⟩ := hl s (by simp)
      rw [e]
      simp [List.isPrefixOf, hd]
    rw [this]
    exact ih fun x hx => hl x (List.mem_cons_of_mem _ hx)

/-- An operator is read when no longer one begins there. -/
theorem readOneOf_operators {op : String} {b : Bool} {g r : List Char} (hg : Gap b g) (h : op ∈ ["=", "~", "~=", ">", "<", ">=", "<="])
    (hr : ∀ c, r.head? = some c → c ≠ '=') : readOneOf operators (g ++ (op.toList ++ r)) = some (op, r) := by
  rw [readOneOf_skip _ hg]
  simp only [List.mem_cons, List.not_mem_nil, or_false] at h
  have e1 : "=".toList = ['='] := rfl
  have e2 : "~".toList = ['~'] := rfl
  have e3 : "~=".toList = ['~', '='] := rfl
  have e4 : ">".toList = ['>'] := rfl
  have e5 : "<".toList = ['<'] := rfl
  have e6 : ">=".toList = ['>', '='] := rfl
  have e7 : "<=".toList = ['<', '='] := rfl
  have hw : ∀ c ∈ ['=', '~', '>', '<'], wsChar c = false := by decide
  have hr' : ['='].isPrefixOf r = false := by
    cases r with
    | nil => rfl
    | cons c r => have := hr c rfl; simp [List.isPrefixOf, Ne.symm this]
  have hp : ¬ ['='] <+: r := by
    intro h
    rw [← List.isPrefixOf_iff_prefix, hr'] at h
    cases h
  have ll : ∀ (s : String) (cs : List Char), readLit s cs = if s.toList.isPrefixOf (skipWs cs) then some (s, (skipWs cs).drop s.toList.length) else Option.none := by
    intro s cs; rw [String.length_toList]; rfl
  rcases h with rfl | rfl | rfl | rfl | rfl | rfl | rfl <;>
    simp only [operators, readOneOf, Reader.orElse, ll, e1, e2, e3, e4, e5, e6, e7, List.cons_append, List.nil_append] <;>
    rw [skipWs_cons (hw _ (by simp))] <;>
    simp [List.isPrefixOf, hp]

theorem readValue_value {t : PTok} {v g r : List Char} {b : Bool} (hg : Gap b g) (h : ValueWritten t v) (hr : Ended r) : readValue (g ++ (v ++ r)) = some (t, r) := by
  have ws : ∀ c ∈ ['"', '\'', '=', '~', '>', '<'], wsChar c = false := by decide
  have pl : ∀ c ∈ ['"', '\'', '=', '~', '>', '<'], plainChar c = false := by decide
  unfold readValue Reader.orElse Reader.map
  cases h with
  | @word w hne hw =>
    obtain ⟨c, t, e⟩ := List.exists_cons_of_ne_nil hne
    rw [readWord_word hg e ((plainChar_iff c).2 (hw c (by rw [e]; simp))) (fun x hx => (plainChar_iff x).2 (hw x (by rw [e]; simp [hx])))
      (fun x hx => plain_not_ws hx) hr.plain]
    rfl
  | @quoted q w t hq hw ht =>
    have hq' : q ∈ ['"', '\'', '=', '~', '>', '<'] := by rcases hq with rfl | rfl <;> decide
    have e : g ++ (w.toList ++ r) = g ++ q :: (t ++ [q] ++ r) := by rw [hw]; rfl
    have h1 : readWord plainChar plainChar (g ++ (w.toList ++ r)) = Option.none := by rw [e]; exact readWord_fails hg (ws q hq') (pl q hq')
    have h2 : readSpecial (g ++ (w.toList ++ r)) = Option.none := by
      unfold readSpecial Reader.andThen
      rw [e, readOneOf_fails hg (ws q hq')]
      intro s hs
      simp only [operators, List.mem_cons, List.not_mem_nil, or_false] at hs
      rcases hq with rfl | rfl <;> rcases hs with rfl | rfl | rfl | rfl | rfl | rfl | rfl <;> exact ⟨_, _, rfl, by decide⟩
    have ht' : ∀ x ∈ t, x ≠ q ∧ x ≠ '\n' ∧ x ≠ '\r' := fun x hx => ⟨(ht x hx).1, (ht x hx).2.1, (ht x hx).2.2.1⟩
    rw [h1, h2]
    rcases hq with rfl | rfl
    · rw [readQuoted_text hg (.inl rfl) hw ht']
      rfl
    · have h3 : readQuoted '"' (g ++ (w.toList ++ r)) = Option.none := by
        unfold readQuoted
        rw [e, skipWs_gap hg, skipWs_cons (ws _ hq')]
        rfl
      rw [h3, readQuoted_text hg (.inr rfl) hw ht']
      rfl
  | @special op w g' hop hg' hne hw =>
    obtain ⟨c, t, e⟩ := List.exists_cons_of_ne_nil hne
    have hc := (opChar_iff c).2 (hw c (by rw [e]; simp))
    obtain ⟨d, u, ho, hd⟩ : ∃ d u, op.toList = d :: u ∧ d ∈ ['"', '\'', '=', '~', '>', '<'] := by
      simp only [List.mem_cons, List.not_mem_nil, or_false] at hop
      rcases hop with rfl | rfl | rfl | rfl | rfl | rfl | rfl <;> exact ⟨_, _, rfl, by decide⟩
    have h1 : readWord plainChar plainChar (g ++ (op.toList ++ (g' ++ w.toList) ++ r)) = Option.none := by
      rw [ho]; exact readWord_fails hg (ws d hd) (pl d hd)
    rw [h1]
    have h2 : readSpecial (g ++ (op.toList ++ (g' ++ w.toList) ++ r)) = some (.special op w, r) := by
      unfold readSpecial Reader.andThen Reader.map
      rw [List.append_assoc, readOneOf_operators hg hop]
      · dsimp only
        rw [List.append_assoc, readWord_word hg' e hc (fun x hx => (opChar_iff x).2 (hw x (by rw [e]; simp [hx]))) (fun x hx => op_not_ws hx) hr.op]
        rfl
      · intro x hx
        cases g' with
        | nil =>
          rw [e] at hx
          simp only [List.nil_append, List.cons_append, List.head?_cons, Option.some.injEq] at hx
          subst hx
          rintro rfl
          revert hc
          decide
        | cons y g' =>
          simp only [List.cons_append, List.head?_cons, Option.some.injEq] at hx
          subst hx
          have := hg'.1 y (by simp)
          rintro rfl
          revert this
          decide
    rw [h2]
    rfl

/-! ## Repetition -/

/-- The items of a list, one after the other, each read by `p` when what follows is a remainder of the list. -/
theorem readMany_end {A : Type} {p : Reader A} {r : List Char} (h : p r = Option.none) (n : ℕ) : readMany p n r = some ([], r) := by
  cases n with
  | zero => rfl
  | succ n => simp [readMany, h]

theorem readSlot_slot {n : String} {g r : List Char} {b : Bool} (hg : Gap b g) (hn : SlotName n) (hr : Stops (fun c => alnumChar c || c == '_') r) :
    readSlot (g ++ (n.toList ++ r)) = some (n, r) := by
  obtain ⟨c, t, e, hc, ht⟩ := hn
  refine readWord_word hg e ?_ ?_ ?_ hr
  · rw [alphaChar_eq]; simpa using hc
  · intro x hx; rw [alnumChar_eq]; simpa using ht x hx
  · intro x hx
    have := slotRest_not_ws hx
    simp only [Bool.or_eq_false_iff, alnumChar] at this ⊢
    exact ⟨this.1.1, this.2⟩

theorem readBuffer_buffer {n : String} {g r : List Char} {b : Bool} (hg : Gap b g) (hn : BufferName n) (hr : Stops (fun c => alnumChar c || c == '_') r) :
    readBuffer (g ++ (n.toList ++ r)) = some (n, r) := by
  obtain ⟨c, t, e, hc, ht⟩ := hn
  refine readWord_word hg e ?_ ?_ ?_ hr
  · rw [alphaChar_eq]; exact hc
  · intro x hx; rw [alnumChar_eq]; simpa using ht x hx
  · intro x hx
    have := slotRest_not_ws hx
    simp only [Bool.or_eq_false_iff, alnumChar] at this
    exact this.1.1

theorem pairs_ended {b : Bool} {l : List (String × PTok)} {p r : List Char} (h : PairsWritten true b l p) (hb : b = true) (hr : Ended r) : Ended (p ++ r) := by
  subst hb
  cases h with
  | nil => exact hr
  | cons hg => rw [List.append_assoc]; exact ended_gap hg _

theorem readPair_pair {b : Bool} {n : String} {t : PTok} {l : List (String × PTok)} {g h v p r : List Char} (hg : Gap b g) (hn : SlotName n) (hh : Gap true h)
    (hv : ValueWritten t v) (hp : PairsWritten true true l p) (hr : Ended r) :
    readPair (g ++ (n.toList ++ (h ++ (v ++ p))) ++ r) = some ((n, t), p ++ r) := by
  unfold readPair Reader.andThen Reader.map
  have e : g ++ (n.toList ++ (h ++ (v ++ p))) ++ r = g ++ (n.toList ++ (h ++ (v ++ (p ++ r)))) := by simp only [List.append_assoc]
  rw [e, readSlot_slot hg hn (ended_gap hh _).slot]
  dsimp only
  rw [readValue_value hh hv (pairs_ended hp rfl hr)]
  rfl

theorem readMany_pairs {b : Bool} {l : List (String × PTok)} {p r : List Char} (h : PairsWritten true b l p) (hr : Ended r) (hn : readPair r = Option.none) :
    ∀ n, l.length ≤ n → readMany readPair n (p ++ r) = some (l, r) := by
  induction h with
  | nil => intro n _; exact readMany_end hn n
  | cons hg hs hh hv hp ih =>
    intro n hl
    cases n with
    | zero => simp at hl
    | succ n =>
      unfold readMany
      rw [readPair_pair hg hs hh hv hp hr]
      dsimp only [Reader.map]
      rw [ih n (by simpa using hl)]
      rfl

theorem pairs_length {b : Bool} {l : List (String × PTok)} {p : List Char} {s : Bool} (h : PairsWritten s b l p) : l.length ≤ p.length := by
  induction h with
  | nil => simp
  | cons hg hs hh hv hp ih =>
    obtain ⟨c, t, e, -⟩ := hs
    simp only [List.length_cons, List.length_append, e]
    omega

theorem readChunk_pairs {b : Bool} {l : List (String × PTok)} {p r : List Char} (h : PairsWritten true b l p) (hl : l ≠ []) (hr : Ended r) (hn : readPair r = Option.none) :
    readChunk (p ++ r) = some (l, r) := by
  unfold readChunk readSome Reader.andThen
  cases h with
  | nil => exact (hl rfl).elim
  | cons hg hs hh hv hp =>
    rw [readPair_pair hg hs hh hv hp hr]
    dsimp only [Reader.map]
    rw [readMany_pairs hp hr hn _ (le_trans (pairs_length hp) (by simp))]
    rfl

theorem readMaybeChunk_pairs {b : Bool} {l : List (String × PTok)} {p r : List Char} (h : PairsWritten true b l p) (hr : Ended r) (hn : readPair r = Option.none) :
    readMaybeChunk (p ++ r) = some (l, r) := by
  unfold readMaybeChunk Reader.orElse
  by_cases hl : l = []
  · subst hl
    cases h
    simp only [List.nil_append]
    unfold readChunk readSome Reader.andThen
    rw [hn]
  · rw [readChunk_pairs h hl hr hn]

/-- A slot cannot begin here. -/
def NoSlot (r : List Char) : Prop := ∀ c, (skipWs r).head? = some c → alphaChar c = false ∧ c ≠ '_'

theorem NoSlot.pair {r : List Char} (h : NoSlot r) : readPair r = Option.none := by
  unfold readPair Reader.andThen readSlot readWord
  unfold NoSlot at h
  cases hs : skipWs r with
  | nil => rfl
  | cons c t =>
    obtain ⟨h1, h2⟩ := h c (by rw [hs]; rfl)
    have h2 : (c == '_') = false := beq_false_of_ne h2
    simp [h1, h2]

theorem noSlot_gap {b : Bool} {g r : List Char} {c : Char} (hg : Gap b g) (hc : wsChar c = false) (h1 : alphaChar c = false) (h2 : c ≠ '_') : NoSlot (g ++ c :: r) := by
  intro d hd
  rw [skipWs_gap hg, skipWs_cons hc] at hd
  simp only [List.head?_cons, Option.some.injEq] at hd
  subst hd
  exact ⟨h1, h2⟩

theorem noSlot_end {b : Bool} {g : List Char} (hg : Gap b g) : NoSlot g := by
  intro d hd
  have := skipWs_gap hg []
  rw [List.append_nil] at this
  rw [this] at hd
  simp [skipWs] at hd

/-! ## Tests and actions -/

/-- Signs are single characters that do not belong to words. -/
def Signs (l : List String) : Prop := ∀ s ∈ l, ∃ c, s.toList = [c] ∧ c ∈ ['=', '?', '+', '~', '!', '@', '*']

theorem signs_lhs : Signs lhsSigns := by
  intro s hs
  simp only [lhsSigns, List.mem_cons, List.not_mem_nil, or_false] at hs
  rcases hs with rfl | rfl <;> exact ⟨_, rfl, by decide⟩

theorem signs_rhs : Signs rhsSigns := by
  intro s hs
  simp only [rhsSigns, List.mem_cons, List.not_mem_nil, or_false] at hs
  rcases hs with rfl | rfl | rfl | rfl | rfl | rfl | rfl <;> exact ⟨_, rfl, by decide⟩

theorem readOneOf_sign {l : List String} (hl : Signs l) {s : String} (hs : s ∈ l) {b : Bool} {g r : List Char} (hg : Gap b g) :
    readOneOf l (g ++ (s.toList ++ r)) = some (s, r) := by
  have ws : ∀ c ∈ ['=', '?', '+', '~', '!', '@', '*'], wsChar c = false := by decide
  obtain ⟨c, e, hc⟩ := hl s hs
  induction l with
  | nil => cases hs
  | cons x l ih =>
    unfold readOneOf Reader.orElse
    by_cases hx : x = s
    · subst hx
      rw [readLit_lit hg e (ws c hc)]
    · obtain ⟨d, ed, -⟩ := hl x (by simp)
      have : readLit x (g ++ (s.toList ++ r)) = Option.none := by
        unfold readLit
        rw [skipWs_gap hg, e, List.cons_append, skipWs_cons (ws c hc), ed]
        have : d ≠ c := by
          rintro rfl
          exact hx (String.toList_inj.1 (ed.trans e.symm))
        simp [List.isPrefixOf, this]
      rw [this]
      rcases List.mem_cons.1 hs with rfl | hs
      · exact (hx rfl).elim
      · exact ih (fun y hy => hl y (List.mem_cons_of_mem _ hy)) hs

/-- What may follow a test or an action: another one, the arrow or the end. -/
structure Follows (r : List Char) : Prop where
  ended : Ended r
  slot : NoSlot r

theorem follows_parts {signs : List String} (hs : Signs signs) {l : List RulePart} {p r : List Char} (h : PartsWritten true signs true l p) (hr : Follows r) : Follows (p ++ r) := by
  cases h with
  | nil => exact hr
  | @cons _ s n ps l g h i p q hg hsn =>
    obtain ⟨c, e, hc⟩ := hs s hsn
    have ws : ∀ c ∈ ['=', '?', '+', '~', '!', '@', '*'], wsChar c = false ∧ alphaChar c = false ∧ c ≠ '_' := by decide
    obtain ⟨h1, h2, h3⟩ := ws c hc
    refine ⟨by rw [List.append_assoc]; exact ended_gap hg _, ?_⟩
    rw [List.append_assoc, e]
    exact noSlot_gap hg h1 h2 h3

theorem readPart_part {signs : List String} (hsg : Signs signs) {b : Bool} {s n : String} {ps : List (String × PTok)} {l : List RulePart} {g h i p q r : List Char}
    (hg : Gap b g) (hs : s ∈ signs) (hh : Gap false h) (hn : BufferName n) (hi : Gap false i) (hp : PairsWritten true false ps p) (hq : PartsWritten true signs true l q)
    (hr : Follows r) : readPart signs (g ++ (s.toList ++ (h ++ (n.toList ++ (i ++ ('>' :: (p ++ q)))))) ++ r) = some (⟨s, n, ps⟩, q ++ r) := by
  unfold readPart Reader.andThen Reader.map
  have e : g ++ (s.toList ++ (h ++ (n.toList ++ (i ++ ('>' :: (p ++ q)))))) ++ r = g ++ (s.toList ++ (h ++ (n.toList ++ (i ++ ('>' :: (p ++ (q ++ r))))))) := by
    simp only [List.append_assoc, List.cons_append]
  rw [e, readOneOf_sign hsg hs hg]
  dsimp only
  have hst : Stops (fun c => alnumChar c || c == '_') (i ++ '>' :: (p ++ (q ++ r))) := by
    intro c hc
    cases i with
    | nil =>
      simp only [List.nil_append, List.head?_cons, Option.some.injEq] at hc
      subst hc
      decide
    | cons d i =>
      simp only [List.cons_append, List.head?_cons, Option.some.injEq] at hc
      subst hc
      exact slotRest_not_ws ((wsChar_iff d).2 (hi.1 d (by simp)))
  rw [readBuffer_buffer hh hn hst]
  dsimp only
  have hl := readLit_lit (s := ">") (r := p ++ (q ++ r)) hi rfl (by decide)
  change readLit ">" (i ++ '>' :: (p ++ (q ++ r))) = _ at hl
  rw [hl]
  dsimp only
  have hf := follows_parts hsg hq hr
  rw [readMaybeChunk_pairs hp hf.ended hf.slot.pair]
  rfl

theorem readMany_parts {signs : List String} (hsg : Signs signs) {b : Bool} {l : List RulePart} {p r : List Char} (h : PartsWritten true signs b l p) (hr : Follows r)
    (hn : readPart signs r = Option.none) : ∀ n, l.length ≤ n → readMany (readPart signs) n (p ++ r) = some (l, r) := by
  induction h with
  | nil => intro n _; exact readMany_end hn n
  | cons hg hs hh hb hi hp hq ih =>
    intro n hl
    cases n with
    | zero => simp at hl
    | succ n =>
      unfold readMany
      rw [readPart_part hsg hg hs hh hb hi hp hq hr]
      dsimp only [Reader.map]
      rw [ih n (by simpa using hl)]
      rfl

theorem parts_length {signs : List String} {b s : Bool} {l : List RulePart} {p : List Char} (h : PartsWritten s signs b l p) : l.length ≤ p.length := by
  induction h with
  | nil => simp
  | cons hg hs hh hb hi hp hq ih =>
    simp only [List.length_cons, List.length_append]
    omega

theorem readSome_parts {signs : List String} (hsg : Signs signs) {b : Bool} {l : List RulePart} {p r : List Char} (h : PartsWritten true signs b l p) (hl : l ≠ [])
    (hr : Follows r) (hn : readPart signs r = Option.none) : readSome (readPart signs) (p ++ r) = some (l, r) := by
  unfold readSome Reader.andThen
  cases h with
  | nil => exact (hl rfl).elim
  | cons hg hs hh hb hi hp hq =>
    rw [readPart_part hsg hg hs hh hb hi hp hq hr]
    dsimp only [Reader.map]
    rw [readMany_parts hsg hq hr hn _ (le_trans (parts_length hq) (by simp))]
    rfl

theorem parts_mono {s b : Bool} {k k' : List String} {l : List RulePart} {p : List Char} (hk : ∀ x ∈ k, x ∈ k') (h : PartsWritten s k b l p) : PartsWritten s k' b l p := by
  induction h with
  | nil => exact .nil
  | cons hg hs hh hb hi hp hq ih => exact .cons hg (hk _ hs) hh hb hi hp ih

/-- **Completeness of the grammar of rules.** -/
theorem readRule_written {t : RuleText} {cs : List Char} (h : RuleWritten true t cs) : ∃ r, Gap false r ∧ readRule cs = some (t, r) := by
  obtain ⟨hl, hr, l, g, m, e, h1, hg, h2, he, rfl⟩ := h
  have ws : ∀ c : Char, c = '=' → wsChar c = false := by rintro c rfl; decide
  refine ⟨e, he, ?_⟩
  unfold readRule Reader.andThen Reader.map
  have hf : Follows (g ++ '=' :: '=' :: '>' :: (m ++ e)) := by
    refine ⟨ended_gap' hg ?_, noSlot_gap hg (by decide) (by decide) (by decide)⟩
    intro c hc
    simp only [List.head?_cons, Option.some.injEq] at hc
    exact .inr hc.symm
  have hn : readPart lhsSigns (g ++ '=' :: '=' :: '>' :: (m ++ e)) = Option.none := by
    unfold readPart Reader.andThen
    have := readOneOf_sign signs_lhs (s := "=") (by decide) (r := '=' :: '>' :: (m ++ e)) hg
    change readOneOf lhsSigns (g ++ '=' :: '=' :: '>' :: (m ++ e)) = _ at this
    rw [this]
    dsimp only
    have := readWord_fails (rest := fun c => alnumChar c || c == '_') (first := alphaChar) (r := '>' :: (m ++ e)) gap_nil (show wsChar '=' = false by decide) (by decide)
    rw [List.nil_append] at this
    unfold readBuffer
    rw [this]
  rw [readSome_parts signs_lhs (parts_mono (by simp [lhsSigns]) h1) hl hf hn]
  dsimp only
  have ha := readLit_lit (s := "==>") (r := m ++ e) hg rfl (by decide)
  change readLit "==>" (g ++ '=' :: '=' :: '>' :: (m ++ e)) = _ at ha
  rw [ha]
  dsimp only
  have hend : Ended e := by
    have := ended_gap' (r := []) he (by intro c hc; simp at hc)
    rwa [List.append_nil] at this
  have hn2 : readPart rhsSigns e = Option.none := by
    unfold readPart Reader.andThen
    have hh : readOneOf rhsSigns e = Option.none := by
      have := readOneOf_skip rhsSigns he []
      rw [List.append_nil] at this
      rw [this]
      decide
    rw [hh]
  rw [readSome_parts signs_rhs (parts_mono (by simp [rhsSigns]) h2) hr ⟨hend, noSlot_end he⟩ hn2]
  rfl

theorem readChunk_written {l : List (String × PTok)} {cs : List Char} (h : ChunkWritten true l cs) : ∃ r, Gap false r ∧ readChunk cs = some (l, r) := by
  obtain ⟨hl, p, e, hp, he, rfl⟩ := h
  have hend : Ended e := by
    have := ended_gap' (r := []) he (by intro c hc; simp at hc)
    rwa [List.append_nil] at this
  exact ⟨e, he, readChunk_pairs hp hl hend (noSlot_end he).pair⟩

/-! ## What is read was written -/

theorem readValue_split {t : PTok} {cs r : List Char} (ht : '\t' ∉ cs) (h : readValue cs = some (t, r)) : ∃ g v, Gap false g ∧ ValueWritten t v ∧ cs = g ++ (v ++ r) := by
  unfold readValue Reader.orElse Reader.map at h
  have quote : ∀ {q : Char}, (q = '"' ∨ q = '\'') → ∀ {w : String} {r : List Char}, readQuoted q cs = some (w, r) → ∃ g v, Gap false g ∧ ValueWritten (.plain w) v ∧ cs = g ++ (v ++ r) := by
    intro q hq w r hw
    obtain ⟨g, u, hg, e, hu, he⟩ := readQuoted_split hw
    refine ⟨g, w.toList, hg, .quoted hq e fun x hx => ⟨(hu x hx).1, (hu x hx).2.1, (hu x hx).2.2, ?_⟩, he⟩
    rintro rfl
    exact ht (by rw [he, e]; simp [hx])
  cases h1 : readWord plainChar plainChar cs with
  | some x =>
    obtain ⟨w, r'⟩ := x
    rw [h1] at h
    obtain ⟨rfl, rfl⟩ : PTok.plain w = t ∧ r' = r := by
      have := Option.some.inj h
      exact ⟨congrArg Prod.fst this, congrArg Prod.snd this⟩
    obtain ⟨g, c, u, hg, e, hc, hu, he⟩ := readWord_split h1
    refine ⟨g, w.toList, hg, .word (by rw [e]; simp) ?_, he⟩
    intro x hx
    rw [e] at hx
    rcases List.mem_cons.1 hx with rfl | hx
    · exact (plainChar_iff _).1 hc
    · exact (plainChar_iff _).1 (hu x hx)
  | none =>
    rw [h1] at h
    cases h2 : readSpecial cs with
    | some x =>
      rw [h2] at h
      obtain rfl : x = (t, r) := Option.some.inj h
      unfold readSpecial Reader.andThen Reader.map at h2
      cases h3 : readOneOf operators cs with
      | none => rw [h3] at h2; cases h2
      | some y =>
        obtain ⟨op, r1⟩ := y
        rw [h3] at h2
        dsimp only at h2
        cases h4 : readWord opChar opChar r1 with
        | none => rw [h4] at h2; cases h2
        | some z =>
          obtain ⟨w, r2⟩ := z
          rw [h4] at h2
          obtain ⟨rfl, rfl⟩ : PTok.special op w = t ∧ r2 = r := by
            have := Option.some.inj h2
            exact ⟨congrArg Prod.fst this, congrArg Prod.snd this⟩
          obtain ⟨hop, g, hg, he⟩ := readOneOf_split h3
          obtain ⟨g', c, u, hg', e, hc, hu, he'⟩ := readWord_split h4
          refine ⟨g, op.toList ++ (g' ++ w.toList), hg, .special ?_ hg' (by rw [e]; simp) ?_, ?_⟩
          · simp only [operators, List.mem_cons, List.not_mem_nil, or_false] at hop ⊢
            tauto
          · intro x hx
            rw [e] at hx
            rcases List.mem_cons.1 hx with rfl | hx
            · exact (opChar_iff _).1 hc
            · exact (opChar_iff _).1 (hu x hx)
          · rw [he, he']; simp only [List.append_assoc]
    | none =>
      rw [h2] at h
      dsimp only [Option.map] at h
      cases h3 : readQuoted '"' cs with
      | some x =>
        obtain ⟨w, r'⟩ := x
        rw [h3] at h
        obtain ⟨rfl, rfl⟩ : PTok.plain w = t ∧ r' = r := by
          have := Option.some.inj h
          exact ⟨congrArg Prod.fst this, congrArg Prod.snd this⟩
        exact quote (.inl rfl) h3
      | none =>
        rw [h3] at h
        dsimp only at h
        cases h4 : readQuoted '\'' cs with
        | none => rw [h4] at h; cases h
        | some x =>
          obtain ⟨w, r'⟩ := x
          rw [h4] at h
          obtain ⟨rfl, rfl⟩ : PTok.plain w = t ∧ r' = r := by
            have := Option.some.inj h
            exact ⟨congrArg Prod.fst this, congrArg Prod.snd this⟩
          exact quote (.inr rfl) h4

theorem readPair_split {x : String × PTok} {cs r : List Char} (ht : '\t' ∉ cs) (h : readPair cs = some (x, r)) :
    ∃ g i v, Gap false g ∧ SlotName x.1 ∧ Gap false i ∧ ValueWritten x.2 v ∧ cs = g ++ (x.1.toList ++ (i ++ (v ++ r))) := by
  unfold readPair Reader.andThen Reader.map at h
  cases h1 : readSlot cs with
  | none => rw [h1] at h; cases h
  | some y =>
    obtain ⟨n, r1⟩ := y
    rw [h1] at h
    dsimp only at h
    cases h2 : readValue r1 with
    | none => rw [h2] at h; cases h
    | some z =>
      obtain ⟨t, r2⟩ := z
      rw [h2] at h
      obtain ⟨rfl, rfl⟩ : (n, t) = x ∧ r2 = r := by
        have := Option.some.inj h
        exact ⟨congrArg Prod.fst this, congrArg Prod.snd this⟩
      obtain ⟨g, c, u, hg, e, hc, hu, he⟩ := readWord_split h1
      obtain ⟨i, v, hi, hv, he'⟩ := readValue_split (fun hm => ht (by rw [he]; simp [hm])) h2
      refine ⟨g, i, v, hg, ⟨c, u, e, ?_, ?_⟩, hi, hv, by rw [he, he']⟩
      · rw [alphaChar_eq] at hc; simpa using hc
      · intro y hy; have := hu y hy; rw [alnumChar_eq] at this; simpa using this

theorem readMany_pairs_split {l : List (String × PTok)} {r : List Char} : ∀ (n : ℕ) {cs : List Char}, '\t' ∉ cs → readMany readPair n cs = some (l, r) →
    ∃ p, PairsWritten false false l p ∧ cs = p ++ r := by
  intro n
  induction n generalizing l with
  | zero =>
    intro cs _ h
    obtain ⟨rfl, rfl⟩ : [] = l ∧ cs = r := by
      have := Option.some.inj h
      exact ⟨congrArg Prod.fst this, congrArg Prod.snd this⟩
    exact ⟨[], .nil, rfl⟩
  | succ n ih =>
    intro cs ht h
    unfold readMany at h
    cases h1 : readPair cs with
    | none =>
      rw [h1] at h
      obtain ⟨rfl, rfl⟩ : [] = l ∧ cs = r := by
        have := Option.some.inj h
        exact ⟨congrArg Prod.fst this, congrArg Prod.snd this⟩
      exact ⟨[], .nil, rfl⟩
    | some x =>
      obtain ⟨⟨m, t⟩, r1⟩ := x
      rw [h1] at h
      dsimp only [Reader.map] at h
      obtain ⟨g, i, v, hg, hs, hi, hv, he⟩ := readPair_split ht h1
      cases h2 : readMany readPair n r1 with
      | none => rw [h2] at h; cases h
      | some y =>
        obtain ⟨l', r2⟩ := y
        rw [h2] at h
        obtain ⟨rfl, rfl⟩ : (m, t) :: l' = l ∧ r2 = r := by
          have := Option.some.inj h
          exact ⟨congrArg Prod.fst this, congrArg Prod.snd this⟩
        obtain ⟨p, hp, he'⟩ := ih (fun hm => ht (by rw [he]; simp [hm])) h2
        refine ⟨g ++ (m.toList ++ (i ++ (v ++ p))), .cons hg hs hi hv hp, ?_⟩
        dsimp only at he
        rw [he, he']; simp only [List.append_assoc]

theorem readChunk_split {l : List (String × PTok)} {cs r : List Char} (ht : '\t' ∉ cs) (h : readChunk cs = some (l, r)) :
    l ≠ [] ∧ ∃ p, PairsWritten false false l p ∧ cs = p ++ r := by
  unfold readChunk readSome Reader.andThen Reader.map at h
  cases h1 : readPair cs with
  | none => rw [h1] at h; cases h
  | some x =>
    obtain ⟨⟨m, t⟩, r1⟩ := x
    rw [h1] at h
    dsimp only at h
    obtain ⟨g, i, v, hg, hs, hi, hv, he⟩ := readPair_split ht h1
    cases h2 : readMany readPair r1.length r1 with
    | none => rw [h2] at h; cases h
    | some y =>
      obtain ⟨l', r2⟩ := y
      rw [h2] at h
      obtain ⟨rfl, rfl⟩ : (m, t) :: l' = l ∧ r2 = r := by
        have := Option.some.inj h
        exact ⟨congrArg Prod.fst this, congrArg Prod.snd this⟩
      obtain ⟨p, hp, he'⟩ := readMany_pairs_split _ (fun hm => ht (by rw [he]; simp [hm])) h2
      refine ⟨by simp, g ++ (m.toList ++ (i ++ (v ++ p))), .cons hg hs hi hv hp, ?_⟩
      dsimp only at he
      rw [he, he']; simp only [List.append_assoc]

theorem readPart_split {signs : List String} {x : RulePart} {cs r : List Char} (ht : '\t' ∉ cs) (h : readPart signs cs = some (x, r)) :
    ∃ g i j p, Gap false g ∧ x.sign ∈ signs ∧ Gap false i ∧ BufferName x.buffer ∧ Gap false j ∧ PairsWritten false false x.pairs p ∧
      cs = g ++ (x.sign.toList ++ (i ++ (x.buffer.toList ++ (j ++ '>' :: (p ++ r))))) := by
  unfold readPart Reader.andThen Reader.map at h
  cases h1 : readOneOf signs cs with
  | none => rw [h1] at h; cases h
  | some y =>
    obtain ⟨s, r1⟩ := y
    rw [h1] at h
    dsimp only at h
    cases h2 : readBuffer r1 with
    | none => rw [h2] at h; cases h
    | some z =>
      obtain ⟨n, r2⟩ := z
      rw [h2] at h
      dsimp only at h
      cases h3 : readLit ">" r2 with
      | none => rw [h3] at h; cases h
      | some u =>
        obtain ⟨a, r3⟩ := u
        rw [h3] at h
        dsimp only at h
        cases h4 : readMaybeChunk r3 with
        | none => rw [h4] at h; cases h
        | some y =>
          obtain ⟨l, r4⟩ := y
          rw [h4] at h
          obtain ⟨rfl, rfl⟩ : (⟨s, n, l⟩ : RulePart) = x ∧ r4 = r := by
            have := Option.some.inj h
            exact ⟨congrArg Prod.fst this, congrArg Prod.snd this⟩
          obtain ⟨hs, g, hg, he1⟩ := readOneOf_split h1
          obtain ⟨i, c, t, hi, e, hc, hu, he2⟩ := readWord_split h2
          obtain ⟨-, j, hj, he3⟩ := readLit_split h3
          have h4' : ∃ p, PairsWritten false false l p ∧ r3 = p ++ r4 := by
            unfold readMaybeChunk Reader.orElse at h4
            cases h5 : readChunk r3 with
            | some z =>
              rw [h5] at h4
              obtain rfl : z = (l, r4) := Option.some.inj h4
              exact (readChunk_split (fun hm => ht (by rw [he1, he2, he3]; simp [hm])) h5).2
            | none =>
              rw [h5] at h4
              obtain ⟨rfl, rfl⟩ : [] = l ∧ r3 = r4 := by
                have := Option.some.inj h4
                exact ⟨congrArg Prod.fst this, congrArg Prod.snd this⟩
              exact ⟨[], .nil, rfl⟩
          obtain ⟨p, hp, he4⟩ := h4'
          refine ⟨g, i, j, p, hg, hs, hi, ⟨c, t, e, ?_, ?_⟩, hj, hp, ?_⟩
          · rw [alphaChar_eq] at hc; exact hc
          · intro y hy; have := hu y hy; rw [alnumChar_eq] at this; simpa using this
          · rw [he1, he2, he3, he4]; rfl

theorem readMany_parts_split {signs : List String} {l : List RulePart} {r : List Char} : ∀ (n : ℕ) {cs : List Char}, '\t' ∉ cs → readMany (readPart signs) n cs = some (l, r) →
    ∃ p, PartsWritten false signs false l p ∧ cs = p ++ r := by
  intro n
  induction n generalizing l with
  | zero =>
    intro cs _ h
    obtain ⟨rfl, rfl⟩ : [] = l ∧ cs = r := by
      have := Option.some.inj h
      exact ⟨congrArg Prod.fst this, congrArg Prod.snd this⟩
    exact ⟨[], .nil, rfl⟩
  | succ n ih =>
    intro cs ht h
    unfold readMany at h
    cases h1 : readPart signs cs with
    | none =>
      rw [h1] at h
      obtain ⟨rfl, rfl⟩ : [] = l ∧ cs = r := by
        have := Option.some.inj h
        exact ⟨congrArg Prod.fst this, congrArg Prod.snd this⟩
      exact ⟨[], .nil, rfl⟩
    | some x =>
      obtain ⟨⟨s, b, ps⟩, r1⟩ := x
      rw [h1] at h
      dsimp only [Reader.map] at h
      obtain ⟨g, i, j, p, hg, hs, hi, hb, hj, hp, he⟩ := readPart_split ht h1
      cases h2 : readMany (readPart signs) n r1 with
      | none => rw [h2] at h; cases h
      | some y =>
        obtain ⟨l', r2⟩ := y
        rw [h2] at h
        obtain ⟨rfl, rfl⟩ : ⟨s, b, ps⟩ :: l' = l ∧ r2 = r := by
          have := Option.some.inj h
          exact ⟨congrArg Prod.fst this, congrArg Prod.snd this⟩
        obtain ⟨q, hq, he'⟩ := ih (fun hm => ht (by rw [he]; simp [hm])) h2
        refine ⟨_, .cons hg hs hi hb hj hp hq, ?_⟩
        dsimp only at he
        rw [he, he']; simp only [List.append_assoc, List.cons_append]

theorem readSome_parts_split {signs : List String} {l : List RulePart} {cs r : List Char} (ht : '\t' ∉ cs) (h : readSome (readPart signs) cs = some (l, r)) :
    l ≠ [] ∧ ∃ p, PartsWritten false signs false l p ∧ cs = p ++ r := by
  unfold readSome Reader.andThen Reader.map at h
  cases h1 : readPart signs cs with
  | none => rw [h1] at h; cases h
  | some x =>
    obtain ⟨⟨s, b, ps⟩, r1⟩ := x
    rw [h1] at h
    dsimp only at h
    obtain ⟨g, i, j, p, hg, hs, hi, hb, hj, hp, he⟩ := readPart_split ht h1
    cases h2 : readMany (readPart signs) r1.length r1 with
    | none => rw [h2] at h; cases h
    | some y =>
      obtain ⟨l', r2⟩ := y
      rw [h2] at h
      obtain ⟨rfl, rfl⟩ : ⟨s, b, ps⟩ :: l' = l ∧ r2 = r := by
        have := Option.some.inj h
        exact ⟨congrArg Prod.fst this, congrArg Prod.snd this⟩
      obtain ⟨q, hq, he'⟩ := readMany_parts_split _ (fun hm => ht (by rw [he]; simp [hm])) h2
      refine ⟨by simp, _, .cons hg hs hi hb hj hp hq, ?_⟩
      dsimp only at he
      rw [he, he']; simp only [List.append_assoc, List.cons_append]

theorem gap_of_skip {r : List Char} (h : skipWs r = []) : Gap false r := by
  obtain ⟨g, hg, he⟩ := skipWs_split r
  rw [h, List.append_nil] at he
  rw [he]; exact hg

/-- **Soundness of the grammar of rules.** -/
theorem readRule_split {t : RuleText} {cs r : List Char} (ht : '\t' ∉ cs) (h : readRule cs = some (t, r)) (hr : skipWs r = []) : RuleWritten false t cs := by
  unfold readRule Reader.andThen Reader.map at h
  cases h1 : readSome (readPart lhsSigns) cs with
  | none => rw [h1] at h; cases h
  | some x =>
    obtain ⟨l, r1⟩ := x
    rw [h1] at h
    dsimp only at h
    cases h2 : readLit "==>" r1 with
    | none => rw [h2] at h; cases h
    | some y =>
      obtain ⟨a, r2⟩ := y
      rw [h2] at h
      dsimp only at h
      cases h3 : readSome (readPart rhsSigns) r2 with
      | none => rw [h3] at h; cases h
      | some z =>
        obtain ⟨m, r3⟩ := z
        rw [h3] at h
        obtain ⟨rfl, rfl⟩ : (⟨l, m⟩ : RuleText) = t ∧ r3 = r := by
          have := Option.some.inj h
          exact ⟨congrArg Prod.fst this, congrArg Prod.snd this⟩
        obtain ⟨hl, p, hp, he1⟩ := readSome_parts_split ht h1
        obtain ⟨-, g, hg, he2⟩ := readLit_split h2
        obtain ⟨hm, q, hq, he3⟩ := readSome_parts_split (fun hm => ht (by rw [he1, he2]; simp [hm])) h3
        refine ⟨hl, hm, p, g, q, r3, hp, hg, ?_, gap_of_skip hr, by rw [he1, he2, he3]; rfl⟩
        refine parts_mono (fun x hx => ?_) hq
        simp only [rhsSigns, List.mem_cons, List.not_mem_nil, or_false] at hx ⊢
        tauto

theorem readChunk_sound {l : List (String × PTok)} {cs r : List Char} (ht : '\t' ∉ cs) (h : readChunk cs = some (l, r)) (hr : skipWs r = []) : ChunkWritten false l cs := by
  obtain ⟨hl, p, hp, he⟩ := readChunk_split ht h
  exact ⟨hl, p, r, hp, gap_of_skip hr, he⟩

/-! ## Tabs -/

theorem expandTabs_free {cs : List Char} (h : '\t' ∉ cs) (k : ℕ) : expandTabs k cs = cs := by
  induction cs generalizing k with
  | nil => rfl
  | cons c cs ih =>
    simp only [List.mem_cons, not_or] at h
    unfold expandTabs
    rw [if_neg (Ne.symm h.1), ih h.2, ih h.2]
    split <;> rfl

theorem expandTabs_append (k : ℕ) (a b : List Char) : ∃ k', expandTabs k (a ++ b) = expandTabs k a ++ expandTabs k' b := by
  induction a generalizing k with
  | nil => exact ⟨k, rfl⟩
  | cons c a ih =>
    simp only [List.cons_append]
    rw [expandTabs.eq_2, expandTabs.eq_2]
    split
    · obtain ⟨k', e⟩ := ih 0
      exact ⟨k', by rw [e, List.append_assoc]⟩
    · split
      · obtain ⟨k', e⟩ := ih 0
        exact ⟨k', by rw [e]; rfl⟩
      · obtain ⟨k', e⟩ := ih (k + 1)
        exact ⟨k', by rw [e]; rfl⟩

theorem expandTabs_gap {b : Bool} {g : List Char} (h : Gap b g) (k : ℕ) : Gap b (expandTabs k g) := by
  constructor
  · have := h.1
    clear h
    induction g generalizing k with
    | nil => simp [expandTabs]
    | cons c g ih =>
      have hc := this c (by simp)
      have hg := fun k => ih k fun x hx => this x (List.mem_cons_of_mem _ hx)
      unfold expandTabs
      intro x hx
      split at hx
      · rcases List.mem_append.1 hx with hx | hx
        · rw [List.eq_of_mem_replicate hx]; simp
        · exact hg _ x hx
      · split at hx
        · rcases List.mem_cons.1 hx with rfl | hx
          · exact hc
          · exact hg _ x hx
        · rcases List.mem_cons.1 hx with rfl | hx
          · exact hc
          · exact hg _ x hx
  · intro hb
    obtain ⟨c, t, rfl⟩ := List.exists_cons_of_ne_nil (h.2 hb)
    unfold expandTabs
    have : 8 - k % 8 ≠ 0 := by omega
    split
    · simp [this]
    · split <;> simp

/-- Inside words there are no tabs. -/
theorem slot_noTab {n : String} (h : SlotName n) : '\t' ∉ n.toList := by
  obtain ⟨c, t, e, hc, ht⟩ := h
  rw [e]
  intro hm
  rcases List.mem_cons.1 hm with rfl | hm
  · revert hc; decide
  · have := ht _ hm; revert this; decide

theorem buffer_noTab {n : String} (h : BufferName n) : '\t' ∉ n.toList := by
  obtain ⟨c, t, e, hc, ht⟩ := h
  rw [e]
  intro hm
  rcases List.mem_cons.1 hm with rfl | hm
  · revert hc; decide
  · have := ht _ hm; revert this; decide

theorem expandTabs_value {t : PTok} {v : List Char} (h : ValueWritten t v) (k : ℕ) : ValueWritten t (expandTabs k v) := by
  cases h with
  | @word w hne hw =>
    rw [expandTabs_free]
    · exact .word hne hw
    · intro hm; have := hw _ hm; revert this; decide
  | @quoted q w t hq e ht =>
    rw [expandTabs_free]
    · exact .quoted hq e ht
    · rw [e]
      intro hm
      rcases List.mem_cons.1 hm with rfl | hm
      · revert hq; decide
      · rcases List.mem_append.1 hm with hm | hm
        · exact (ht _ hm).2.2.2 rfl
        · rw [List.mem_singleton] at hm; subst hm; revert hq; decide
  | @special op w g hop hg hne hw =>
    obtain ⟨k1, e1⟩ := expandTabs_append k op.toList (g ++ w.toList)
    obtain ⟨k2, e2⟩ := expandTabs_append k1 g w.toList
    have h1 : '\t' ∉ op.toList := by
      simp only [List.mem_cons, List.not_mem_nil, or_false] at hop
      rcases hop with rfl | rfl | rfl | rfl | rfl | rfl | rfl <;> decide
    have h2 : '\t' ∉ w.toList := by intro hm; have := hw _ hm; revert this; decide
    rw [e1, e2, expandTabs_free h1, expandTabs_free h2]
    exact .special hop (expandTabs_gap hg k1) hne hw

theorem expandTabs_pairs {s b : Bool} {l : List (String × PTok)} {p : List Char} (h : PairsWritten s b l p) (k : ℕ) : PairsWritten s b l (expandTabs k p) := by
  induction h generalizing k with
  | nil => exact .nil
  | @cons b n t l g h v r hg hn hh hv hr ih =>
    obtain ⟨k1, e1⟩ := expandTabs_append k g (n.toList ++ (h ++ (v ++ r)))
    obtain ⟨k2, e2⟩ := expandTabs_append k1 n.toList (h ++ (v ++ r))
    obtain ⟨k3, e3⟩ := expandTabs_append k2 h (v ++ r)
    obtain ⟨k4, e4⟩ := expandTabs_append k3 v r
    rw [e1, e2, e3, e4, expandTabs_free (slot_noTab hn)]
    exact .cons (expandTabs_gap hg _) hn (expandTabs_gap hh _) (expandTabs_value hv _) (ih _)

theorem expandTabs_parts {signs : List String} (hsg : Signs signs) {s b : Bool} {l : List RulePart} {p : List Char} (h : PartsWritten s signs b l p) (k : ℕ) :
    PartsWritten s signs b l (expandTabs k p) := by
  induction h generalizing k with
  | nil => exact .nil
  | @cons b sg n ps l g h i p r hg hs hh hn hi hp hr ih =>
    obtain ⟨k1, e1⟩ := expandTabs_append k g (sg.toList ++ (h ++ (n.toList ++ (i ++ ('>' :: (p ++ r))))))
    obtain ⟨k2, e2⟩ := expandTabs_append k1 sg.toList (h ++ (n.toList ++ (i ++ ('>' :: (p ++ r)))))
    obtain ⟨k3, e3⟩ := expandTabs_append k2 h (n.toList ++ (i ++ ('>' :: (p ++ r))))
    obtain ⟨k4, e4⟩ := expandTabs_append k3 n.toList (i ++ ('>' :: (p ++ r)))
    obtain ⟨k5, e5⟩ := expandTabs_append k4 i ('>' :: (p ++ r))
    obtain ⟨k6, e6⟩ := expandTabs_append k5 ['>'] (p ++ r)
    obtain ⟨k7, e7⟩ := expandTabs_append k6 p r
    have hs' : '\t' ∉ sg.toList := by
      obtain ⟨c, e, hc⟩ := hsg sg hs
      rw [e]
      intro hm
      rw [List.mem_singleton] at hm
      subst hm
      revert hc
      decide
    change expandTabs k5 ('>' :: (p ++ r)) = _ at e6
    rw [e1, e2, e3, e4, e5, e6, e7, expandTabs_free hs', expandTabs_free (buffer_noTab hn), expandTabs_free (show '\t' ∉ ['>'] by decide)]
    have := PartsWritten.cons (expandTabs_gap hg k) hs (expandTabs_gap hh k2) hn (expandTabs_gap hi k4) (expandTabs_pairs hp k6) (ih k7)
    simpa only [List.cons_append, List.nil_append] using this

theorem expandTabs_rule {s : Bool} {t : RuleText} {cs : List Char} (h : RuleWritten s t cs) (k : ℕ) : RuleWritten s t (expandTabs k cs) := by
  obtain ⟨hl, hr, l, g, m, e, h1, hg, h2, he, rfl⟩ := h
  obtain ⟨k1, e1⟩ := expandTabs_append k l (g ++ ('=' :: '=' :: '>' :: (m ++ e)))
  obtain ⟨k2, e2⟩ := expandTabs_append k1 g ('=' :: '=' :: '>' :: (m ++ e))
  obtain ⟨k3, e3⟩ := expandTabs_append k2 ['=', '=', '>'] (m ++ e)
  obtain ⟨k4, e4⟩ := expandTabs_append k3 m e
  change expandTabs k2 ('=' :: '=' :: '>' :: (m ++ e)) = _ at e3
  refine ⟨hl, hr, _, _, _, _, expandTabs_parts (fun x hx => signs_lhs x hx) h1 k, expandTabs_gap hg k1, expandTabs_parts (fun x hx => signs_rhs x ?_) h2 k3, expandTabs_gap he k4, ?_⟩
  · simp only [rhsSigns, List.mem_cons, List.not_mem_nil, or_false] at hx ⊢
    tauto
  · rw [e1, e2, e3, e4, expandTabs_free (show '\t' ∉ ['=', '=', '>'] by decide)]
    rfl

theorem expandTabs_chunk {s : Bool} {l : List (String × PTok)} {cs : List Char} (h : ChunkWritten s l cs) (k : ℕ) : ChunkWritten s l (expandTabs k cs) := by
  obtain ⟨hl, p, e, hp, he, rfl⟩ := h
  obtain ⟨k1, e1⟩ := expandTabs_append k p e
  exact ⟨hl, _, _, expandTabs_pairs hp k, expandTabs_gap he k1, e1⟩

theorem skipWs_of_gap {b : Bool} {g : List Char} (h : Gap b g) : skipWs g = [] := by
  have := skipWs_gap h []
  rwa [List.append_nil] at this

theorem parseAll_rule {t : RuleText} {text : String} (h : RuleWritten true t text.toList) : parseAll readRule text = some t := by
  obtain ⟨r, hr, e⟩ := readRule_written (expandTabs_rule h 0)
  unfold parseAll
  rw [e]
  simp [skipWs_of_gap hr]

theorem parseAll_rule_sound {t : RuleText} {text : String} (ht : '\t' ∉ text.toList) (h : parseAll readRule text = some t) : RuleWritten false t text.toList := by
  unfold parseAll at h
  rw [expandTabs_free ht] at h
  split at h
  · rename_i a r e
    split at h
    · rename_i hs
      obtain rfl := Option.some.inj h
      exact readRule_split ht e hs
    · cases h
  · cases h

theorem parseAll_chunk {l : List (String × PTok)} {text : String} (h : ChunkWritten true l text.toList) : parseAll readChunk text = some l := by
  obtain ⟨r, hr, e⟩ := readChunk_written (expandTabs_chunk h 0)
  unfold parseAll
  rw [e]
  simp [skipWs_of_gap hr]

theorem parseAll_chunk_sound {l : List (String × PTok)} {text : String} (ht : '\t' ∉ text.toList) (h : parseAll readChunk text = some l) : ChunkWritten false l text.toList := by
  unfold parseAll at h
  rw [expandTabs_free ht] at h
  split at h
  · rename_i a r e
    split at h
    · rename_i hs
      obtain rfl := Option.some.inj h
      exact readChunk_sound ht e hs
    · cases h
  · cases h

end Verif
