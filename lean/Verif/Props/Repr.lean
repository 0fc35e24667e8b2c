import Verif.Model.Repr
import Verif.Props.StringSplit
/-! # Property C75: reading what was printed -/
namespace Verif.Props
open Verif Verif.Spec

/-! ## The characters of the text -/

/-- The characters that stand for a negated value or variable. -/
def tilde (mark : List Char) (w : List Char) : List Char := '~' :: (mark ++ w)

theorem negvarText_toList (l : List String) : (negvarText l).toList = l.flatMap (fun n => tilde ['='] n.toList) := by
  induction l with
  | nil => rfl
  | cons n r ih => simp [negvarText, tilde, ih, String.toList_append]

theorem negText_toList (l : List Val) (h : ∀ v ∈ l, ∃ n, v = .str n ∧ n ≠ "" ∧ NameOk n) :
    ∃ w, (negText l).toList = w ∧ (∀ c ∈ w, c ≠ '=' ∧ c ≠ '!') ∧ ∀ c r, w = c :: r → c = '~' := by
  induction l with
  | nil => exact ⟨_, rfl, by simp [negText], by simp [negText]⟩
  | cons v r ih =>
    obtain ⟨n, rfl, _, hn⟩ := h v (by simp)
    obtain ⟨w, hw, hc, _⟩ := ih (fun v hv => h v (by simp [hv]))
    refine ⟨_, rfl, ?_, ?_⟩
    · simp only [negText, Val.text, String.toList_append, hw]
      intro c hcm
      simp at hcm
      rcases hcm with rfl | hcm | hcm
      · exact ⟨by decide, by decide⟩
      · exact ⟨(hn c hcm).1, (hn c hcm).2.1⟩
      · exact hc c hcm
    · intro c r' he
      simp [negText, Val.text, String.toList_append] at he
      exact he.1.symm

theorem findMarks_none (mark : Char) (neg : Bool) (l : List Char) (h : ∀ c ∈ l, c ≠ mark) : ∀ p, findMarks mark neg p l = [] := by
  induction l with
  | nil => intro p; rfl
  | cons c r ih =>
    intro p
    simp only [findMarks, h c (by simp), false_and, if_false]
    exact ih (fun d hd => h d (by simp [hd])) _

theorem findMarks_over (mark : Char) (neg : Bool) (w rest : List Char) (h : ∀ c ∈ w, c ≠ mark) (p : Option Char) :
    ∃ p', findMarks mark neg p (w ++ rest) = findMarks mark neg p' rest := by
  induction w generalizing p with
  | nil => exact ⟨p, rfl⟩
  | cons c r ih =>
    obtain ⟨p', hp⟩ := ih (fun d hd => h d (by simp [hd])) (some c)
    exact ⟨p', by simp only [List.cons_append, findMarks, h c (by simp), false_and, if_false]; exact hp⟩

/-- The negated variables at the end of the text. -/
theorem findMarks_negvars (neg : Bool) (l : List String) (h : ∀ n ∈ l, NameOk n) (p : Option Char) :
    findMarks '=' neg p (negvarText l).toList = if neg then l.map String.toList else [] := by
  induction l generalizing p with
  | nil => cases neg <;> rfl
  | cons n r ih =>
    have hn : NamePlain n.toList := h n (by simp)
    have hr : ∀ c s, (negvarText r).toList = c :: s → isSpecial c = true := by
      intro c s hs
      cases r with
      | nil => simp [negvarText] at hs
      | cons m r => simp [negvarText, String.toList_append] at hs; obtain ⟨rfl, _⟩ := hs; decide
    have hl := lazyRun_name n.toList (negvarText r).toList hn hr
    have ih := ih (fun m hm => h m (by simp [hm]))
    obtain ⟨p', hp'⟩ := findMarks_over '=' neg n.toList (negvarText r).toList (fun c hc => (hn c hc).1) (some '=')
    have : (negvarText (n :: r)).toList = '~' :: '=' :: (n.toList ++ (negvarText r).toList) := by
      simp [negvarText, String.toList_append]
    rw [this]
    cases neg with
    | false =>
      simp only [findMarks]
      simp
      rw [hp', ih]; simp
    | true =>
      simp only [findMarks]
      simp [hl]
      rw [hp', ih]; simp

/-- The text of a description: the value, the variable and the negations one after the other. -/
theorem text_toList (x : VarVal) (hx : Writable x) : ∃ V N : List Char, NamePlain V ∧ (∀ c ∈ N, c ≠ '=' ∧ c ≠ '!') ∧
    (∀ c r, N = c :: r → c = '~') ∧
    (varvalRepr x).toList = V ++ ((match x.vars with | some n => '=' :: n.toList | Option.none => []) ++ (N ++ (negvarText x.negvars).toList)) := by
  obtain ⟨N, hN, hc, ht⟩ := negText_toList x.negvalues hx.negvalues
  refine ⟨(if x.values.truthy then x.values.text else "").toList, N, ?_, hc, ht, ?_⟩
  · rcases hx.value with h | ⟨n, h, h0, hn⟩
    · simp [h, Val.truthy, NamePlain]
    · simp only [h, Val.truthy, Val.text]
      intro c hcm
      have : (n != "") = true := by simpa using h0
      rw [if_pos this] at hcm
      exact hn c hcm
  · obtain ⟨v, vr, nv, nvr⟩ := x
    simp only [varvalRepr, slotText, String.toList_append, ← hN]
    cases vr with
    | none => simp [optStrTruthy]
    | some n =>
      have h0 := (hx.var n rfl).1
      simp [optStrTruthy, h0, String.toList_append]

/-- What the four patterns find in the text of a description. -/
theorem text_marks (x : VarVal) (hx : Writable x) :
    markSet '!' false (varvalRepr x) = [] ∧ markSet '!' true (varvalRepr x) = [] ∧
    markSet '=' false (varvalRepr x) = x.vars.toList ∧ markSet '=' true (varvalRepr x) = x.negvars := by
  obtain ⟨V, N, hV, hN, hNt, ht⟩ := text_toList x hx
  have hex : ∀ c ∈ (varvalRepr x).toList, c ≠ '!' := by
    rw [ht]
    intro c hc
    simp only [List.mem_append] at hc
    rcases hc with hc | hc | hc | hc
    · exact (hV c hc).2.1
    · cases hv : x.vars with
      | none => simp [hv] at hc
      | some n =>
        simp only [hv, List.mem_cons] at hc
        rcases hc with rfl | hc
        · decide
        · exact ((hx.var n hv).2 c hc).2.1
    · exact (hN c hc).2
    · rw [negvarText_toList] at hc
      simp only [List.mem_flatMap, tilde, List.mem_cons, List.cons_append, List.nil_append] at hc
      obtain ⟨n, hn, rfl | rfl | hc⟩ := hc
      · decide
      · decide
      · exact ((hx.negvars n hn).2 c hc).2.1
  have key : ∀ neg, findMarks '=' neg Option.none (varvalRepr x).toList =
      if neg then x.negvars.map String.toList else x.vars.toList.map String.toList := by
    intro neg
    rw [ht]
    obtain ⟨p, hp, h1⟩ := findMarks_name '=' (.inl rfl) neg V
      ((match x.vars with | some n => '=' :: n.toList | Option.none => []) ++ (N ++ (negvarText x.negvars).toList)) hV Option.none (by simp)
    rw [h1]
    have tail : ∀ p, findMarks '=' neg p (N ++ (negvarText x.negvars).toList) = if neg then x.negvars.map String.toList else [] := by
      intro p
      obtain ⟨p', h2⟩ := findMarks_over '=' neg N (negvarText x.negvars).toList (fun c hc => (hN c hc).1) p
      rw [h2]
      exact findMarks_negvars neg x.negvars (fun n hn => (hx.negvars n hn).2) p'
    cases hv : x.vars with
    | none => simp only [List.nil_append, tail]; cases neg <;> simp
    | some n =>
      have hn := (hx.var n hv).2
      have hr : ∀ c r, N ++ (negvarText x.negvars).toList = c :: r → isSpecial c = true := by
        intro c r h
        cases N with
        | nil =>
          cases hl : x.negvars with
          | nil => simp [hl, negvarText] at h
          | cons m l => simp [hl, negvarText, String.toList_append] at h; obtain ⟨rfl, _⟩ := h; decide
        | cons d N =>
          have := hNt d N rfl
          simp only [List.cons_append, List.cons.injEq] at h
          rw [← h.1, this]; decide
      have hl := lazyRun_name n.toList _ hn hr
      obtain ⟨p', h3⟩ := findMarks_over '=' neg n.toList (N ++ (negvarText x.negvars).toList) (fun c hc => (hn c hc).1) (some '=')
      cases neg with
      | false =>
        simp only [List.cons_append, findMarks]
        simp [hp, hl]
        rw [h3, tail]; simp
      | true =>
        simp only [List.cons_append, findMarks]
        simp [hp]
        rw [h3, tail]; simp
  have back : ∀ l : List String, (l.map String.toList).map String.ofList = l := by
    intro l; simp [List.map_map, Function.comp_def]
  refine ⟨by simp [markSet, findMarks_none '!' false _ hex], by simp [markSet, findMarks_none '!' true _ hex], ?_, ?_⟩
  · simp only [markSet, key]
    rw [if_neg (by simp), back]
    cases x.vars <;> simp
  · simp only [markSet, key]
    rw [if_pos trivial, back]
    exact List.Nodup.dedup hx.once.2

/-! ## What is read -/

/-- C75, complete reading: the text of a description with variables is read as its variables alone: the value and the negated
values are lost. The text of a description without variables is read as a single value, namely as the whole text. -/
theorem C75_reading (O : SetOrder) (x : VarVal) (hx : Writable x) :
    (x.vars = Option.none → x.negvars = [] → parseSlot O (varvalRepr x) = .ok ⟨.str (varvalRepr x), Option.none, [], []⟩) ∧
    ((x.vars ≠ Option.none ∨ x.negvars ≠ []) →
      ∃ l, l.Perm x.negvars ∧ parseSlot O (varvalRepr x) = .ok ⟨.none, x.vars, [], l⟩) := by
  obtain ⟨h1, h2, h3, h4⟩ := text_marks x hx
  have o : O.ord [] = [] := List.perm_nil.mp (O.perm [])
  constructor
  · intro hv hn
    simp [parseSlot, stringsplitting, splitParts, h1, h2, h3, h4, hv, hn, Split.toVarVal, o]
  · intro hor
    have : ¬ (x.vars = Option.none ∧ x.negvars = []) := by rintro ⟨a, b⟩; rcases hor with h | h <;> contradiction
    refine ⟨O.ord x.negvars, O.perm _, ?_⟩
    cases hv : x.vars with
    | none =>
      have hn : x.negvars ≠ [] := by intro h; exact this ⟨hv, h⟩
      simp [parseSlot, stringsplitting, splitParts, h1, h2, h3, h4, hv, hn, Split.toVarVal, o]
    | some n => simp [parseSlot, stringsplitting, splitParts, h1, h2, h3, h4, hv, Split.toVarVal, o]

/-- C75 as one would expect it: what is printed for a description that says something is read as the same description. -/
def C75_full : Prop := ∀ (O : SetOrder) (x : VarVal), Writable x → varvalRepr x ≠ "" →
  ∃ y, parseSlot O (varvalRepr x) = .ok y ∧ SameDesc x y

/-- C75: exactly the descriptions that are one value, or that consist of variables only, survive being printed and read. -/
theorem C75_partial (O : SetOrder) (x : VarVal) (hx : Writable x) (hne : varvalRepr x ≠ "") :
    (∃ y, parseSlot O (varvalRepr x) = .ok y ∧ SameDesc x y) ↔
      x.negvalues = [] ∧ (x.values = .none ∨ (x.vars = Option.none ∧ x.negvars = [])) := by
  obtain ⟨h1, h2⟩ := C75_reading O x hx
  by_cases hv : x.vars = Option.none ∧ x.negvars = []
  · have h := h1 hv.1 hv.2
    constructor
    · rintro ⟨y, hy, s1, s2, s3, s4⟩
      rw [h] at hy
      cases hy
      exact ⟨List.perm_nil.mp s3, .inr hv⟩
    · rintro ⟨hn, _⟩
      refine ⟨_, h, ?_, hv.1, by simp [hn], by simp [hv.2]⟩
      obtain ⟨v, vr, nv, nvr⟩ := x
      simp only at hv hn
      obtain ⟨rfl, rfl⟩ := hv
      subst hn
      rcases hx.value with h | ⟨n, h, h0, _⟩
      · simp only at h; subst h; simp [varvalRepr, slotText, Val.truthy, optStrTruthy, negText, negvarText] at hne
      · simp only at h; subst h
        simp [varvalRepr, slotText, Val.truthy, optStrTruthy, negText, negvarText, h0, Val.text]
  · obtain ⟨l, hl, h⟩ := h2 (by
      by_cases h : x.vars = Option.none
      · right; intro h'; exact hv ⟨h, h'⟩
      · left; exact h)
    constructor
    · rintro ⟨y, hy, s1, s2, s3, s4⟩
      rw [h] at hy
      cases hy
      exact ⟨List.perm_nil.mp s3, .inl s1⟩
    · rintro ⟨hn, hval | hh⟩
      · exact ⟨_, h, hval, rfl, by simp [hn], hl.symm⟩
      · exact absurd hh hv

/-- A value together with a variable, as in a rule `slot =x!one`. -/
def exBothDesc : VarVal := ⟨.str "one", some "x", [], []⟩

theorem exBothDesc_writable : Writable exBothDesc := by
  refine ⟨.inr ⟨"one", rfl, by decide, ?_⟩, ?_, by simp [exBothDesc], by simp [exBothDesc], by simp [exBothDesc]⟩
  · simp [NameOk]
  · intro n hn; simp [exBothDesc] at hn; subst hn; simp [NameOk]

/-- C75 fails: what is printed for a value with a variable is read as the variable alone. -/
theorem C75_refuted : ¬ C75_full := by
  intro h
  have := (C75_partial ⟨id, fun _ => List.Perm.refl _⟩ exBothDesc exBothDesc_writable (by decide)).mp
    (h ⟨id, fun _ => List.Perm.refl _⟩ exBothDesc exBothDesc_writable (by decide))
  simp [exBothDesc] at this

/-- Variables only: the text `=x~=y~=z` is read as it was meant. -/
example : Writable ⟨.none, some "x", [], ["y", "z"]⟩ ∧ varvalRepr ⟨.none, some "x", [], ["y", "z"]⟩ = "=x~=y~=z" := by
  refine ⟨⟨.inl rfl, ?_, by simp, ?_, by simp⟩, by decide⟩
  · intro n hn; simp at hn; subst hn; simp [NameOk]
  · intro n hn; simp at hn; rcases hn with rfl | rfl <;> simp [NameOk]

/-- A negated value: the text `~two` is read as the value `~two`, so that the slot asks for what was excluded under another name. -/
example (O : SetOrder) : varvalRepr ⟨.none, Option.none, [.str "two"], []⟩ = "~two" ∧
    parseSlot O "~two" = .ok ⟨.str "~two", Option.none, [], []⟩ := by
  refine ⟨by decide, ?_⟩
  have hx : Writable ⟨.none, Option.none, [.str "two"], []⟩ := by
    refine ⟨.inl rfl, by simp, ?_, by simp, by simp⟩
    intro v hv; simp at hv; subst hv; exact ⟨"two", rfl, by decide, by simp [NameOk]⟩
  exact (C75_reading O _ hx).1 rfl rfl

/-- The printed form of a chunk with a nested chunk and an empty slot; as the text of a slot it would be read as two variables. -/
example : Chunk.repr ⟨"count", [("from", .vv ⟨.chunk "number" [("n", .vv ⟨.str "1", Option.none, [], []⟩)], some "x", [], []⟩), ("to", .empty)]⟩ =
    "count(from= number(n= 1)=x, to= )" := by decide

end Verif.Props
