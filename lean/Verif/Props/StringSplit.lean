import Verif.Model.StringSplit
import Verif.Spec.StringSplit
/-! # Property C11: the slot mini-language -/
namespace Verif.Props
open Verif Verif.Spec

def NamePlain (w : List Char) : Prop := ∀ c ∈ w, c ≠ '=' ∧ c ≠ '!' ∧ c ≠ '~' ∧ c ≠ '\n'

theorem lazyRun_name (w rest : List Char) (hw : NamePlain w) (hr : ∀ c r, rest = c :: r → isSpecial c = true) :
    lazyRun (w ++ rest) = some w := by
  induction w with
  | nil =>
    cases rest with
    | nil => rfl
    | cons c r =>
      have hc := hr c r rfl
      have hn : c ≠ '\n' := by rintro rfl; simp [isSpecial] at hc
      simp only [List.nil_append]
      rw [lazyRun.eq_3 c r (fun h => hn h)]
      simp [hc]
  | cons c w ih =>
    obtain ⟨h1, h2, h3, h4⟩ := hw c (by simp)
    simp only [List.cons_append]
    rw [lazyRun.eq_3 c _ (fun h => h4 h), ih (fun d hd => hw d (by simp [hd]))]
    simp [isSpecial, h1, h2, h3]

theorem findMarks_name (mark : Char) (hm : mark = '=' ∨ mark = '!') (neg : Bool) (w rest : List Char) (hw : NamePlain w)
    (prev : Option Char) (hp : prev ≠ some '~') :
    ∃ prev', prev' ≠ some '~' ∧ findMarks mark neg prev (w ++ rest) = findMarks mark neg prev' rest := by
  induction w generalizing prev with
  | nil => exact ⟨prev, hp, rfl⟩
  | cons c w ih =>
    obtain ⟨h1, h2, h3, h4⟩ := hw c (by simp)
    have hc : c ≠ mark := by rcases hm with rfl | rfl <;> assumption
    obtain ⟨prev', hp', h⟩ := ih (fun d hd => hw d (by simp [hd])) (some c) (by simpa using h3)
    refine ⟨prev', hp', ?_⟩
    simp only [List.cons_append, findMarks, hc, false_and, if_false]
    exact h

/-- The names of the parts written with `mark`, negated or not. -/
def select (mark : Char) (neg : Bool) (ps : List Part) : List (List Char) :=
  ps.filterMap (fun p => match p, mark, neg with
    | .val n, '!', false => some n.toList
    | .var n, '=', false => some n.toList
    | .negval n, '!', true => some n.toList
    | .negvar n, '=', true => some n.toList
    | _, _, _ => Option.none)

theorem renderParts_special (ps : List Part) : ∀ c r, (renderParts ps).toList = c :: r → isSpecial c = true := by
  intro c r h
  cases ps with
  | nil => simp [renderParts] at h
  | cons p ps =>
    cases p <;> simp [renderParts, Part.render, String.toList_append] at h <;> (obtain ⟨rfl, _⟩ := h; decide)

theorem findMarks_parts (mark : Char) (hm : mark = '=' ∨ mark = '!') (neg : Bool) (ps : List Part)
    (hok : ∀ p ∈ ps, NameOk p.name) :
    ∀ prev, prev ≠ some '~' → findMarks mark neg prev (renderParts ps).toList = select mark neg ps := by
  induction ps with
  | nil => intro prev _; simp [renderParts, findMarks, select]
  | cons p ps ih =>
    intro prev hprev
    have ih := ih (fun q hq => hok q (by simp [hq]))
    have hw : NamePlain p.name.toList := hok p (by simp)
    have hlz := lazyRun_name p.name.toList (renderParts ps).toList hw (renderParts_special ps)
    have tail : ∀ m : Char, m ≠ '~' →
        findMarks mark neg (some m) (p.name.toList ++ (renderParts ps).toList) = select mark neg ps := by
      intro m hmm
      obtain ⟨prev', hp', h⟩ := findMarks_name mark hm neg p.name.toList (renderParts ps).toList hw (some m) (by simpa using hmm)
      rw [h, ih prev' hp']
    have t1 := tail '!' (by decide)
    have t2 := tail '=' (by decide)
    cases p with
    | val n =>
      simp only [Part.name] at hlz t1
      have : (renderParts (.val n :: ps)).toList = '!' :: (n.toList ++ (renderParts ps).toList) := by
        simp [renderParts, Part.render, String.toList_append]
      rw [this]
      rcases hm with rfl | rfl <;> cases neg <;> simp [findMarks, hlz, t1, hprev, select]
    | var n =>
      simp only [Part.name] at hlz t2
      have : (renderParts (.var n :: ps)).toList = '=' :: (n.toList ++ (renderParts ps).toList) := by
        simp [renderParts, Part.render, String.toList_append]
      rw [this]
      rcases hm with rfl | rfl <;> cases neg <;> simp [findMarks, hlz, t2, hprev, select]
    | negval n =>
      simp only [Part.name] at hlz t1
      have : (renderParts (.negval n :: ps)).toList = '~' :: '!' :: (n.toList ++ (renderParts ps).toList) := by
        simp [renderParts, Part.render, String.toList_append]
      rw [this]
      rcases hm with rfl | rfl <;> cases neg <;> simp [findMarks, hlz, t1, select]
    | negvar n =>
      simp only [Part.name] at hlz t2
      have : (renderParts (.negvar n :: ps)).toList = '~' :: '=' :: (n.toList ++ (renderParts ps).toList) := by
        simp [renderParts, Part.render, String.toList_append]
      rw [this]
      rcases hm with rfl | rfl <;> cases neg <;> simp [findMarks, hlz, t2, select]

theorem mem_markSet (mark : Char) (hm : mark = '=' ∨ mark = '!') (neg : Bool) (ps : List Part)
    (hok : ∀ p ∈ ps, NameOk p.name) (n : String) :
    n ∈ markSet mark neg (renderParts ps) ↔ n.toList ∈ select mark neg ps := by
  simp only [markSet, List.mem_dedup, findMarks_parts mark hm neg ps hok Option.none (by simp), List.mem_map]
  constructor
  · rintro ⟨l, hl, rfl⟩; simpa using hl
  · intro h; exact ⟨_, h, by simp⟩

theorem toList_inj {a b : String} (h : a.toList = b.toList) : a = b := by
  have := congrArg String.ofList h
  simpa using this

/-- The four sets found in a description. -/
theorem splitParts_mem (ps : List Part) (hne : ps ≠ []) (hok : ∀ p ∈ ps, NameOk p.name) (n : String) :
    (n ∈ (splitParts (renderParts ps)).values ↔ .val n ∈ ps) ∧ (n ∈ (splitParts (renderParts ps)).vars ↔ .var n ∈ ps) ∧
    (n ∈ (splitParts (renderParts ps)).negvalues ↔ .negval n ∈ ps) ∧
    (n ∈ (splitParts (renderParts ps)).negvars ↔ .negvar n ∈ ps) := by
  have hsel : ∀ n : String, (n ∈ markSet '!' false (renderParts ps) ↔ Part.val n ∈ ps) ∧
      (n ∈ markSet '=' false (renderParts ps) ↔ Part.var n ∈ ps) ∧
      (n ∈ markSet '!' true (renderParts ps) ↔ Part.negval n ∈ ps) ∧
      (n ∈ markSet '=' true (renderParts ps) ↔ Part.negvar n ∈ ps) := by
    intro n
    rw [mem_markSet _ (by simp) _ _ hok, mem_markSet _ (by simp) _ _ hok, mem_markSet _ (by simp) _ _ hok,
      mem_markSet _ (by simp) _ _ hok]
    simp only [select, List.mem_filterMap]
    refine ⟨⟨?_, fun h => ⟨_, h, by simp⟩⟩, ⟨?_, fun h => ⟨_, h, by simp⟩⟩, ⟨?_, fun h => ⟨_, h, by simp⟩⟩,
      ⟨?_, fun h => ⟨_, h, by simp⟩⟩⟩ <;>
    · rintro ⟨p, hp, h⟩
      cases p <;> simp at h <;> (have := toList_inj h; subst this; exact hp)
  have hnot : ¬ ((markSet '!' false (renderParts ps)).isEmpty && (markSet '=' false (renderParts ps)).isEmpty &&
      (markSet '!' true (renderParts ps)).isEmpty && (markSet '=' true (renderParts ps)).isEmpty) = true := by
    simp only [Bool.and_eq_true, List.isEmpty_iff]
    rintro ⟨⟨⟨h1, h2⟩, h3⟩, h4⟩
    cases ps with
    | nil => exact hne rfl
    | cons p ps =>
      have hh := hsel p.name
      rw [h1, h2, h3, h4] at hh
      cases p <;> simp [Part.name] at hh
  simp only [splitParts, if_neg hnot]
  exact hsel n

theorem splitParts_nodup (s : String) : (splitParts s).values.Nodup ∧ (splitParts s).vars.Nodup ∧
    (splitParts s).negvalues.Nodup ∧ (splitParts s).negvars.Nodup := by
  have : ∀ m b, (markSet m b s).Nodup := fun m b => List.nodup_dedup _
  simp only [splitParts]
  split <;> simp [this]

theorem length_le_one_iff {α : Type} {l : List α} (h : l.Nodup) : ¬ l.length > 1 ↔ ∀ a b, a ∈ l → b ∈ l → a = b := by
  match l with
  | [] => simp
  | [x] => simp
  | x :: y :: r =>
    simp only [List.length_cons, gt_iff_lt, Nat.lt_add_left_iff_pos, Nat.zero_lt_succ, not_true_eq_false, false_iff]
    intro h'
    have : x ≠ y := by intro hxy; subst hxy; simp at h
    exact this (h' x y (by simp) (by simp))

/-- C11: a slot string made of parts (in any order and number, names without special characters) raises ACTRError exactly if
it contains two different values or two different variables; otherwise the slot consists of exactly the parts written. -/
theorem C11_parts (O : SetOrder) (ps : List Part) (hne : ps ≠ []) (hok : ∀ p ∈ ps, NameOk p.name) :
    ((∃ m n, m ≠ n ∧ ((.val m ∈ ps ∧ .val n ∈ ps) ∨ (.var m ∈ ps ∧ .var n ∈ ps))) ∧
      parseSlot O (renderParts ps) = .error .actr) ∨
    ((¬ ∃ m n, m ≠ n ∧ ((.val m ∈ ps ∧ .val n ∈ ps) ∨ (.var m ∈ ps ∧ .var n ∈ ps))) ∧
      ∃ x, parseSlot O (renderParts ps) = .ok x ∧
        (∀ n, x.values = .str n ↔ .val n ∈ ps) ∧ ((∀ n, .val n ∉ ps) → x.values = .none) ∧
        (∀ n, x.vars = some n ↔ .var n ∈ ps) ∧
        (∀ v, v ∈ x.negvalues ↔ ∃ n, v = .str n ∧ .negval n ∈ ps) ∧
        (∀ n, n ∈ x.negvars ↔ .negvar n ∈ ps) ∧ x.negvalues.Nodup ∧ x.negvars.Nodup) := by
  have hmem := splitParts_mem ps hne hok
  obtain ⟨n1, n2, n3, n4⟩ := splitParts_nodup (renderParts ps)
  simp only [parseSlot, stringsplitting]
  generalize splitParts (renderParts ps) = v at *
  by_cases hv : v.values.length > 1
  · left
    have : ¬ ∀ a b, a ∈ v.values → b ∈ v.values → a = b := fun h => (length_le_one_iff n1).mpr h hv
    push Not at this
    obtain ⟨m, n, hm, hn, hmn⟩ := this
    refine ⟨⟨m, n, hmn, .inl ⟨(hmem m).1.mp hm, (hmem n).1.mp hn⟩⟩, by simp [hv]⟩
  · by_cases hw : v.vars.length > 1
    · left
      have : ¬ ∀ a b, a ∈ v.vars → b ∈ v.vars → a = b := fun h => (length_le_one_iff n2).mpr h hw
      push Not at this
      obtain ⟨m, n, hm, hn, hmn⟩ := this
      refine ⟨⟨m, n, hmn, .inr ⟨(hmem m).2.1.mp hm, (hmem n).2.1.mp hn⟩⟩, by simp [hv, hw]⟩
    · right
      have u1 := (length_le_one_iff n1).mp hv
      have u2 := (length_le_one_iff n2).mp hw
      refine ⟨?_, v.toVarVal O, by simp [hv, hw], ?_, ?_, ?_, ?_, ?_, ?_, ?_⟩
      · rintro ⟨m, n, hmn, ⟨h1, h2⟩ | ⟨h1, h2⟩⟩
        · exact hmn (u1 m n ((hmem m).1.mpr h1) ((hmem n).1.mpr h2))
        · exact hmn (u2 m n ((hmem m).2.1.mpr h1) ((hmem n).2.1.mpr h2))
      · intro n
        rw [← (hmem n).1]
        simp only [Split.toVarVal]
        cases hvv : v.values with
        | nil => simp
        | cons x r =>
          simp only [Val.str.injEq, List.mem_cons]
          refine ⟨fun h => .inl h.symm, ?_⟩
          intro h
          exact u1 x n (by simp [hvv]) (by simpa [hvv] using h)
      · intro h
        simp only [Split.toVarVal]
        cases hvv : v.values with
        | nil => rfl
        | cons x r => exact absurd ((hmem x).1.mp (by simp [hvv])) (h x)
      · intro n
        rw [← (hmem n).2.1]
        simp only [Split.toVarVal]
        cases hvv : v.vars with
        | nil => simp
        | cons x r =>
          simp only [List.head?_cons, Option.some.injEq, List.mem_cons]
          refine ⟨fun h => .inl h.symm, ?_⟩
          intro h
          exact u2 x n (by simp [hvv]) (by simpa [hvv] using h)
      · intro w
        simp only [Split.toVarVal, List.mem_map]
        constructor
        · rintro ⟨n, hn, rfl⟩
          exact ⟨n, rfl, (hmem n).2.2.1.mp ((O.perm _).mem_iff.mp hn)⟩
        · rintro ⟨n, rfl, hn⟩
          exact ⟨n, (O.perm _).mem_iff.mpr ((hmem n).2.2.1.mpr hn), rfl⟩
      · intro n
        simp only [Split.toVarVal]
        rw [(O.perm _).mem_iff, (hmem n).2.2.2]
      · simp only [Split.toVarVal]
        exact ((O.perm _).nodup_iff.mpr n3).map (fun a b h => by simpa using h)
      · simp only [Split.toVarVal]
        exact (O.perm _).nodup_iff.mpr n4

/-- C11: a string without special characters is one value (even with line breaks in it). -/
theorem C11_plain (O : SetOrder) (s : String) (h : ∀ c ∈ s.toList, c ≠ '=' ∧ c ≠ '!') :
    parseSlot O s = .ok ⟨.str s, Option.none, [], []⟩ := by
  have hf : ∀ mark, (mark = '=' ∨ mark = '!') → ∀ neg (l : List Char), (∀ c ∈ l, c ≠ '=' ∧ c ≠ '!') → ∀ p,
      findMarks mark neg p l = [] := by
    intro mark hm neg l
    induction l with
    | nil => intro _ p; rfl
    | cons c r ih =>
      intro hl p
      have hc : c ≠ mark := by
        obtain ⟨h1, h2⟩ := hl c (by simp)
        rcases hm with rfl | rfl <;> assumption
      simp only [findMarks, hc, false_and, if_false]
      exact ih (fun d hd => hl d (by simp [hd])) _
  have hs : ∀ mark, (mark = '=' ∨ mark = '!') → ∀ neg, markSet mark neg s = [] := by
    intro mark hm neg; simp [markSet, hf mark hm neg s.toList h]
  have o : O.ord [] = [] := List.perm_nil.mp (O.perm [])
  simp [parseSlot, stringsplitting, splitParts, hs, Split.toVarVal, o]

/-- A description with all four kinds of parts and a repeated value, and one with two values. -/
example : (∀ p ∈ [Part.val "one", .negvar "y", .var "x", .negval "two", .val "one", .negvar "z"], NameOk p.name) ∧
    renderParts [Part.val "one", .negvar "y", .var "x", .negval "two", .val "one", .negvar "z"] =
      "!one~=y=x~!two!one~=z" ∧
    (¬ ∃ m n, m ≠ n ∧ ((Part.val m ∈ [Part.val "one", .negvar "y", .var "x", .negval "two", .val "one", .negvar "z"] ∧
      Part.val n ∈ [Part.val "one", .negvar "y", .var "x", .negval "two", .val "one", .negvar "z"]) ∨
      (Part.var m ∈ [Part.val "one", .negvar "y", .var "x", .negval "two", .val "one", .negvar "z"] ∧
      Part.var n ∈ [Part.val "one", .negvar "y", .var "x", .negval "two", .val "one", .negvar "z"]))) := by
  refine ⟨?_, by decide, ?_⟩
  · intro p hp
    simp at hp
    rcases hp with rfl | rfl | rfl | rfl | rfl | rfl <;> simp [NameOk, Part.name]
  · rintro ⟨m, n, hmn, ⟨h1, h2⟩ | ⟨h1, h2⟩⟩ <;> simp at h1 h2 <;> exact hmn (h1.trans h2.symm)

/-- The other case is met as well: two different values. -/
example (O : SetOrder) : parseSlot O "!one!two" = .error .actr := by
  have hr : "!one!two" = renderParts [.val "one", .val "two"] := by decide
  rw [hr]
  rcases C11_parts O [.val "one", .val "two"] (by simp) (by intro p hp; simp at hp; rcases hp with rfl | rfl <;>
    simp [NameOk, Part.name]) with ⟨_, h⟩ | ⟨h, _⟩
  · exact h
  · exact absurd ⟨"one", "two", by decide, .inl ⟨by simp, by simp⟩⟩ h

end Verif.Props
