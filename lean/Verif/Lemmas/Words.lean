import Verif.Spec.ChunkType
/-! # Splitting a string of names into words -/
namespace Verif
open Verif.Spec

/-- Blanks for commas. -/
abbrev deComma (c : Char) : Char := if c = ',' then ' ' else c

theorem deComma_sep {c : Char} : deComma c = ' ' ↔ IsSep c := by
  simp only [deComma, IsSep]; split <;> simp_all

theorem go_word (w : List Char) (hw : ∀ c ∈ w, ¬ IsSep c) (acc rest : List Char) :
    splitWords.go acc ((w ++ rest).map deComma) = splitWords.go (w.reverse ++ acc) (rest.map deComma) := by
  induction w generalizing acc with
  | nil => rfl
  | cons c w ih =>
    have hc : deComma c ≠ ' ' := fun h => hw c (by simp) (deComma_sep.mp h)
    have hc' : deComma c = c := by
      simp only [deComma]; split
      · next h => exact absurd (.inr h) (hw c (by simp))
      · rfl
    simp only [List.cons_append, List.map_cons, splitWords.go, hc, if_false]
    rw [ih (fun c hc => hw c (by simp [hc])), hc']
    simp

theorem go_seps (seps : List Char) (hs : ∀ c ∈ seps, IsSep c) (rest : List Char) :
    (splitWords.go [] ((seps ++ rest).map deComma)).filter (fun w => w ≠ "") =
      (splitWords.go [] (rest.map deComma)).filter (fun w => w ≠ "") := by
  induction seps with
  | nil => rfl
  | cons c r ih =>
    simp only [List.cons_append, List.map_cons, splitWords.go, deComma_sep.mpr (hs c (by simp)), if_true]
    rw [List.filter_cons, if_neg (by simp)]
    exact ih (fun c hc => hs c (by simp [hc]))

theorem ofList_ne_empty {w : List Char} (h : w ≠ []) : String.ofList w ≠ "" := by
  intro h'
  apply h
  have := congrArg String.toList h'
  simpa using this

theorem splitWords_of {cs : List Char} {ws : List (List Char)} (h : WordsOf cs ws) :
    (splitWords.go [] (cs.map deComma)).filter (fun w => w ≠ "") = ws.map String.ofList := by
  induction h with
  | @done seps hs =>
    have := go_seps seps hs []
    simp only [List.append_nil] at this
    rw [this]; simp [splitWords.go]
  | @word seps w rest ws hs hne hw hr _ ih =>
    rw [List.append_assoc, go_seps seps hs, go_word w hw]
    cases rest with
    | nil =>
      simp only [List.map_nil, splitWords.go] at ih ⊢
      simp only [List.append_nil, List.reverse_reverse, List.map_cons]
      rw [List.filter_cons, if_pos (by simpa using ofList_ne_empty hne)]
      simp only [List.reverse_nil] at ih
      rw [List.filter_cons, if_neg (by simp)] at ih
      simp only [List.filter_nil] at ih ⊢
      rw [ih]
    | cons c r =>
      have hc := hr c r rfl
      simp only [List.map_cons, splitWords.go, deComma_sep.mpr hc, if_true] at ih ⊢
      simp only [List.append_nil, List.reverse_reverse]
      rw [List.filter_cons, if_pos (by simpa using ofList_ne_empty hne)]
      rw [List.filter_cons, if_neg (by simp)] at ih
      rw [ih]

theorem given_list {a : FieldArg} {l : List String} (h : Given a l) : a.list = l := by
  cases a with
  | names l' => exact h.symm
  | text s =>
    obtain ⟨ws, hw, rfl⟩ := h
    exact splitWords_of hw

/-- Every string has such a decomposition. -/
theorem wordsOf_exists (cs : List Char) : ∃ ws, WordsOf cs ws := by
  have aux : ∀ cs : List Char, (∃ ws, WordsOf cs ws) ∧ ((∃ c r, cs = c :: r ∧ ¬ IsSep c) →
      ∃ w rest ws, cs = w ++ rest ∧ w ≠ [] ∧ (∀ c ∈ w, ¬ IsSep c) ∧ (∀ c r, rest = c :: r → IsSep c) ∧ WordsOf rest ws) := by
    intro cs
    induction cs with
    | nil => exact ⟨⟨[], .done (by simp)⟩, by rintro ⟨c, r, h, _⟩; cases h⟩
    | cons c r ih =>
      obtain ⟨⟨ws, hws⟩, ihw⟩ := ih
      by_cases hc : IsSep c
      · refine ⟨?_, by rintro ⟨c', r', h, hn⟩; cases h; exact absurd hc hn⟩
        cases hws with
        | done hs => exact ⟨[], .done (by simpa [hc] using hs)⟩
        | @word seps w rest ws hs hne hw hr h =>
          exact ⟨w :: ws, by
            have := WordsOf.word (seps := c :: seps) (by simpa [hc] using hs) hne hw hr h
            simpa using this⟩
      · have second : ∃ w rest ws, c :: r = w ++ rest ∧ w ≠ [] ∧ (∀ c ∈ w, ¬ IsSep c) ∧
            (∀ c r, rest = c :: r → IsSep c) ∧ WordsOf rest ws := by
          by_cases hn : ∃ c' r', r = c' :: r' ∧ ¬ IsSep c'
          · obtain ⟨w, rest, ws, rfl, _, h2, h3, h4⟩ := ihw hn
            refine ⟨c :: w, rest, ws, rfl, by simp, ?_, h3, h4⟩
            intro d hd
            simp only [List.mem_cons] at hd
            rcases hd with rfl | hd
            · exact hc
            · exact h2 d hd
          · refine ⟨[c], r, ws, rfl, by simp, by simpa using hc, ?_, hws⟩
            intro d r' hr
            by_contra hd
            exact hn ⟨d, r', hr, hd⟩
        refine ⟨?_, fun _ => second⟩
        obtain ⟨w, rest, ws, h1, h2, h3, h4, h5⟩ := second
        refine ⟨w :: ws, ?_⟩
        rw [h1]
        exact WordsOf.word (seps := []) (by simp) h2 h3 h4 h5
  exact (aux cs).1

theorem given_exists (a : FieldArg) : ∃ l, Given a l := by
  cases a with
  | names l => exact ⟨l, rfl⟩
  | text s => obtain ⟨ws, h⟩ := wordsOf_exists s.toList; exact ⟨_, ws, h, rfl⟩

end Verif
