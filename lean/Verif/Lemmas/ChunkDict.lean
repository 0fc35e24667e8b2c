import Verif.Spec.ChunkDict
import Verif.Lemmas.ChunkProps
import Verif.Lemmas.ChunkType
/-! # Lemmas on chunk strings -/
namespace Verif
open Verif.Spec

theorem quotedAs_facts {s u : String} (h : QuotedAs s u) : quoted s = true ∧ unquote s = u := by
  rcases h with rfl | rfl <;> simp [quoted, unquote, String.toList_append]

theorem unquoted_facts {s : String} (h : Unquoted s) : quoted s = false := by
  simp only [quoted]
  cases hs : s.toList with
  | nil => rfl
  | cons c r =>
    have hs' : s = String.ofList (c :: r) := by rw [← hs]; simp
    by_contra hc
    simp only [Bool.not_eq_false, Bool.or_eq_true, beq_iff_eq] at hc
    rcases hc with rfl | rfl
    · apply (h (String.ofList r)).1
      rw [hs']
      have := congrArg String.ofList (show ("'".toList ++ r) = '\'' :: r from rfl)
      rw [← this, String.ofList_append]; simp
    · apply (h (String.ofList r)).2
      rw [hs']
      have := congrArg String.ofList (show ("\"".toList ++ r) = '"' :: r from rfl)
      rw [← this, String.ofList_append]; simp

theorem wordMeans_facts {w u : String} (h : WordMeans w u) : (if quoted w then unquote w else w) = u := by
  rcases h with h | ⟨h, rfl⟩
  · obtain ⟨h1, h2⟩ := quotedAs_facts h; simp [h1, h2]
  · simp [unquoted_facts h]

theorem wordMeans_unique {w u u' : String} (h : WordMeans w u) (h' : WordMeans w u') : u = u' := by
  rw [← wordMeans_facts h, ← wordMeans_facts h']

/-- The collected sets represent the contributions `P`. -/
structure AccRel (H : PyHash) (P : Contrib → Prop) (a : Acc) : Prop where
  v1 : ∀ w ∈ a.values, P (.value w)
  v2 : ∀ v, P (.value v) → ∃ w ∈ a.values, content w = content v
  v3 : a.values.Pairwise (fun x y => content x ≠ content y)
  vp : ∀ w ∈ a.values, PlainVal w
  x1 : ∀ y, y ∈ a.vars ↔ P (.var y)
  x2 : a.vars.Nodup
  nv1 : ∀ y, y ∈ a.negvalues ↔ P (.negval y)
  nv2 : a.negvalues.Nodup
  nx1 : ∀ y, y ∈ a.negvars ↔ P (.negvar y)
  nx2 : a.negvars.Nodup

theorem accRel_new (H : PyHash) : AccRel H (fun _ => False) Acc.new := by
  constructor <;> simp [Acc.new]

theorem mem_addStr {l : List String} {s y : String} : y ∈ addStr l s ↔ y ∈ l ∨ y = s := by
  simp only [addStr]; split
  · constructor
    · exact .inl
    · rintro (h | rfl) <;> assumption
  · simp

theorem nodup_addStr {l : List String} {s : String} (h : l.Nodup) : (addStr l s).Nodup := by
  simp only [addStr]; split
  · exact h
  · next hn => exact List.nodup_append.mpr ⟨h, by simp, by intro a ha b hb; simp at hb; subst hb; rintro rfl; exact hn ha⟩

theorem addVal_facts {H : PyHash} (cf : H.CollisionFree) {l : List Val} {v : Val} (hl : ∀ w ∈ l, PlainVal w) (hv : PlainVal v) :
    (∀ w ∈ addVal H l v, w ∈ l ∨ w = v) ∧ (∀ w ∈ l, w ∈ addVal H l v) ∧ (∃ w ∈ addVal H l v, content w = content v) ∧
    (l.Pairwise (fun x y => content x ≠ content y) → (addVal H l v).Pairwise (fun x y => content x ≠ content y)) ∧
    (∀ w ∈ addVal H l v, PlainVal w) := by
  simp only [addVal]
  split
  · next h =>
    simp only [List.any_eq_true] at h
    obtain ⟨w, hw, hk⟩ := h
    exact ⟨fun w h => .inl h, fun w h => h, ⟨w, hw, (keyEq_content cf (hl w hw) hv).mp hk⟩, id, hl⟩
  · next h =>
    refine ⟨by simp, by simp +contextual, ⟨v, by simp⟩, ?_, ?_⟩
    · intro hp
      refine List.pairwise_append.mpr ⟨hp, by simp, ?_⟩
      intro a ha b hb hab
      simp at hb; subst hb
      apply h
      simp only [List.any_eq_true]
      exact ⟨a, ha, (keyEq_content cf (hl a ha) hv).mpr hab⟩
    · intro w hw
      simp at hw
      rcases hw with hw | rfl
      · exact hl w hw
      · exact hv

/-- Adding a value. -/
theorem accRel_value {H : PyHash} (cf : H.CollisionFree) {P : Contrib → Prop} {a : Acc} (h : AccRel H P a) {v : Val}
    (hv : PlainVal v) : AccRel H (fun c => P c ∨ c = .value v) { a with values := addVal H a.values v } := by
  obtain ⟨f1, f2, f3, f4, f5⟩ := addVal_facts cf h.vp hv
  constructor
  · intro w hw
    rcases f1 w hw with hw | rfl
    · exact .inl (h.v1 w hw)
    · exact .inr rfl
  · rintro w (hw | hw)
    · obtain ⟨z, hz, hc⟩ := h.v2 w hw; exact ⟨z, f2 z hz, hc⟩
    · cases hw; exact f3
  · exact f4 h.v3
  · exact f5
  · simpa using h.x1
  · exact h.x2
  · simpa using h.nv1
  · exact h.nv2
  · simpa using h.nx1
  · exact h.nx2

theorem accRel_var {H : PyHash} {P : Contrib → Prop} {a : Acc} (h : AccRel H P a) (u : String) :
    AccRel H (fun c => P c ∨ c = .var u) { a with vars := addStr a.vars u } := by
  constructor
  · intro w hw; exact .inl (h.v1 w hw)
  · rintro w (hw | hw)
    · exact h.v2 w hw
    · cases hw
  · exact h.v3
  · exact h.vp
  · intro y; simp [mem_addStr, h.x1]
  · exact nodup_addStr h.x2
  · simpa using h.nv1
  · exact h.nv2
  · simpa using h.nx1
  · exact h.nx2

theorem accRel_negval {H : PyHash} {P : Contrib → Prop} {a : Acc} (h : AccRel H P a) (u : String) :
    AccRel H (fun c => P c ∨ c = .negval u) { a with negvalues := addStr a.negvalues u } := by
  constructor
  · intro w hw; exact .inl (h.v1 w hw)
  · rintro w (hw | hw)
    · exact h.v2 w hw
    · cases hw
  · exact h.v3
  · exact h.vp
  · simpa using h.x1
  · exact h.x2
  · intro y; simp [mem_addStr, h.nv1]
  · exact nodup_addStr h.nv2
  · simpa using h.nx1
  · exact h.nx2

theorem accRel_negvar {H : PyHash} {P : Contrib → Prop} {a : Acc} (h : AccRel H P a) (u : String) :
    AccRel H (fun c => P c ∨ c = .negvar u) { a with negvars := addStr a.negvars u } := by
  constructor
  · intro w hw; exact .inl (h.v1 w hw)
  · rintro w (hw | hw)
    · exact h.v2 w hw
    · cases hw
  · exact h.v3
  · exact h.vp
  · simpa using h.x1
  · exact h.x2
  · simpa using h.nv1
  · exact h.nv2
  · intro y; simp [mem_addStr, h.nx1]
  · exact nodup_addStr h.nx2

theorem AccRel.congr {H : PyHash} {P Q : Contrib → Prop} {a : Acc} (h : AccRel H P a) (hpq : ∀ c, P c ↔ Q c) : AccRel H Q a := by
  have : P = Q := funext fun c => propext (hpq c)
  exact this ▸ h

theorem says_special {named : List (String × Chunk)} {op w : String} {c : Contrib} (h : Says named (.special op w) c) :
    (op = "=" ∧ ∃ u, WordMeans w u ∧ c = .var u) ∨ (op = "~" ∧ ∃ u, WordMeans w u ∧ c = .negval u) ∨
    (op = "~=" ∧ ∃ u, WordMeans w u ∧ c = .negvar u) ∨ (op = ">" ∧ c = .value (.str (">" ++ w))) ∨
    (op = "<" ∧ c = .value (.str ("<" ++ w))) ∨ (op = ">=" ∧ (c = .var w ∨ c = .value (.str ">"))) ∨
    (op = "<=" ∧ (c = .var w ∨ c = .value (.str "<"))) := by
  generalize ht : PTok.special op w = t at h
  cases h with
  | quoted => cases ht
  | chunk => cases ht
  | word => cases ht
  | var hu => simp only [PTok.special.injEq] at ht; obtain ⟨rfl, rfl⟩ := ht; exact .inl ⟨rfl, _, hu, rfl⟩
  | negval hu => simp only [PTok.special.injEq] at ht; obtain ⟨rfl, rfl⟩ := ht; exact .inr (.inl ⟨rfl, _, hu, rfl⟩)
  | negvar hu => simp only [PTok.special.injEq] at ht; obtain ⟨rfl, rfl⟩ := ht; exact .inr (.inr (.inl ⟨rfl, _, hu, rfl⟩))
  | greater => simp only [PTok.special.injEq] at ht; obtain ⟨rfl, rfl⟩ := ht; simp
  | smaller => simp only [PTok.special.injEq] at ht; obtain ⟨rfl, rfl⟩ := ht; simp
  | greaterVar => simp only [PTok.special.injEq] at ht; obtain ⟨rfl, rfl⟩ := ht; simp
  | greaterVal => simp only [PTok.special.injEq] at ht; obtain ⟨rfl, rfl⟩ := ht; simp
  | smallerVar => simp only [PTok.special.injEq] at ht; obtain ⟨rfl, rfl⟩ := ht; simp
  | smallerVal => simp only [PTok.special.injEq] at ht; obtain ⟨rfl, rfl⟩ := ht; simp

/-- What a token says, given as a list. -/
theorem accTok_rel {H : PyHash} (cf : H.CollisionFree) {named : List (String × Chunk)}
    {P : Contrib → Prop} {a : Acc} (h : AccRel H P a) {t : PTok} (hn : ∀ s c, t = .plain s → alook s named = some c → Plain c) (ht : WellTok t) :
    AccRel H (fun c => P c ∨ Says named t c) (accTok H named a t) := by
  cases t with
  | plain s =>
    obtain ⟨u, hu⟩ := ht
    rcases hu with hq | ⟨hq, rfl⟩
    · obtain ⟨h1, h2⟩ := quotedAs_facts hq
      simp only [accTok, h1, if_true, h2]
      refine (accRel_value cf h (v := .str u) trivial).congr ?_
      intro c
      refine or_congr Iff.rfl ⟨?_, ?_⟩
      · rintro rfl; exact .quoted hq
      · intro hs
        cases hs with
        | quoted hq' => rw [← h2, (quotedAs_facts hq').2]
        | chunk hun _ => rw [unquoted_facts hun] at h1; cases h1
        | word hun _ => rw [unquoted_facts hun] at h1; cases h1
    · have h1 := unquoted_facts hq
      have hnq : ∀ u, ¬ QuotedAs u u → True := fun _ _ => trivial
      simp only [accTok, h1]
      cases hl : alook u named with
      | some c =>
        refine (accRel_value cf h (v := c.val) (hn u c rfl hl)).congr ?_
        intro c'
        refine or_congr Iff.rfl ⟨?_, ?_⟩
        · rintro rfl; exact .chunk hq hl
        · intro hs
          cases hs with
          | quoted hq' => rw [(quotedAs_facts hq').1] at h1; cases h1
          | chunk _ hl' => rw [hl] at hl'; cases hl'; rfl
          | word _ hl' => rw [hl] at hl'; cases hl'
      | none =>
        refine (accRel_value cf h (v := .str u) trivial).congr ?_
        intro c'
        refine or_congr Iff.rfl ⟨?_, ?_⟩
        · rintro rfl; exact .word hq hl
        · intro hs
          cases hs with
          | quoted hq' => rw [(quotedAs_facts hq').1] at h1; cases h1
          | chunk _ hl' => rw [hl] at hl'; cases hl'
          | word _ hl' => rfl
  | special op w =>
    rcases ht with (rfl | rfl | rfl | rfl) | ⟨rfl | rfl | rfl, u, hu⟩
    · simp only [accTok, show (">" : String) ≠ ">=" by decide, show (">" : String) ≠ "<=" by decide, if_false, true_or, if_true]
      refine (accRel_value cf h (v := .str (">" ++ w)) trivial).congr ?_
      intro c
      refine or_congr Iff.rfl ⟨?_, ?_⟩
      · rintro rfl; exact .greater
      · intro hs; have := says_special hs; simpa using this
    · simp only [accTok, show ("<" : String) ≠ ">=" by decide, show ("<" : String) ≠ "<=" by decide, if_false, or_true, if_true]
      refine (accRel_value cf h (v := .str ("<" ++ w)) trivial).congr ?_
      intro c
      refine or_congr Iff.rfl ⟨?_, ?_⟩
      · rintro rfl; exact .smaller
      · intro hs; have := says_special hs; simpa using this
    · simp only [accTok, if_true]
      refine (accRel_value cf (accRel_var h w) (v := .str ">") trivial).congr ?_
      intro c
      rw [or_assoc]
      refine or_congr Iff.rfl ⟨?_, ?_⟩
      · rintro (rfl | rfl)
        · exact .greaterVar
        · exact .greaterVal
      · intro hs; have := says_special hs; simpa using this
    · simp only [accTok, show ("<=" : String) ≠ ">=" by decide, if_true, if_false]
      refine (accRel_value cf (accRel_var h w) (v := .str "<") trivial).congr ?_
      intro c
      rw [or_assoc]
      refine or_congr Iff.rfl ⟨?_, ?_⟩
      · rintro (rfl | rfl)
        · exact .smallerVar
        · exact .smallerVal
      · intro hs; have := says_special hs; simpa using this
    · simp only [accTok, show ("=" : String) ≠ ">=" by decide, show ("=" : String) ≠ "<=" by decide,
        show ("=" : String) ≠ ">" by decide, show ("=" : String) ≠ "<" by decide, if_false, or_self, if_true, wordMeans_facts hu]
      refine (accRel_var h u).congr ?_
      intro c
      refine or_congr Iff.rfl ⟨?_, ?_⟩
      · rintro rfl; exact .var hu
      · intro hs; have := says_special hs; simp at this; obtain ⟨u', hu', rfl⟩ := this; rw [wordMeans_unique hu hu']
    · simp only [accTok, show ("~" : String) ≠ ">=" by decide, show ("~" : String) ≠ "<=" by decide,
        show ("~" : String) ≠ ">" by decide, show ("~" : String) ≠ "<" by decide, show ("~" : String) ≠ "=" by decide,
        if_false, or_self, if_true, wordMeans_facts hu]
      refine (accRel_negval h u).congr ?_
      intro c
      refine or_congr Iff.rfl ⟨?_, ?_⟩
      · rintro rfl; exact .negval hu
      · intro hs; have := says_special hs; simp at this; obtain ⟨u', hu', rfl⟩ := this; rw [wordMeans_unique hu hu']
    · simp only [accTok, show ("~=" : String) ≠ ">=" by decide, show ("~=" : String) ≠ "<=" by decide,
        show ("~=" : String) ≠ ">" by decide, show ("~=" : String) ≠ "<" by decide, show ("~=" : String) ≠ "=" by decide,
        show ("~=" : String) ≠ "~" by decide, if_false, or_self, if_true, wordMeans_facts hu]
      refine (accRel_negvar h u).congr ?_
      intro c
      refine or_congr Iff.rfl ⟨?_, ?_⟩
      · rintro rfl; exact .negvar hu
      · intro hs; have := says_special hs; simp at this; obtain ⟨u', hu', rfl⟩ := this; rw [wordMeans_unique hu hu']

/-- Keys of a dictionary after an assignment. -/
theorem keys_aset {α : Type} (n : String) (a : α) (l : List (String × α)) :
    (aset n a l).map Prod.fst = if n ∈ l.map Prod.fst then l.map Prod.fst else l.map Prod.fst ++ [n] := by
  induction l with
  | nil => simp [aset]
  | cons x r ih =>
    obtain ⟨m, b⟩ := x
    simp only [aset]
    by_cases h : m = n
    · simp [h]
    · simp only [h, if_false, List.map_cons, ih, List.mem_cons, Ne.symm h, false_or]
      split <;> simp

theorem nodup_aset {α : Type} (n : String) (a : α) (l : List (String × α)) (h : (l.map Prod.fst).Nodup) :
    ((aset n a l).map Prod.fst).Nodup := by
  rw [keys_aset]; split
  · exact h
  · next hn => exact List.nodup_append.mpr ⟨h, by simp, by intro x hx y hy; simp at hy; subst hy; rintro rfl; exact hn hx⟩

/-- The dictionary `d` represents the tokens read so far. -/
structure DictRel (H : PyHash) (named : List (String × Chunk)) (pre : List (String × PTok)) (d : List (String × Acc)) : Prop where
  nodup : (d.map Prod.fst).Nodup
  keys : ∀ n, n ∈ d.map Prod.fst ↔ Mentioned pre n
  acc : ∀ n a, alook n d = some a → AccRel H (SaidOf named pre n) a

theorem accAll_rel {H : PyHash} (cf : H.CollisionFree) {named : List (String × Chunk)}
    (toks : List (String × PTok)) (hn : ∀ n s c, (n, .plain s) ∈ toks → alook s named = some c → Plain c) (ht : ∀ n t, (n, t) ∈ toks → WellTok t) :
    ∀ pre d, DictRel H named pre d → DictRel H named (pre ++ toks) (accAll H named d toks) := by
  induction toks with
  | nil => intro pre d h; simpa [accAll] using h
  | cons x r ih =>
    obtain ⟨n, t⟩ := x
    intro pre d h
    have := ih (fun m s c hm => hn m s c (by simp [hm])) (fun m t hm => ht m t (by simp [hm])) (pre ++ [(n, t)])
      (aset n (accTok H named ((alook n d).getD Acc.new) t) d) ?_
    · simpa [accAll] using this
    · constructor
      · exact nodup_aset _ _ _ h.nodup
      · intro m
        rw [keys_aset]
        have hk := h.keys
        simp only [Mentioned, List.mem_append, List.mem_singleton, Prod.mk.injEq] at hk ⊢
        split
        · next hm =>
          rw [hk]
          constructor
          · rintro ⟨t', h⟩; exact ⟨t', .inl h⟩
          · rintro ⟨t', h | ⟨rfl, rfl⟩⟩
            · exact ⟨t', h⟩
            · exact (hk _).mp hm
        · rw [List.mem_append, hk]
          simp only [List.mem_singleton]
          constructor
          · rintro (⟨t', h⟩ | rfl)
            · exact ⟨t', .inl h⟩
            · exact ⟨t, .inr ⟨rfl, rfl⟩⟩
          · rintro ⟨t', h | ⟨rfl, rfl⟩⟩
            · exact .inl ⟨t', h⟩
            · exact .inr rfl
      · intro m a hm
        rw [alook_aset] at hm
        split at hm
        · next hmn =>
          subst hmn
          simp only [Option.some.injEq] at hm
          subst hm
          have hbase : AccRel H (SaidOf named pre m) ((alook m d).getD Acc.new) := by
            cases hl : alook m d with
            | some a => exact h.acc m a hl
            | none =>
              refine (accRel_new H).congr ?_
              intro c
              simp only [false_iff]
              rintro ⟨t', ht', _⟩
              have : m ∈ d.map Prod.fst := (h.keys m).mpr ⟨t', ht'⟩
              obtain ⟨a, ha⟩ := mem_keys_iff.mp this
              rw [hl] at ha; cases ha
          refine (accTok_rel cf hbase (fun s c e => hn m s c (by simp [e])) (ht m t (by simp))).congr ?_
          intro c
          simp only [SaidOf, List.mem_append, List.mem_singleton, Prod.mk.injEq, true_and]
          constructor
          · rintro (⟨t', h1, h2⟩ | h2)
            · exact ⟨t', .inl h1, h2⟩
            · exact ⟨t, .inr rfl, h2⟩
          · rintro ⟨t', h1 | rfl, h2⟩
            · exact .inl ⟨t', h1, h2⟩
            · exact .inr h2
        · next hmn =>
          refine (h.acc m a hm).congr ?_
          intro c
          simp only [SaidOf, List.mem_append, List.mem_singleton, Prod.mk.injEq, hmn, false_and, or_false]

theorem dictRel_nil (H : PyHash) (named : List (String × Chunk)) : DictRel H named [] [] := by
  constructor
  · simp
  · simp [Mentioned]
  · intro n a h; simp [alook] at h

theorem pairwise_len {α : Type} {l : List α} {R : α → α → Prop} (h : l.Pairwise R) (hl : l.length > 1) :
    ∃ a b, a ∈ l ∧ b ∈ l ∧ R a b := by
  match l with
  | [] => simp at hl
  | [x] => simp at hl
  | x :: y :: r =>
    simp only [List.pairwise_cons] at h
    exact ⟨x, y, by simp, by simp, h.1 y (by simp)⟩

theorem head_of_not_len {α : Type} {l : List α} (h : ¬ l.length > 1) (a : α) : l.head? = some a ↔ a ∈ l := by
  match l with
  | [] => simp
  | [x] => simp [eq_comm]
  | x :: y :: r => simp at h

/-- Closing one slot. -/
theorem close_cases {H : PyHash} (O : SetOrder) {named : List (String × Chunk)} {toks : List (String × PTok)} {n : String}
    {a : Acc} (h : AccRel H (SaidOf named toks n) a) :
    (Conflict named toks n ∧ a.close O = .error .actr) ∨
    (¬ Conflict named toks n ∧ ∃ x, a.close O = .ok x ∧ Collects named toks n x) := by
  by_cases hv : a.values.length > 1
  · left
    obtain ⟨v, w, hv', hw', hne⟩ := pairwise_len h.v3 hv
    exact ⟨.inl ⟨v, w, h.v1 v hv', h.v1 w hw', hne⟩, by simp [Acc.close, hv]⟩
  · by_cases hx : a.vars.length > 1
    · left
      obtain ⟨v, w, hv', hw', hne⟩ := pairwise_len h.x2 hx
      exact ⟨.inr ⟨v, w, (h.x1 v).mp hv', (h.x1 w).mp hw', hne⟩, by simp [Acc.close, hv, hx]⟩
    · right
      refine ⟨?_, _, by simp only [Acc.close, hv, hx, if_false]; rfl, ?_⟩
      · rintro (⟨v, w, h1, h2, hne⟩ | ⟨x, y, h1, h2, hne⟩)
        · obtain ⟨v', hv1, hv2⟩ := h.v2 v h1
          obtain ⟨w', hw1, hw2⟩ := h.v2 w h2
          have : v' = w' := by
            have a1 := (head_of_not_len hv v').mpr hv1
            have a2 := (head_of_not_len hv w').mpr hw1
            rw [a1] at a2; exact Option.some.inj a2
          subst this
          exact hne (hv2.symm.trans hw2)
        · have a1 := (head_of_not_len hx x).mpr ((h.x1 x).mpr h1)
          have a2 := (head_of_not_len hx y).mpr ((h.x1 y).mpr h2)
          rw [a1] at a2; exact hne (Option.some.inj a2)
      · constructor
        · cases hh : a.values.head? with
          | none => left; simp
          | some v => right; simp only [Option.getD_some]; exact h.v1 v ((head_of_not_len hv v).mp hh)
        · intro v hv1
          obtain ⟨w, hw1, hw2⟩ := h.v2 v hv1
          simp only [(head_of_not_len hv w).mpr hw1, Option.getD_some]; exact hw2
        · intro y; rw [← h.x1, ← head_of_not_len hx]
        · intro v
          simp only [List.mem_map]
          constructor
          · rintro ⟨s, hs, rfl⟩; exact ⟨s, rfl, (h.nv1 s).mp ((O.perm _).mem_iff.mp hs)⟩
          · rintro ⟨s, rfl, hs⟩; exact ⟨s, (O.perm _).mem_iff.mpr ((h.nv1 s).mpr hs), rfl⟩
        · intro y; simp only; rw [(O.perm _).mem_iff, h.nx1]

theorem closeAll_ok {O : SetOrder} : ∀ {d : List (String × Acc)} {xs : List (String × VarVal)}, closeAll O d = .ok xs →
    xs.map Prod.fst = d.map Prod.fst ∧ ∀ n a, alook n d = some a → ∃ x, a.close O = .ok x ∧ alook n xs = some x := by
  intro d
  induction d with
  | nil => intro xs h; simp only [closeAll, Except.ok.injEq] at h; subst h; simp [alook]
  | cons p r ih =>
    obtain ⟨m, a⟩ := p
    intro xs h
    simp only [closeAll] at h
    cases ha : a.close O with
    | error e => rw [ha] at h; cases h
    | ok x =>
      rw [ha] at h
      cases hr : closeAll O r with
      | error e => rw [hr] at h; cases h
      | ok ys =>
        rw [hr] at h
        simp only [Except.ok.injEq] at h
        subst h
        obtain ⟨h1, h2⟩ := ih hr
        refine ⟨by simp [h1], ?_⟩
        intro n b hn
        simp only [alook] at hn ⊢
        split at hn
        · next hmn => cases hn; exact ⟨x, ha, by simp [hmn]⟩
        · next hmn =>
          obtain ⟨y, hy1, hy2⟩ := h2 n b hn
          exact ⟨y, hy1, by simp [hmn, hy2]⟩

theorem closeAll_err {O : SetOrder} : ∀ {d : List (String × Acc)} {e : PyErr}, closeAll O d = .error e →
    ∃ n a, (n, a) ∈ d ∧ a.close O = .error e := by
  intro d
  induction d with
  | nil => intro e h; simp [closeAll] at h
  | cons p r ih =>
    obtain ⟨m, a⟩ := p
    intro e h
    simp only [closeAll] at h
    cases ha : a.close O with
    | error e' => rw [ha] at h; simp only [Except.error.injEq] at h; subst h; exact ⟨m, a, by simp, ha⟩
    | ok x =>
      rw [ha] at h
      cases hr : closeAll O r with
      | error e' =>
        rw [hr] at h; simp only [Except.error.injEq] at h; subst h
        obtain ⟨n, b, hm, hb⟩ := ih hr
        exact ⟨n, b, by simp [hm], hb⟩
      | ok ys => rw [hr] at h; cases h

end Verif
