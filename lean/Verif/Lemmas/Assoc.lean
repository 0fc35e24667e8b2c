import Verif.Spec.Assoc
import Verif.Lemmas.Buffer
/-! Helper lemmas about association counts. -/
namespace Verif
open Verif.Spec

section generic
variable {κ : Type} (e : κ → κ → Bool)

/-- Counters over any kind of keys. -/
def bumpG (k : κ) : List (κ × ℕ) → List (κ × ℕ)
  | [] => []
  | (w, n) :: r => if e w k then (w, n + 1) :: r else (w, n) :: bumpG k r

def lookG (k : κ) : List (κ × ℕ) → Option ℕ
  | [] => Option.none
  | (w, n) :: r => if e w k then some n else lookG k r

theorem bumpG_map (k : κ) : ∀ u : List (κ × ℕ), u.Pairwise (fun a b => e a.1 k = true → e b.1 k = true → False) →
    bumpG e k u = u.map (fun p => (p.1, p.2 + if e p.1 k then 1 else 0))
  | [], _ => rfl
  | (w, n) :: r, h => by
    have hr := (List.pairwise_cons.mp h).2
    have h1 := (List.pairwise_cons.mp h).1
    simp only [bumpG, List.map_cons]
    by_cases hw : e w k = true
    · simp only [hw, if_true, List.cons.injEq, true_and]
      rw [show r.map (fun p => (p.1, p.2 + if e p.1 k = true then 1 else 0)) = r.map id from List.map_congr_left (by
        intro p hp
        have := h1 p hp hw
        rw [if_neg this]; rfl)]
      simp
    · simp only [hw, Bool.false_eq_true, if_false]
      rw [bumpG_map k r hr]; simp

theorem foldl_bumpG {σ : Type} (key : σ → κ) (ok : σ → Bool) : ∀ (xs : List σ) (u : List (κ × ℕ)),
    (∀ x ∈ xs, u.Pairwise (fun a b => e a.1 (key x) = true → e b.1 (key x) = true → False)) →
    xs.foldl (fun u x => if ok x then bumpG e (key x) u else u) u =
      u.map (fun p => (p.1, p.2 + xs.countP (fun x => ok x && e p.1 (key x))))
  | [], u, _ => by simp
  | x :: r, u, h => by
    have hx := h x (by simp)
    simp only [List.foldl_cons]
    by_cases ho : ok x = true
    · rw [if_pos ho, bumpG_map e _ u hx, foldl_bumpG key ok r]
      · simp only [List.map_map, List.countP_cons, ho, Bool.true_and]
        apply List.map_congr_left
        intro p _
        simp only [Function.comp, Prod.mk.injEq, true_and]
        split <;> omega
      · intro y hy
        rw [List.pairwise_map]
        exact h y (by simp [hy])
    · rw [if_neg ho, foldl_bumpG key ok r u (fun y hy => h y (by simp [hy]))]
      simp [List.countP_cons, ho]

theorem lookG_mem {k : κ} {n : ℕ} : ∀ {u : List (κ × ℕ)}, lookG e k u = some n → ∃ w, (w, n) ∈ u ∧ e w k = true
  | (w, m) :: r, h => by
    simp only [lookG] at h
    split at h
    · next hw => cases h; exact ⟨w, by simp, hw⟩
    · obtain ⟨w', h1, h2⟩ := lookG_mem h; exact ⟨w', by simp [h1], h2⟩

theorem lookG_none {k : κ} : ∀ {u : List (κ × ℕ)}, lookG e k u = Option.none → ∀ p ∈ u, e p.1 k = false
  | [], _ => by simp
  | (w, m) :: r, h => by
    simp only [lookG] at h
    split at h
    · cases h
    · next hw =>
      intro p hp
      rcases List.mem_cons.mp hp with rfl | hp
      · simpa using hw
      · exact lookG_none h p hp

theorem lookG_isSome {k : κ} : ∀ {u : List (κ × ℕ)}, (lookG e k u).isSome = true ↔ ∃ w ∈ u.map Prod.fst, e w k = true
  | [] => by simp [lookG]
  | (w, m) :: r => by
    simp only [lookG]
    split
    · next h => simp [h]
    · next h => rw [lookG_isSome]; simp [h]

end generic

/-- Keys of the second counter. -/
def pairEq (H : PyHash) (a b : String × Val) : Bool := a.1 == b.1 && keyEq H a.2 b.2

theorem vcBump_eq (H : PyHash) (v : Val) : ∀ u, vcBump H v u = bumpG (keyEq H) v u
  | [] => rfl
  | (w, n) :: r => by simp only [vcBump, bumpG, vcBump_eq H v r]
theorem vcLook_eq (H : PyHash) (v : Val) : ∀ u, vcLook H v u = lookG (keyEq H) v u
  | [] => rfl
  | (w, n) :: r => by simp only [vcLook, lookG, vcLook_eq H v r]
theorem scBump_eq (H : PyHash) (s : String) (v : Val) : ∀ u, scBump H s v u = bumpG (pairEq H) (s, v) u
  | [] => rfl
  | ((t, w), n) :: r => by simp only [scBump, bumpG, pairEq, scBump_eq H s v r]; rfl
theorem scLook_eq (H : PyHash) (s : String) (v : Val) : ∀ u, scLook H s v u = lookG (pairEq H) (s, v) u
  | [] => rfl
  | ((t, w), n) :: r => by simp only [scLook, lookG, pairEq, scLook_eq H s v r]; rfl

theorem splitting_plain {c : Chunk} (hc : Plain c) {x : String × Slot} (hx : x ∈ c.slots) : PlainVal (splitting x.2).values := by
  obtain ⟨n, s⟩ := x
  cases s with
  | empty => exact plainVal_none
  | vv y => exact ((plainSlots_iff _).mp hc n y hx).1

theorem sameVal_content {a b : Val} (ha : ¬ Noneish a) : SameVal a b ↔ content a = content b := by
  cases a <;> cases b <;> simp_all [SameVal, content, Noneish]

/-- Away from None, `==` and key equality agree. -/
theorem pyEq_solid {H : PyHash} (cf : H.CollisionFree) {a b : Val} (ha : PlainVal a) (hb : PlainVal b) (hn : ¬ Noneish a) :
    pyEq H a b = true ↔ content a = content b := by
  rw [pyEq_iff cf a b ha hb, sameVal_content hn]

theorem pyEq_keyEq {H : PyHash} (cf : H.CollisionFree) {a b : Val} (ha : PlainVal a) (hb : PlainVal b) (hn : ¬ Noneish a) :
    pyEq H a b = keyEq H a b := by
  rw [Bool.eq_iff_iff, pyEq_solid cf ha hb hn, keyEq_content cf ha hb]

theorem sameVal_symm {a b : Val} (h : SameVal a b) : SameVal b a := by
  cases a <;> cases b <;> simp_all [SameVal]

/-- The invariant of the counters. -/
structure Counted (H : PyHash) (m : DecMem) : Prop where
  plain : ∀ c ∈ m.data.map Prod.fst, Plain c
  unr : ∀ w n, (w, n) ∈ m.unr → PlainVal w ∧ ¬ Noneish w ∧ n = 1 + countSlots (fun _ v => keyEq H w v) (m.data.map Prod.fst)
  unrDist : m.unr.Pairwise (fun a b => content a.1 ≠ content b.1)
  restr : ∀ s w n, ((s, w), n) ∈ m.restr → PlainVal w ∧ ¬ Noneish w ∧
    n = 1 + countSlots (fun t v => s == t && keyEq H w v) (m.data.map Prod.fst)
  restrDist : m.restr.Pairwise (fun a b => ¬ (a.1.1 = b.1.1 ∧ content a.1.2 = content b.1.2))

theorem counted_empty (H : PyHash) : Counted H DecMem.empty := by
  constructor <;> simp [DecMem.empty]

theorem bumpUnr_fold {H : PyHash} (cf : H.CollisionFree) {c : Chunk} (hc : Plain c) (u : VCounter)
    (hp : ∀ w n, (w, n) ∈ u → PlainVal w) (hd : u.Pairwise (fun a b => content a.1 ≠ content b.1)) :
    c.slots.foldl (bumpUnr H) u = u.map (fun p => (p.1, p.2 + countSlots (fun _ v => keyEq H p.1 v) [c])) := by
  have h1 : (bumpUnr H) = fun u x => if (splitting x.2).values.truthy then bumpG (keyEq H) (splitting x.2).values u else u := by
    funext u x; simp only [bumpUnr, vcBump_eq]
  rw [h1, foldl_bumpG (keyEq H) (fun x : String × Slot => (splitting x.2).values) (fun x => (splitting x.2).values.truthy)]
  · simp [countSlots]
  · intro x hx
    refine hd.imp_of_mem ?_
    intro a b ha hb hne h1 h2
    have hx' := splitting_plain hc hx
    rw [keyEq_content cf (hp a.1 a.2 ha) hx'] at h1
    rw [keyEq_content cf (hp b.1 b.2 hb) hx'] at h2
    exact hne (h1.trans h2.symm)

theorem bumpRestr_fold {H : PyHash} (cf : H.CollisionFree) {c : Chunk} (hc : Plain c) (u : SCounter)
    (hp : ∀ s w n, ((s, w), n) ∈ u → PlainVal w) (hd : u.Pairwise (fun a b => ¬ (a.1.1 = b.1.1 ∧ content a.1.2 = content b.1.2))) :
    c.slots.foldl (bumpRestr H) u =
      u.map (fun p => (p.1, p.2 + countSlots (fun t v => p.1.1 == t && keyEq H p.1.2 v) [c])) := by
  have h1 : (bumpRestr H) = fun u x => if (splitting x.2).values.truthy then bumpG (pairEq H) (x.1, (splitting x.2).values) u else u := by
    funext u x; simp only [bumpRestr, scBump_eq]
  rw [h1, foldl_bumpG (pairEq H) (fun x : String × Slot => (x.1, (splitting x.2).values)) (fun x => (splitting x.2).values.truthy)]
  · simp [countSlots, pairEq]
  · intro x hx
    refine hd.imp_of_mem ?_
    intro a b ha hb hne h1 h2
    have hx' := splitting_plain hc hx
    simp only [pairEq, Bool.and_eq_true, beq_iff_eq] at h1 h2
    rw [keyEq_content cf (hp a.1.1 a.1.2 a.2 ha) hx'] at h1
    rw [keyEq_content cf (hp b.1.1 b.1.2 b.2 hb) hx'] at h2
    exact hne ⟨h1.1.trans h2.1.symm, h1.2.trans h2.2.symm⟩

theorem countSlots_append (hit : String → Val → Bool) (a b : List Chunk) :
    countSlots hit (a ++ b) = countSlots hit a + countSlots hit b := by simp [countSlots]

theorem counted_setRaw {H : PyHash} (cf : H.CollisionFree) {m : DecMem} (h : Counted H m) {c : Chunk} (hc : Plain c) (l : List ℚ) :
    Counted H (m.setRaw H c l) := by
  cases hl : cdLook H c m.data with
  | some l' =>
    have hk : (cdSet H c l m.data).map Prod.fst = m.data.map Prod.fst := by
      rw [cdSet_keys, hl]; simp
    have hh : m.has H c = true := by simp [DecMem.has, hl]
    obtain ⟨h1, h2, h3, h4, h5⟩ := h
    constructor <;> simp only [DecMem.setRaw, hh, hk, Bool.not_true, Bool.false_eq_true, if_false]
    · exact h1
    · exact h2
    · exact h3
    · exact h4
    · exact h5
  | none =>
    have hk : (cdSet H c l m.data).map Prod.fst = m.data.map Prod.fst ++ [c] := by
      rw [cdSet_keys, hl]; simp
    have hh : m.has H c = false := by simp [DecMem.has, hl]
    have hu := bumpUnr_fold cf hc m.unr (fun w n hm => (h.unr w n hm).1) h.unrDist
    have hr := bumpRestr_fold cf hc m.restr (fun s w n hm => (h.restr s w n hm).1) h.restrDist
    constructor <;> simp only [DecMem.setRaw, hh, hk, Bool.not_false, if_true, hu, hr]
    · intro d hd
      rcases List.mem_append.mp hd with hd | hd
      · exact h.plain d hd
      · rw [List.mem_singleton.mp hd]; exact hc
    · intro w n hm
      obtain ⟨p, hp, he⟩ := List.mem_map.mp hm
      obtain ⟨h1, h2, h3⟩ := h.unr p.1 p.2 hp
      simp only [Prod.mk.injEq] at he
      obtain ⟨rfl, rfl⟩ := he
      refine ⟨h1, h2, ?_⟩
      rw [countSlots_append]; omega
    · rw [List.pairwise_map]; exact h.unrDist
    · intro s w n hm
      obtain ⟨p, hp, he⟩ := List.mem_map.mp hm
      obtain ⟨h1, h2, h3⟩ := h.restr p.1.1 p.1.2 p.2 hp
      simp only [Prod.mk.injEq] at he
      obtain ⟨he, rfl⟩ := he
      rw [he] at h1 h2 h3
      refine ⟨h1, h2, ?_⟩
      rw [he, countSlots_append]
      simp only at h3 ⊢
      omega
    · rw [List.pairwise_map]; exact h.restrDist

theorem counted_addOne {H : PyHash} (cf : H.CollisionFree) {m : DecMem} (h : Counted H m) {c : Chunk} (hc : Plain c) (t : TimeArg) :
    Counted H (m.addOne H c t) := by
  unfold DecMem.addOne
  refine counted_setRaw cf ?_ hc _
  unfold DecMem.setDefault
  split
  · exact h
  · exact counted_setRaw cf h hc _

theorem counted_step {H : PyHash} (cf : H.CollisionFree) {m : DecMem} (h : Counted H m) {o : MemOp} (ho : PlainOp o) :
    Counted H (m.step H o).1 := by
  cases o with
  | set c t => exact counted_setRaw cf h ho _
  | add e t =>
    cases e with
    | chunk c => exact counted_addOne cf h ho t
    | iter b l =>
      cases b with
      | true => exact h
      | false =>
        simp only [DecMem.step, DecMem.add]
        replace ho : ∀ c ∈ l, Plain c := ho
        induction l generalizing m with
        | nil => exact h
        | cons c r ih => exact ih (counted_addOne cf h (ho c (by simp)) t) (fun d hd => ho d (by simp [hd]))

theorem findChunks_eq {H : PyHash} (cf : H.CollisionFree) (only : Bool) {c : Chunk} (hc : Plain c) :
    findChunks H only c = sources only c := by
  unfold findChunks sources
  apply List.filterMap_congr
  rintro ⟨n, s⟩ hx
  have hp := splitting_plain hc hx
  have h1 : (!pyEq H (splitting s).values .none && !pyEq H (splitting s).values (.str "None")) = true ↔ ¬ Noneish (splitting s).values := by
    rw [Bool.and_eq_true, Bool.not_eq_true', Bool.not_eq_true', ← Bool.not_eq_true, ← Bool.not_eq_true,
      pyEq_iff cf _ _ hp plainVal_none, pyEq_iff cf _ _ hp (plainVal_str _)]
    cases (splitting s).values <;> simp [SameVal, Noneish]
  cases s with
  | empty => simp only [splitting] at h1 ⊢; simp [h1, Noneish]
  | vv y =>
    simp only [splitting] at h1 ⊢
    by_cases hn : Noneish y.values
    · simp [h1, hn]
    · simp only [h1, hn, not_false_eq_true, if_true, true_and]
      cases only with
      | false => simp [hn]
      | true =>
        cases hy : y.values with
        | none => simp [hy, Noneish] at hn
        | empty => simp [hy, Noneish] at hn
        | str s => simp [IsChunkVal]
        | chunk t sl => simp [IsChunkVal, Noneish]

theorem mem_sources {only : Bool} {c : Chunk} {p : String × Val} (h : p ∈ sources only c) :
    ¬ Noneish p.2 ∧ ∃ y, (p.1, SlotOf.vv y) ∈ c.slots ∧ p.2 = y.values := by
  simp only [sources, List.mem_filterMap] at h
  obtain ⟨⟨n, s⟩, hx, he⟩ := h
  cases s with
  | empty => simp at he
  | vv y =>
    simp only at he
    split at he
    · next hc => cases he; exact ⟨hc.1, y, hx, rfl⟩
    · cases he

theorem sources_plain {only : Bool} {c : Chunk} (hc : Plain c) {p : String × Val} (h : p ∈ sources only c) : PlainVal p.2 := by
  obtain ⟨_, y, hy, he⟩ := mem_sources h
  rw [he]; exact ((plainSlots_iff _).mp hc p.1 y hy).1

theorem truthy_iff_blank {v : Val} : v.truthy = true ↔ ¬ Blank v := by
  cases v <;> simp [Val.truthy, Blank]

open Classical in
theorem countSlots_fan {H : PyHash} (cf : H.CollisionFree) {m : DecMem} (hm : ∀ c ∈ m.data.map Prod.fst, Plain c) {w : Val}
    (hw : PlainVal w) (hn : ¬ Noneish w) : 1 + countSlots (fun _ v => keyEq H w v) (m.data.map Prod.fst) = fan m w := by
  unfold countSlots fan
  rw [List.map_map]
  congr 2
  apply List.map_congr_left
  intro p hp
  apply List.countP_congr
  rintro ⟨n, s⟩ hx
  have hpl := hm p.1 (List.mem_map_of_mem hp)
  have := splitting_plain hpl hx
  simp only [Bool.and_eq_true, truthy_iff_blank, keyEq_content cf hw this, decide_eq_true_eq]
  cases s with
  | empty => simp [splitting, content, Blank]
  | vv y => simp [splitting, eq_comm]

open Classical in
theorem countSlots_fanNamed {H : PyHash} (cf : H.CollisionFree) {m : DecMem} (hm : ∀ c ∈ m.data.map Prod.fst, Plain c) {w : Val}
    (s : String) (hw : PlainVal w) (hn : ¬ Noneish w) :
    1 + countSlots (fun t v => s == t && keyEq H w v) (m.data.map Prod.fst) = fanNamed m s w := by
  unfold countSlots fanNamed
  rw [List.map_map]
  congr 2
  apply List.map_congr_left
  intro p hp
  apply List.countP_congr
  rintro ⟨n, s'⟩ hx
  have hpl := hm p.1 (List.mem_map_of_mem hp)
  have := splitting_plain hpl hx
  simp only [Bool.and_eq_true, truthy_iff_blank, keyEq_content cf hw this, decide_eq_true_eq, beq_iff_eq]
  cases s' with
  | empty => simp [splitting, Blank]
  | vv y => simp only [splitting, SlotOf.vv.injEq, exists_eq_left', eq_comm]; tauto

theorem countSlots_congr {f g : String → Val → Bool} {cs : List Chunk} (hcs : ∀ c ∈ cs, Plain c)
    (h : ∀ s v, PlainVal v → f s v = g s v) : countSlots f cs = countSlots g cs := by
  unfold countSlots
  congr 1
  apply List.map_congr_left
  intro c hc
  apply List.countP_congr
  intro x hx
  rw [h _ _ (splitting_plain (hcs c hc) hx)]

end Verif
