import Verif.Lemmas.Assoc
import Verif.Lemmas.ChunkProps
/-! # Properties C20 and C27: association counts and spreading activation -/
namespace Verif.Props
open Verif Verif.Spec

open Classical in
theorem any_sources {H : PyHash} (cf : H.CollisionFree) {i : Chunk} (hi : Plain i) (only : Bool) {j : Val} (hj : PlainVal j) :
    ((sources only i).any (fun p => pyEq H p.2 j) = true ↔ ∃ p ∈ sources only i, content p.2 = content j) ∧
    (∀ r, (sources only i).any (fun p => p.1 == r && pyEq H p.2 j) = true ↔
      ∃ p ∈ sources only i, p.1 = r ∧ content p.2 = content j) ∧
    (sources only i).countP (fun p => pyEq H p.2 j) = occurrences only i j := by
  have key : ∀ p ∈ sources only i, (pyEq H p.2 j = true ↔ content p.2 = content j) := fun p hp =>
    pyEq_solid cf (sources_plain hi hp) hj (mem_sources hp).1
  refine ⟨?_, ?_, ?_⟩
  · rw [List.any_eq_true]
    exact exists_congr fun p => and_congr_right fun hp => key p hp
  · intro r
    rw [List.any_eq_true]
    refine exists_congr fun p => and_congr_right fun hp => ?_
    rw [Bool.and_eq_true, key p hp, beq_iff_eq]
  · unfold occurrences
    apply List.countP_congr
    intro p hp
    rw [key p hp]; simp

/-- Looking up an association: nothing but the counters changes, and they stay correct. -/
theorem strengthAssoc_counted {H : PyHash} (cf : H.CollisionFree) {m : DecMem} (h : Counted H m) (S : ℝ) (r : String) (only : Bool)
    {j : Val} (hj : PlainVal j) {i : Chunk} (hi : Plain i) :
    Counted H (strengthAssoc H m S r only j i).1 ∧ (strengthAssoc H m S r only j i).1.data = m.data ∧
    (strengthAssoc H m S r only j i).1.act = m.act := by
  have hs := any_sources cf hi only hj
  have hnone : (!pyEq H j i.val && !((findChunks H only i).any (fun p => pyEq H p.2 j))) = false → ¬ Noneish j := by
    rw [findChunks_eq cf only hi]
    intro h0 hn
    have h1 : pyEq H j i.val = false := by
      rw [← Bool.not_eq_true, pyEq_iff cf j i.val hj (show PlainVal i.val from hi)]
      cases j <;> simp_all [SameVal, Noneish, Chunk.val]
    have h2 : (sources only i).any (fun p => pyEq H p.2 j) = false := by
      rw [← Bool.not_eq_true, hs.1]
      rintro ⟨p, hp, he⟩
      have := (mem_sources hp).1
      revert this he hn
      cases p.2 <;> cases j <;> simp_all [content, Noneish]
    simp [h1, h2] at h0
  unfold strengthAssoc
  simp only
  split
  · exact ⟨h, rfl, rfl⟩
  · next hc =>
    have hn := hnone (by simpa using hc)
    split
    · next hr =>
      split
      · split
        · exact ⟨h, rfl, rfl⟩
        · next hl =>
          rw [scLook_eq] at hl
          refine ⟨⟨h.plain, h.unr, h.unrDist, ?_, ?_⟩, rfl, rfl⟩
          · intro s w n hm
            rcases List.mem_append.mp hm with hm | hm
            · exact h.restr s w n hm
            · simp only [List.mem_singleton, Prod.mk.injEq] at hm
              obtain ⟨⟨rfl, rfl⟩, rfl⟩ := hm
              refine ⟨hj, hn, ?_⟩
              rw [countSlots_congr h.plain]
              intro t v hv
              rw [pyEq_keyEq cf hj hv hn, Bool.beq_comm]
          · refine List.pairwise_append.mpr ⟨h.restrDist, by simp, ?_⟩
            intro a ha b hb he
            simp only [List.mem_singleton] at hb
            subst hb
            have := lookG_none _ hl a ha
            rw [← Bool.not_eq_true] at this
            apply this
            simp only [pairEq, Bool.and_eq_true, beq_iff_eq]
            exact ⟨he.1, (keyEq_content cf (h.restr a.1.1 a.1.2 a.2 ha).1 hj).mpr he.2⟩
      · exact ⟨h, rfl, rfl⟩
    · split
      · exact ⟨h, rfl, rfl⟩
      · next hl =>
        rw [vcLook_eq] at hl
        refine ⟨⟨h.plain, ?_, ?_, h.restr, h.restrDist⟩, rfl, rfl⟩
        · intro w n hm
          rcases List.mem_append.mp hm with hm | hm
          · exact h.unr w n hm
          · simp only [List.mem_singleton, Prod.mk.injEq] at hm
            obtain ⟨rfl, rfl⟩ := hm
            refine ⟨hj, hn, ?_⟩
            rw [countSlots_congr h.plain]
            intro t v hv
            rw [pyEq_keyEq cf hj hv hn]
        · refine List.pairwise_append.mpr ⟨h.unrDist, by simp, ?_⟩
          intro a ha b hb he
          simp only [List.mem_singleton] at hb
          subst hb
          have := lookG_none _ hl a ha
          rw [← Bool.not_eq_true] at this
          exact this ((keyEq_content cf (h.unr a.1 a.2 ha).1 hj).mpr he)

theorem fan_congr {m : DecMem} {v w : Val} (h : content v = content w) : fan m v = fan m w := by
  unfold fan; rw [h]
theorem fanNamed_congr {m : DecMem} {s : String} {v w : Val} (h : content v = content w) : fanNamed m s v = fanNamed m s w := by
  unfold fanNamed; rw [h]

/-- The strength computed, whatever is cached. -/
theorem strengthAssoc_value {H : PyHash} (cf : H.CollisionFree) {m : DecMem} (h : Counted H m) (S : ℝ) (r : String) (only : Bool)
    {j : Val} (hj : PlainVal j) (hn : ¬ Noneish j) {i : Chunk} (hi : Plain i) :
    (strengthAssoc H m S r only j i).2 = strength m S (decide (r ≠ "")) only r j i := by
  obtain ⟨h1, h2, h3⟩ := any_sources cf hi only hj
  have hji : pyEq H j i.val = true ↔ content j = .chunk (chunkContent i) := by
    rw [pyEq_solid cf hj (show PlainVal i.val from hi) hn]; rfl
  have hres : (∃ p ∈ sources only i, p.1 = r ∧ content p.2 = content j) → ∃ p ∈ sources only i, content p.2 = content j :=
    fun ⟨p, hp, _, he⟩ => ⟨p, hp, he⟩
  unfold strengthAssoc strength
  simp only [findChunks_eq cf only hi, h3]
  by_cases hg : content j = .chunk (chunkContent i) ∨ ∃ p ∈ sources only i, content p.2 = content j
  · have hc : (!pyEq H j i.val && !((sources only i).any (fun p => pyEq H p.2 j))) = false := by
      rcases hg with hg | hg
      · rw [hji.mpr hg]; rfl
      · rw [h1.mpr hg]; simp
    simp only [hc, Bool.false_eq_true, if_false]
    by_cases hr : r = ""
    · subst hr
      simp only [ne_eq, not_true_eq_false, if_false, decide_false, Bool.false_eq_true, hg, if_true]
      have hfan := countSlots_fan cf h.plain hj hn
      cases hl : vcLook H j m.unr with
      | none =>
        simp only [assocStrength]
        rw [countSlots_congr h.plain (g := fun _ v => keyEq H j v) (fun t v hv => pyEq_keyEq cf hj hv hn), hfan]
      | some n =>
        rw [vcLook_eq] at hl
        obtain ⟨w, hw, he⟩ := lookG_mem _ hl
        obtain ⟨g1, g2, g3⟩ := h.unr w n hw
        rw [keyEq_content cf g1 hj] at he
        simp only [assocStrength]
        rw [g3, countSlots_fan cf h.plain g1 g2, fan_congr he]
    · simp only [ne_eq, hr, not_false_eq_true, if_true, decide_true]
      by_cases hq : ∃ p ∈ sources only i, p.1 = r ∧ content p.2 = content j
      · simp only [(h2 r).mpr hq, if_true, hq]
        have hfan := countSlots_fanNamed cf h.plain r hj hn
        cases hl : scLook H r j m.restr with
        | none =>
          simp only [assocStrength]
          rw [countSlots_congr h.plain (g := fun t v => r == t && keyEq H j v)
            (fun t v hv => by rw [pyEq_keyEq cf hj hv hn, Bool.beq_comm]), hfan]
        | some n =>
          rw [scLook_eq] at hl
          obtain ⟨w, hw, he⟩ := lookG_mem _ hl
          obtain ⟨g1, g2, g3⟩ := h.restr w.1 w.2 n hw
          simp only [pairEq, Bool.and_eq_true, beq_iff_eq] at he
          rw [keyEq_content cf g1 hj] at he
          simp only [assocStrength]
          rw [g3, countSlots_fanNamed cf h.plain w.1 g1 g2, fanNamed_congr he.2, he.1]
      · have hq' : (sources only i).any (fun p => p.1 == r && pyEq H p.2 j) = false := by
          rw [← Bool.not_eq_true, h2]; exact hq
        simp only [hq', Bool.false_eq_true, if_false, hq]
  · have hc : (!pyEq H j i.val && !((sources only i).any (fun p => pyEq H p.2 j))) = true := by
      push Not at hg
      rw [Bool.and_eq_true, Bool.not_eq_true', Bool.not_eq_true', ← Bool.not_eq_true, ← Bool.not_eq_true, hji, h1]
      exact ⟨hg.1, by simpa using hg.2⟩
    simp only [hc, if_true]
    have hg2 : ¬ ∃ p ∈ sources only i, p.1 = r ∧ content p.2 = content j := fun hh => hg (.inr (hres hh))
    simp only [hg, hg2, if_false, ite_self]

/-- Reachable memories (without deletions) have correct counters. -/
theorem counted_reach {H : PyHash} (cf : H.CollisionFree) {m : DecMem} (h : MemReach H false m) : Counted H m := by
  induction h with
  | new => exact counted_empty H
  | op _ ho ih => exact counted_step cf ih ho
  | look _ hj hi ih => exact (strengthAssoc_counted cf ih _ _ _ hj hi).1
  | del h => cases h

/-- The whole of C20. -/
def C20_full : Prop := ∀ (H : PyHash) (m : DecMem), H.CollisionFree → MemReach H true m →
  (∀ v n, PlainVal v → vcLook H v m.unr = some n → n = 1 + slotsHolding m v) ∧
  (∀ s v n, PlainVal v → scLook H s v m.restr = some n → n = 1 + slotsNamedHolding m s v)

theorem telling_not_blank {v w : Val} (hv : Telling v) (h : content w = content v) : ¬ Blank w := by
  unfold Telling at hv
  rw [← h] at hv
  cases w <;> simp_all [content, Blank]
  rintro rfl
  simp [contentSlots] at hv

theorem fan_telling {m : DecMem} {v : Val} (hv : Telling v) : fan m v = 1 + slotsHolding m v := by
  unfold fan slotsHolding
  congr 2
  apply List.map_congr_left
  intro p _
  apply List.countP_congr
  intro x _
  simp only [decide_eq_true_eq]
  exact exists_congr fun y => and_congr_right fun _ => ⟨fun h => h.2, fun h => ⟨telling_not_blank hv h, h⟩⟩

theorem fanNamed_telling {m : DecMem} {s : String} {v : Val} (hv : Telling v) : fanNamed m s v = 1 + slotsNamedHolding m s v := by
  unfold fanNamed slotsNamedHolding
  congr 2
  apply List.map_congr_left
  intro p _
  apply List.countP_congr
  intro x _
  simp only [decide_eq_true_eq]
  exact and_congr_right fun _ => exists_congr fun y => and_congr_right fun _ =>
    ⟨fun h => h.2, fun h => ⟨telling_not_blank hv h, h⟩⟩

/-- C20 for all histories without deletions and for all values except the empty string and chunks without content (whose
slots are not counted because Python takes them for false; their number is `fan`). -/
theorem C20_partial (H : PyHash) (m : DecMem) (cf : H.CollisionFree) (h : MemReach H false m) :
    (∀ v n, PlainVal v → vcLook H v m.unr = some n → n = fan m v ∧ (Telling v → n = 1 + slotsHolding m v)) ∧
    (∀ s v n, PlainVal v → scLook H s v m.restr = some n →
      n = fanNamed m s v ∧ (Telling v → n = 1 + slotsNamedHolding m s v)) := by
  have hc := counted_reach cf h
  have h1 : ∀ v n, PlainVal v → vcLook H v m.unr = some n → n = fan m v := by
    intro v n hv hl
    rw [vcLook_eq] at hl
    obtain ⟨w, hw, he⟩ := lookG_mem _ hl
    obtain ⟨g1, g2, g3⟩ := hc.unr w n hw
    rw [keyEq_content cf g1 hv] at he
    rw [g3, countSlots_fan cf hc.plain g1 g2, fan_congr he]
  have h2 : ∀ s v n, PlainVal v → scLook H s v m.restr = some n → n = fanNamed m s v := by
    intro s v n hv hl
    rw [scLook_eq] at hl
    obtain ⟨w, hw, he⟩ := lookG_mem _ hl
    obtain ⟨g1, g2, g3⟩ := hc.restr w.1 w.2 n hw
    simp only [pairEq, Bool.and_eq_true, beq_iff_eq] at he
    rw [keyEq_content cf g1 hv] at he
    rw [g3, countSlots_fanNamed cf hc.plain w.1 g1 g2, fanNamed_congr he.2, he.1]
  exact ⟨fun v n hv hl => ⟨h1 v n hv hl, fun ht => by rw [h1 v n hv hl, fan_telling ht]⟩,
    fun s v n hv hl => ⟨h2 s v n hv hl, fun ht => by rw [h2 s v n hv hl, fanNamed_telling ht]⟩⟩

theorem bumpG_keys {κ : Type} (e : κ → κ → Bool) (k : κ) : ∀ u, (bumpG e k u).map Prod.fst = u.map Prod.fst
  | [] => rfl
  | (w, n) :: r => by
    simp only [bumpG]
    split
    · rfl
    · simp [bumpG_keys e k r]

theorem bumpUnr_keys (H : PyHash) : ∀ (xs : Slots) (u : VCounter), (xs.foldl (bumpUnr H) u).map Prod.fst = u.map Prod.fst
  | [], _ => rfl
  | x :: r, u => by
    rw [List.foldl_cons, bumpUnr_keys H r]
    simp only [bumpUnr]
    split
    · rw [vcBump_eq, bumpG_keys]
    · rfl

theorem setRaw_unr_keys (H : PyHash) (m : DecMem) (c : Chunk) (l : List ℚ) :
    (m.setRaw H c l).unr.map Prod.fst = m.unr.map Prod.fst := by
  simp only [DecMem.setRaw]
  split
  · exact bumpUnr_keys H _ _
  · rfl

theorem addOne_unr_keys (H : PyHash) (m : DecMem) (c : Chunk) (t : TimeArg) :
    (m.addOne H c t).unr.map Prod.fst = m.unr.map Prod.fst := by
  simp only [DecMem.addOne]
  rw [setRaw_unr_keys]
  simp only [DecMem.setDefault]
  split
  · rfl
  · exact setRaw_unr_keys _ _ _ _

theorem step_unr_keys (H : PyHash) (m : DecMem) (o : MemOp) : (m.step H o).1.unr.map Prod.fst = m.unr.map Prod.fst := by
  cases o with
  | set c t => exact setRaw_unr_keys _ _ _ _
  | add e t =>
    cases e with
    | chunk c => exact addOne_unr_keys _ _ _ _
    | iter b l =>
      cases b with
      | true => rfl
      | false =>
        simp only [DecMem.step, DecMem.add]
        induction l generalizing m with
        | nil => rfl
        | cons c r ih => rw [List.foldl_cons, ih, addOne_unr_keys]

/-- Once computed, a fan stays in the cache, whatever is done to the memory. -/
theorem C20_stays (H : PyHash) (m : DecMem) (v : Val) (hs : (vcLook H v m.unr).isSome = true) :
    (∀ o, (vcLook H v (m.step H o).1.unr).isSome = true) ∧
    (∀ S r only j i, (vcLook H v (strengthAssoc H m S r only j i).1.unr).isSome = true) := by
  rw [vcLook_eq, lookG_isSome] at hs
  obtain ⟨w, hw, he⟩ := hs
  constructor
  · intro o
    rw [vcLook_eq, lookG_isSome, step_unr_keys]
    exact ⟨w, hw, he⟩
  · intro S r only j i
    rw [vcLook_eq, lookG_isSome]
    refine ⟨w, ?_, he⟩
    simp only [strengthAssoc]
    repeat' split
    all_goals first
      | exact hw
      | (rw [List.map_append]; exact List.mem_append_left _ hw)

/-- Looking up an associated value computes its fan. -/
theorem C20_computed (H : PyHash) (cf : H.CollisionFree) (m : DecMem) (S : ℝ) (only : Bool) (v : Val) (i : Chunk) (hv : PlainVal v)
    (hi : Plain i) (h : ∃ p ∈ sources only i, content p.2 = content v) :
    (vcLook H v (strengthAssoc H m S "" only v i).1.unr).isSome = true := by
  have h1 := (any_sources cf hi only hv).1.mpr h
  simp only [strengthAssoc, findChunks_eq cf only hi, h1, Bool.not_true, Bool.and_false, Bool.false_eq_true, if_false, ne_eq,
    not_true_eq_false]
  split
  · next n hn => rw [hn]; rfl
  · next hn =>
    rw [vcLook_eq, lookG_isSome]
    exact ⟨v, by simp, (keyEq_content cf hv hv).mpr rfl⟩

/-- C20 is false: deleting a chunk does not decrease the counts. -/
theorem C20_refuted : ¬ C20_full := by
  intro h
  obtain ⟨H, cf⟩ := exists_collisionFree
  let c : Chunk := ⟨"t", [("a", .vv ⟨.str "1", Option.none, [], []⟩)]⟩
  have hc : Plain c := by simp [Plain, c, PlainSlots, PlainSlot, PlainVal]
  let m1 := (DecMem.empty.step H (.set c (.one 0))).1
  let m2 := (strengthAssoc H m1 0 "" false (.str "1") c).1
  have r1 : MemReach H true m2 := .look (.op .new hc) (plainVal_str _) hc
  have hsrc : ∃ p ∈ sources false c, content p.2 = content (.str "1") := ⟨("a", .str "1"), by simp [sources, c, Noneish], rfl⟩
  have hsome := C20_computed H cf m1 0 false (.str "1") c (plainVal_str _) hc hsrc
  obtain ⟨n, hn⟩ := Option.isSome_iff_exists.mp hsome
  have hd : m2.data = [(c, [round4 0])] := by
    have := (strengthAssoc_counted cf (counted_reach cf (.op .new hc : MemReach H false m1)) 0 "" false (plainVal_str "1") hc).2.1
    exact this
  have e1 := (h H m2 cf r1).1 (.str "1") n (plainVal_str _) hn
  have hdel : (m2.del H c).1 = { m2 with data := [] } := by
    simp [DecMem.del, DecMem.has, hd, cdLook, cdDel, ceq_refl]
  have e2 := (h H (m2.del H c).1 cf (.del rfl r1 hc)).1 (.str "1") n (plainVal_str _) (by rw [hdel]; exact hn)
  rw [hdel] at e2
  simp [slotsHolding, hd, c] at e1 e2
  omega

/-- A reachable memory with a computed fan: two chunks sharing a value. -/
example (H : PyHash) (cf : H.CollisionFree) : ∃ m, MemReach H false m ∧ ∃ n, vcLook H (.str "1") m.unr = some n := by
  let c : Chunk := ⟨"t", [("a", .vv ⟨.str "1", Option.none, [], []⟩)]⟩
  let d : Chunk := ⟨"u", [("b", .vv ⟨.str "1", Option.none, [], []⟩)]⟩
  have hc : Plain c := by simp [Plain, c, PlainSlots, PlainSlot, PlainVal]
  have hd : Plain d := by simp [Plain, d, PlainSlots, PlainSlot, PlainVal]
  let m1 := (DecMem.empty.step H (.set c (.one 0))).1
  let m2 := (strengthAssoc H m1 0 "" false (.str "1") c).1
  refine ⟨(m2.step H (.add (.chunk d) (.one 1))).1, .op (.look (.op .new hc) (plainVal_str _) hc) hd, ?_⟩
  exact Option.isSome_iff_exists.mp ((C20_stays H m2 _ (C20_computed H cf m1 0 false (.str "1") c (plainVal_str _) hc
    ⟨("a", .str "1"), by simp [sources, c, Noneish], rfl⟩)).1 _)

theorem strength_data {m m' : DecMem} (h : m'.data = m.data) (S : ℝ) (restricted only : Bool) (s : String) (v : Val) (i : Chunk) :
    strength m' S restricted only s v i = strength m S restricted only s v i := by
  unfold strength fan fanNamed; rw [h]

theorem spreadFrom_spec {H : PyHash} (cf : H.CollisionFree) (S : ℝ) (restricted only : Bool) {i : Chunk} (hi : Plain i) :
    ∀ (l : List (String × Val)) (m : DecMem) (acc : ℝ), Counted H m → (∀ p ∈ l, PlainVal p.2 ∧ ¬ Noneish p.2 ∧ p.1 ≠ "") →
      ∃ m', spreadFrom H S restricted only i l m acc =
        (m', acc + (l.map (fun p => strength m S restricted only p.1 p.2 i)).sum) ∧ Counted H m' ∧ m'.data = m.data ∧ m'.act = m.act
  | [], m, acc, h, _ => ⟨m, by simp [spreadFrom], h, rfl, rfl⟩
  | p :: r, m, acc, h, hl => by
    obtain ⟨h1, h2, h3⟩ := hl p (by simp)
    obtain ⟨g1, g2, g3⟩ := strengthAssoc_counted cf h S (if restricted = true then p.1 else "") only h1 hi
    have hv := strengthAssoc_value cf h S (if restricted = true then p.1 else "") only h1 h2 hi
    have hv' : strength m S (decide ((if restricted = true then p.1 else "") ≠ "")) only (if restricted = true then p.1 else "") p.2 i =
        strength m S restricted only p.1 p.2 i := by
      cases restricted
      · simp [strength]
      · simp [h3]
    rw [hv'] at hv
    obtain ⟨m', e, e1, e2, e3⟩ := spreadFrom_spec cf S restricted only hi r _ (acc + strength m S restricted only p.1 p.2 i) g1
      (fun q hq => hl q (by simp [hq]))
    refine ⟨m', ?_, e1, e2.trans g2, e3.trans g3⟩
    simp only [spreadFrom, hv]
    rw [e]
    simp only [List.map_cons, List.sum_cons, Prod.mk.injEq, true_and]
    rw [← add_assoc]
    congr 3
    funext q
    exact strength_data g2 S restricted only q.1 q.2 i

/-- C27 for any memory whose counters are correct. -/
theorem spreading_spec {H : PyHash} (cf : H.CollisionFree) (S : ℝ) (restricted only : Bool) (bufs : List (String × Option Chunk))
    (hb : ∀ b k, alook b bufs = some (some k) → Plain k ∧ ∀ n s, (n, s) ∈ k.slots → n ≠ "") {i : Chunk} (hi : Plain i) :
    ∀ (ws : List (String × ℝ)) (m : DecMem) (acc : ℝ), Counted H m → (∀ p ∈ ws, ∃ o, alook p.1 bufs = some o) →
      ∃ m', spreading H S restricted only bufs i ws m acc =
        (m', .ok (acc + (ws.map (fun p => contribution m S restricted only i p.2 ((alook p.1 bufs).getD Option.none))).sum)) ∧
        Counted H m' ∧ m'.data = m.data ∧ m'.act = m.act
  | [], m, acc, h, _ => ⟨m, by simp [spreading], h, rfl, rfl⟩
  | (b, W) :: r, m, acc, h, hw => by
    obtain ⟨o, ho⟩ := hw (b, W) (by simp)
    simp only at ho
    have hr : ∀ p ∈ r, ∃ o, alook p.1 bufs = some o := fun p hp => hw p (by simp [hp])
    cases o with
    | none =>
      obtain ⟨m', e, e1, e2, e3⟩ := spreading_spec cf S restricted only bufs hb hi r m acc h hr
      exact ⟨m', by simp [spreading, ho, e, contribution], e1, e2, e3⟩
    | some k =>
      obtain ⟨hk, hkn⟩ := hb b k ho
      obtain ⟨m1, f, f1, f2, f3⟩ := spreadFrom_spec cf S restricted only hi (sources only k) m 0 h (by
        intro p hp
        obtain ⟨g1, y, hy, _⟩ := mem_sources hp
        exact ⟨sources_plain hk hp, g1, hkn _ _ hy⟩)
      obtain ⟨m', e, e1, e2, e3⟩ := spreading_spec cf S restricted only bufs hb hi r m1
        (acc + contribution m S restricted only i W (some k)) f1 hr
      refine ⟨m', ?_, e1, e2.trans f2, e3.trans f3⟩
      have hwb : weighBuffer H only k W = W / (sources only k).length := by
        simp only [weighBuffer, findChunks_eq cf only hk]
        split
        · next h0 => simp [h0]
        · rfl
      have hcon : ∀ W o, contribution m1 S restricted only i W o = contribution m S restricted only i W o := by
        intro W o
        cases o with
        | none => rfl
        | some k =>
          simp only [contribution]
          congr 3
          funext q
          exact strength_data f2 S restricted only q.1 q.2 i
      simp only [spreading, ho, findChunks_eq cf only hk, f, hwb, zero_add]
      rw [contribution] at e
      rw [e]
      simp only [hcon, List.map_cons, List.sum_cons, ho, Option.getD_some]
      rw [contribution, add_assoc]

/-- C27: the spreading activation of a chunk is the sum of the contributions of the source buffers, for every memory
reachable by additions and look-ups, whatever is cached. Nothing but the caches changes. -/
theorem C27_spreading (H : PyHash) (cf : H.CollisionFree) (m : DecMem) (hm : MemReach H false m) (S : ℝ) (restricted only : Bool)
    (bufs : List (String × Option Chunk))
    (hb : ∀ b k, alook b bufs = some (some k) → Plain k ∧ ∀ n s, (n, s) ∈ k.slots → n ≠ "") (i : Chunk) (hi : Plain i)
    (ws : List (String × ℝ)) (hw : ∀ p ∈ ws, ∃ o, alook p.1 bufs = some o) :
    ∃ m', spreading H S restricted only bufs i ws m 0 =
      (m', .ok (ws.map (fun p => contribution m S restricted only i p.2 ((alook p.1 bufs).getD Option.none))).sum) ∧
      m'.data = m.data ∧ m'.act = m.act := by
  obtain ⟨m', e, _, e2, e3⟩ := spreading_spec cf S restricted only bufs hb hi ws m 0 (counted_reach cf hm) hw
  rw [zero_add] at e
  exact ⟨m', e, e2, e3⟩

/-- C27: what a source value contributes: nothing if it does not occur in the chunk and is not the chunk itself. -/
theorem C27_unrelated (m : DecMem) (S : ℝ) (restricted only : Bool) (s : String) (v : Val) (i : Chunk)
    (h1 : content v ≠ .chunk (chunkContent i)) (h2 : ∀ p ∈ sources only i, content p.2 ≠ content v) :
    strength m S restricted only s v i = 0 := by
  have h3 : ¬ ∃ p ∈ sources only i, p.1 = s ∧ content p.2 = content v := fun ⟨p, hp, _, he⟩ => h2 p hp he
  have h4 : ¬ (content v = .chunk (chunkContent i) ∨ ∃ p ∈ sources only i, content p.2 = content v) := by
    rintro (h | ⟨p, hp, he⟩)
    · exact h1 h
    · exact h2 p hp he
  simp only [strength, h3, h4, if_false, ite_self]

/-- An unknown source buffer is a KeyError. -/
theorem C27_unknown (H : PyHash) (m : DecMem) (S : ℝ) (restricted only : Bool) (bufs : List (String × Option Chunk)) (i : Chunk)
    (b : String) (W : ℝ) (ws : List (String × ℝ)) (acc : ℝ) (h : alook b bufs = Option.none) :
    spreading H S restricted only bufs i ((b, W) :: ws) m acc = (m, .error .key) := by simp [spreading, h]

/-- A goal with one value shared by the chunk and one not: half the weight times the strength of the first. -/
example (H : PyHash) (cf : H.CollisionFree) : let i : Chunk := ⟨"t", [("a", .vv ⟨.str "1", Option.none, [], []⟩)]⟩
    let g : Chunk := ⟨"g", [("x", .vv ⟨.str "1", Option.none, [], []⟩), ("y", .vv ⟨.str "2", Option.none, [], []⟩)]⟩
    ∃ m m', MemReach H false m ∧ spreading H 5 false false [("g", some g)] i [("g", 1)] m 0 = (m', .ok (1 / 2 * (5 - Real.log 2))) := by
  intro i g
  have hi : Plain i := by simp [Plain, i, PlainSlots, PlainSlot, PlainVal]
  have hg : Plain g := by simp [Plain, g, PlainSlots, PlainSlot, PlainVal]
  have hr : MemReach H false (DecMem.empty.step H (.set i (.one 0))).1 := .op .new hi
  obtain ⟨m', e, _, _⟩ := C27_spreading H cf _ hr 5 false false [("g", some g)] (by
    intro b k h
    simp only [alook] at h
    split at h
    · cases h; exact ⟨hg, by rintro n s h; simp [g] at h; rcases h with ⟨rfl, _⟩ | ⟨rfl, _⟩ <;> decide⟩
    · cases h) i hi [("g", 1)] (by simp [alook])
  refine ⟨_, m', hr, ?_⟩
  rw [e]
  have hs : sources false g = [("x", .str "1"), ("y", .str "2")] := by simp [sources, g, Noneish]
  have hsi : sources false i = [("a", .str "1")] := by simp [sources, i, Noneish]
  have hd : (DecMem.empty.step H (.set i (.one 0))).1.data = [(i, [round4 0])] := rfl
  have h1 : strength (DecMem.empty.step H (.set i (.one 0))).1 5 false false "x" (.str "1") i = 5 - Real.log 2 := by
    simp [strength, hsi, content, occurrences, fan, hd, i, Blank]
  have h2 : strength (DecMem.empty.step H (.set i (.one 0))).1 5 false false "y" (.str "2") i = 0 :=
    C27_unrelated _ _ _ _ _ _ _ (by simp [content]) (by simp [hsi, content])
  simp [contribution, alook, hs, h1, h2]

end Verif.Props
