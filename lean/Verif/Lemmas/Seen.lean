import Verif.Lemmas.Asking
import Verif.Lemmas.Untyped
import Verif.Props.Vision
/-! # What requests to the motor module and to the visual modules stand for -/
namespace Verif
open Verif.Spec Verif.Props

theorem buildSlots_given {fields : List String} {kw sl : Slots} (h : buildSlots fields kw = .ok sl) {n : String} {x : Slot} (hx : alook n kw = some x) : (n, x) ∈ sl := by
  unfold buildSlots at h
  split at h
  · rename_i hc
    cases h
    rw [Bool.and_eq_true, List.all_eq_true] at hc
    have h1 := hc.1 _ (alook_mem hx)
    exact List.mem_filterMap.2 ⟨n, List.contains_iff_mem.1 h1, by rw [hx]; rfl⟩
  · cases h

theorem buildSlots_only {fields : List String} {kw sl : Slots} (h : buildSlots fields kw = .ok sl) {n : String} {x : Slot} (hx : (n, x) ∈ sl) : alook n kw = some x := by
  unfold buildSlots at h
  split at h
  · cases h
    obtain ⟨f, _, hf⟩ := List.mem_filterMap.1 hx
    obtain ⟨y, hy, he⟩ := Option.map_eq_some_iff.1 hf
    cases he
    exact hy
  · cases h

/-- A slot that is given has its value in the new chunk, and no other value. -/
theorem createChunk_given {E : PyEnv} {reg reg' : Reg} {typ : String} {dict : List (String × SlotArg)} {c : Chunk} (h : createChunk E reg typ dict = (reg', .ok c))
    {n : String} {a : SlotArg} (ha : alook n dict = some a) : ∃ x, a.convert E = .ok x ∧ (n, SlotOf.vv x) ∈ c.slots ∧ ∀ y, (n, y) ∈ c.slots → y = .vv x := by
  unfold createChunk at h
  cases hv : convertAll E dict with
  | error e => rw [hv] at h; cases h
  | ok vals =>
    rw [hv] at h
    dsimp only at h
    have hl : ∀ {dict : List (String × SlotArg)} {vals : List (String × VarVal)}, convertAll E dict = .ok vals → alook n dict = some a → ∃ x, a.convert E = .ok x ∧ alook n vals = some x := by
      intro dict
      induction dict with
      | nil => intro vals _ ha; cases ha
      | cons q r ih =>
        obtain ⟨m, b⟩ := q
        intro vals hv ha
        simp only [convertAll] at hv
        split at hv
        · cases hv
        · rename_i x hx
          split at hv
          · cases hv
          · rename_i xs hxs
            cases hv
            by_cases hm : m = n
            · simp only [alook, hm, if_true, Option.some.injEq] at ha ⊢
              exact ⟨x, ha ▸ hx, rfl⟩
            · simp only [alook, hm, if_false] at ha ⊢
              exact ih hxs ha
    obtain ⟨x, hx, hxv⟩ := hl hv ha
    refine ⟨x, hx, ?_⟩
    have h0 : alook n (vals.map (fun p => (p.1, (SlotOf.vv p.2 : Slot)))) = some (.vv x) := by
      have : ∀ l : List (String × VarVal), alook n (l.map (fun p => (p.1, (SlotOf.vv p.2 : Slot)))) = (alook n l).map SlotOf.vv := by
        intro l
        induction l with
        | nil => rfl
        | cons q r ih =>
          by_cases hq : q.1 = n
          · simp [alook, hq]
          · simp only [List.map_cons, alook, hq, if_false]; exact ih
      rw [this, hxv]; rfl
    have hdone : ∀ {fields : List String} {kw : Slots} {reg1 : Reg}, alook n kw = some (.vv x) → (reg1, (buildSlots fields kw).map (fun sl => (⟨typ, sl⟩ : Chunk))) = (reg', .ok c) →
        (n, SlotOf.vv x) ∈ c.slots ∧ ∀ y, (n, y) ∈ c.slots → y = .vv x := by
      intro fields kw reg1 hk h
      have h2 := congrArg Prod.snd h
      dsimp only at h2
      cases hb : buildSlots fields kw with
      | error e => rw [hb] at h2; cases h2
      | ok sl =>
        rw [hb] at h2
        cases h2
        exact ⟨buildSlots_given hb hk, fun y hy => Option.some.inj ((buildSlots_only hb hy).symm.trans hk)⟩
    have happ : ∀ m : Slots, alook n (vals.map (fun p => (p.1, (SlotOf.vv p.2 : Slot))) ++ m) = some (.vv x) := fun m => by rw [alook_append, h0]; rfl
    split at h
    · split at h
      · exact hdone (happ _) h
      · split at h
        · exact hdone (happ _) h
        · split at h
          · cases h
          · exact hdone (happ _) h
    · split at h
      · cases h
      · split at h
        · cases h
        · exact hdone h0 h

/-- Whatever key is pressed, it is on the keyboard. -/
theorem motorCreate_keyboard {P : Py} {upper : String → String} {reg reg' : Reg} {other new : Chunk} {bv : BV} {k : String} (h : motorCreate P upper reg other bv = (reg', .ok new))
    (hk : slotValue new "key" = .ok (.str k)) : OnKeyboard k := by
  have hslot : ∀ {v : Val}, slotValue new "key" = .ok v → ∃ y, ("key", SlotOf.vv y) ∈ new.slots ∧ y.values = v := fun {v} hv => by
    unfold slotValue at hv
    split at hv
    · rename_i y hy; cases hv; exact ⟨y, alook_mem hy, rfl⟩
    · cases hv
  unfold motorCreate at h
  split at h
  · cases h
  · split at h
    · cases h
    · split at h
      · cases h
      · split at h
        · cases h
        · split at h
          · split at h
            · cases h
            · rename_i k0 _
              split at h
              · cases h
              · rename_i reg2 c2 hc2
                split at h
                · rename_i hl
                  cases h
                  obtain ⟨x, hx, _, hy⟩ := createChunk_given hc2 (by rw [alook_aset, if_pos rfl])
                  have hl : upper k0 ∈ leftHand := List.contains_iff_mem.1 hl
                  have hon : OnKeyboard (upper k0) := (keyboard_iff _).1 (.inl hl)
                  rw [SlotArg.convert, C11_plain _ _ (keyboard_plain hon)] at hx
                  cases hx
                  obtain ⟨y, h1, h2⟩ := hslot hk
                  cases hy _ h1
                  cases h2
                  exact hon
                · split at h
                  · cases h
                  · rename_i v hv
                    split at h
                    · rename_i hr
                      cases h
                      rw [hv] at hk
                      cases hk
                      exact (keyboard_iff _).1 (.inr ((inNames_str _ _).1 hr))
                    · cases h
            · cases h
          · cases h

/-- A location chunk says where the object is. -/
theorem locChunk_pixel {P : Py} {reg reg' : Reg} {s : Stim} {p : ℚ × ℚ} {c : Chunk} (h : locChunk P reg s true = (reg', .ok c)) (hp : s.pos = some p) : Pixel c p := by
  unfold locChunk at h
  rw [hp] at h
  dsimp only at h
  rw [if_pos rfl] at h
  have h1 := createChunk_given h (n := "screen_y") (by rw [alook_aset, if_pos rfl])
  have h2 := createChunk_given h (n := "screen_x") (by rw [alook_aset, if_neg (by decide), alook_aset, if_pos rfl])
  simp only [SlotArg.convert, C11_plain _ _ (intDigits_plain _)] at h1 h2
  obtain ⟨y, hy, h1, _⟩ := h1
  obtain ⟨x, hx, h2, _⟩ := h2
  cases hy; cases hx
  exact ⟨_, _, truncQ_intPart _, truncQ_intPart _, h2, h1⟩

theorem locChunk_located {P : Py} {reg reg' : Reg} {s : Stim} {c : Chunk} (h : locChunk P reg s true = (reg', .ok c)) : ∃ p, s.pos = some p := by
  unfold locChunk at h
  cases hp : s.pos with
  | none => rw [hp] at h; cases h
  | some p => exact ⟨p, rfl⟩

/-- What is found by a search is where some object is. -/
theorem findLoop_pixel {F : FindCfg} {sx sy sv : Slot} : ∀ {sc : Screen} {reg reg' : Reg} {st : FindSt} {c : Chunk} {stim : Option Stim},
    findLoop F sx sy sv reg st sc = (reg', .ok (some c, stim)) → st.found = some c ∨ ∃ x s p, (x, s) ∈ sc ∧ s.pos = some p ∧ Pixel c p
  | [], reg, reg', st, c, stim, h => by
    simp only [findLoop, Prod.mk.injEq, Except.ok.injEq] at h
    exact .inl h.2.1
  | (x0, s0) :: r, reg, reg', st, c, stim, h => by
    have hmore : ∀ {reg st}, findLoop F sx sy sv reg st r = (reg', .ok (some c, stim)) → st.found = some c ∨ ∃ x s p, (x, s) ∈ (x0, s0) :: r ∧ s.pos = some p ∧ Pixel c p := fun {reg st} h => by
      rcases findLoop_pixel h with h | ⟨x, s, p, h1, h2⟩
      · exact .inl h
      · exact .inr ⟨x, s, p, .tail _ h1, h2⟩
    simp only [findLoop] at h
    split at h
    · cases h
    · exact hmore h
    · split at h
      · cases h
      · split at h
        · split at h
          · cases h
          · rename_i hc
            rcases hmore h with h | h
            · cases h
              obtain ⟨p, hp⟩ := locChunk_located hc
              exact .inr ⟨x0, s0, p, .head _, hp, locChunk_pixel hc hp⟩
            · exact .inr h
        · have h' := hmore h
          exact h'

theorem onScreen_shown {C : Cfg} {w : Mach} {name : String} {v : RVal} {bv : BV} {c : Chunk} (h : OnScreen C w name v bv c) : ∃ s p, IsShown w s p ∧ Pixel c p := by
  obtain ⟨b, env, ch, reg', stim, hb, he, hv, h⟩ := h
  unfold visFind at h
  split at h
  · cases h
  · split at h
    · cases h
    · split at h
      · cases h
      · rename_i sc hsc
        split at h
        · rcases findLoop_pixel h with h | ⟨x, s, p, h1, h2, h3⟩
          · cases h
          · exact ⟨s, p, ⟨env, sc, x, he, hsc, h1, h2⟩, h3⟩
        · cases h

theorem createChunk_typ {E : PyEnv} {reg reg' : Reg} {typ : String} {dict : List (String × SlotArg)} {c : Chunk} (h : createChunk E reg typ dict = (reg', .ok c)) : c.typ = typ := by
  have hm : ∀ {f : List String} {k : Slots}, (buildSlots f k).map (fun sl => (⟨typ, sl⟩ : Chunk)) = .ok c → c.typ = typ := by
    intro f k h
    cases hb : buildSlots f k with
    | error e => rw [hb] at h; cases h
    | ok sl => rw [hb] at h; cases h; rfl
  unfold createChunk at h
  dsimp only at h
  repeat' split at h
  all_goals first
    | cases h; done
    | exact hm (Prod.mk.inj h).2

/-- The chunk made of an object. -/
theorem visChunk_depicts {P : Py} {reg reg' : Reg} {s : Stim} {cmd : Option VarVal} {p : ℚ × ℚ} {c : Chunk} (h : visChunk P reg s cmd = (reg', .ok c)) (hp : s.pos = some p) : Depicts c s p := by
  unfold visChunk at h
  dsimp only at h
  split at h
  · cases h
  · rename_i loc hl
    refine ⟨createChunk_typ h, fun hplain => ?_, fun n v hv hn hplain => ?_, ?_⟩
    · obtain ⟨x, hx, h1, _⟩ := createChunk_given h (n := "value") (by rw [alook_aset, if_pos rfl])
      rw [SlotArg.convert, C11_plain _ _ hplain] at hx
      cases hx
      exact h1
    · have hn1 : n ≠ "value" := fun e => hn (by rw [e]; simp)
      have hn2 : n ≠ "screen_pos" := fun e => hn (by rw [e]; simp)
      have hn3 : n ≠ "cmd" := fun e => hn (by rw [e]; simp)
      obtain ⟨x, hx, h1, _⟩ := createChunk_given h (n := n) (a := .text v) (by
        rw [alook_aset, if_neg hn1, alook_aset, if_neg hn2]
        have h0 : alook n (s.attrs.map (fun p => (p.1, SlotArg.text p.2))) = some (.text v) := by rw [alook_mapped, hv]; rfl
        cases cmd with
        | none => exact h0
        | some u => dsimp only; rw [alook_aset, if_neg hn3]; exact h0)
      rw [SlotArg.convert, C11_plain _ _ hplain] at hx
      cases hx
      exact h1
    · obtain ⟨x, hx, h1, _⟩ := createChunk_given h (n := "screen_pos") (by rw [alook_aset, if_neg (by decide), alook_aset, if_pos rfl])
      cases hx
      exact ⟨loc, h1, locChunk_pixel hl hp⟩

theorem coordinate_reads {C : Cfg} {v : Val} {slot : String} {q : ℚ} (h : coordinate C v slot = .ok q) :
    ∃ t sl x, v = .chunk t sl ∧ (∃ u, alook slot sl = some (.vv u) ∧ u.values = .str x) ∧ C.pyFloat x = some q := by
  unfold coordinate at h
  split at h
  · rename_i t sl
    split at h
    · cases h
    · rename_i x hx
      split at h
      · rename_i q' hq
        cases h
        refine ⟨t, sl, x, rfl, ?_, hq⟩
        unfold slotValue at hx
        split at hx
        · rename_i u hu; exact ⟨u, hu, Except.ok.inj hx⟩
        · cases hx
      · cases h
    · cases h
  · cases h

theorem placeIs_of {C : Cfg} {v : Val} {p : ℚ × ℚ} (h1 : coordinate C v "screen_x" = .ok p.1) (h2 : coordinate C v "screen_y" = .ok p.2) : PlaceIs C v p := by
  obtain ⟨t, sl, x, hv, hx, hp⟩ := coordinate_reads h1
  obtain ⟨t', sl', y, hv', hy, hp'⟩ := coordinate_reads h2
  rw [hv] at hv'
  cases hv'
  exact ⟨t, sl, x, y, hv, hx, hy, hp, hp'⟩

end Verif
