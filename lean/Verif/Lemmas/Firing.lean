import Verif.Props.Buffer
import Verif.Props.Rules
import Verif.Props.Compile
import Verif.Lemmas.Fires
import Verif.Lemmas.Machine
import Verif.Spec.Firing
/-!
# Firing a rule that modifies buffers
-/
namespace Verif
open Spec Props

/-! ## Changing a chunk -/

/-- A chunk of a known type, with slots of that type, leaves the types as they are. -/
theorem createChunk_known {E : PyEnv} {reg : Reg} {typ : String} {dict : List (String × SlotArg)} {fs : List String}
    (ht : alook typ reg = some fs) (hk : ∀ f ∈ dict.map Prod.fst, f ∈ fs) : (createChunk E reg typ dict).1 = reg := by
  unfold createChunk
  cases hv : convertAll E dict with
  | error e => rfl
  | ok vals =>
    have hkeys : vals.map Prod.fst = dict.map Prod.fst := (convertAll_ok hv).1
    simp only [ht]
    rw [if_pos]
    rw [List.all_eq_true]
    intro p hp
    rw [List.contains_iff_mem]
    rcases List.mem_append.1 hp with hp | hp
    · obtain ⟨q, hq, rfl⟩ := List.mem_map.1 hp
      exact hk _ (hkeys ▸ List.mem_map_of_mem hq)
    · obtain ⟨f, hf, rfl⟩ := List.mem_map.1 hp
      exact (List.mem_filter.1 hf).1

/-- The chunk made by a modification has distinct slots, and no new type is made if the type in the action is known and has all
slots of the old chunk. -/
theorem modify_known {P : Py} {st st' : BState} {elem other : Chunk} {bv : BV} (cf : P.H.CollisionFree)
    (hreach : Reach P.toPyEnv st.reg) (he : Named elem) (ho : Named other) (hd : st.data = [elem])
    (h : st.modify P other bv = (st', .ok ())) {fs : List String} (ht : alook other.typ st.reg = some fs)
    (hc : ∀ n ∈ other.slots.map Prod.fst, n ∈ fs) (hs : ∀ n ∈ elem.slots.map Prod.fst, n ∈ fs) :
    ∃ d', st' = { st with data := [d'] } ∧ Named d' := by
  simp only [BState.modify, hd] at h
  split at h
  · simp at h
  · next mods hmods =>
    obtain ⟨hk, _, _⟩ := resolveAll_ok hmods
    have hkn : (mods.map Prod.fst).Nodup := by
      rw [hk]; exact (removeUnused_sublist P.H other).nodup ho
    have hek : ((elem.slots.map (fun p => (p.1, slotToArg p.2))).map Prod.fst) = elem.slots.map Prod.fst := by
      simp [Function.comp_def]
    have hmk : ((mods.map (fun p => (p.1, SlotArg.vv p.2))).map Prod.fst) = mods.map Prod.fst := by
      simp [Function.comp_def]
    have hnd : ((modifyDict elem mods).map Prod.fst).Nodup := nodup_dictUpdate _ _ (by rw [hek]; exact he)
    have hkeys : ∀ f ∈ (modifyDict elem mods).map Prod.fst, f ∈ fs := by
      intro f hf
      obtain ⟨a, ha⟩ := mem_keys_iff.1 hf
      rw [modifyDict, alook_dictUpdate f _ _ (by rw [hmk]; exact hkn)] at ha
      cases h2 : alook f (mods.map (fun p => (p.1, SlotArg.vv p.2))) with
      | some b =>
        have : f ∈ mods.map Prod.fst := by rw [← hmk]; exact mem_keys_iff.2 ⟨b, h2⟩
        rw [hk] at this
        exact hc f ((removeUnused_sublist P.H other).subset this)
      | none =>
        rw [h2] at ha
        exact hs f (by rw [← hek]; exact mem_keys_iff.2 ⟨a, ha⟩)
    have hreg := createChunk_known (E := P.toPyEnv) ht hkeys
    split at h
    · simp at h
    · next reg' c hcc =>
      simp only [Prod.mk.injEq, and_true] at h
      subst h
      rw [hcc] at hreg
      have : FieldsSorted (c.slots.map Prod.fst) := (C09_slots hreach other.typ _ hnd c reg' hcc).2.1
      refine ⟨c, ?_, this.nodup⟩
      simp only at hreg
      simp [setAddChunk, hreg]

/-- A modification with an action as in `ModifyingRule` succeeds and changes the chunk as the action says. -/
theorem modify_changed {P : Py} {st : BState} {d c : Chunk} {bv : BV} {σ : String → Option Val} (cf : P.H.CollisionFree)
    (hreach : Reach P.toPyEnv st.reg) (hd : DataChunk d) (hc : KnownChunk st.reg c) (hdata : st.data = [d])
    (hfields : ∀ n, n ∈ d.slots.map Prod.fst ↔ HasField st.reg c.typ n)
    (hacts : ∀ n x, (n, SlotOf.vv x) ∈ c.slots → PlainAction x ∧ x.values ≠ .str ">" ∧ x.values ≠ .str "<")
    (hbv : ∀ y v, bv.get y = some v → DataVal v)
    (hvar : ∀ n x y, (n, SlotOf.vv x) ∈ c.slots → x.vars = some y → ∃ v, bv.get y = some v ∧ σ y = some v ∧ Placeable v) :
    ∃ d', st.modify P c bv = ({ st with data := [d'] }, .ok ()) ∧ Changed σ c d d' := by
  obtain ⟨hcn, fs, hfs, hcf⟩ := hc
  have hdf : ∀ n ∈ d.slots.map Prod.fst, n ∈ fs := by
    intro n hn
    obtain ⟨fs', h1, h2⟩ := (hfields n).1 hn
    rw [hfs] at h1; cases h1; exact h2
  -- what the action demands
  have hdem : ∀ n x, (n, SlotOf.vv x) ∈ c.slots → ∀ v, Demands bv x v → DataVal v ∧ Placeable v := by
    intro n x hx v hv
    obtain ⟨hp, hlt, hgt⟩ := hacts n x hx
    cases hv with
    | literal hb =>
      refine ⟨⟨hp.data, fun e => hb (by rw [e]; trivial)⟩, hb, hlt, hgt⟩
    | bound hy hne hg =>
      obtain ⟨v', h1, h2, h3⟩ := hvar n x _ hx hy
      rw [hg] at h1; cases h1
      exact ⟨hbv _ _ hg, h3⟩
  have hplain : ∀ n x, MentionsSlot c n x → PlainRequest bv x ∧ Ordinary bv x ∧ ¬ Illegal bv true x := by
    rintro n x ⟨hx, _⟩
    obtain ⟨hp, _, _⟩ := hacts n x hx
    refine ⟨⟨hp.data, by simp [hp.plain.2], fun y v h => (hbv y v h).1⟩,
      ⟨fun v hv => (hdem n x hx v hv).2.1, fun v hv => (hdem n x hx v hv).2.2, by simp [hp.plain.1]⟩, ?_⟩
    intro hi
    cases hi with
    | unbound y hy hne hg =>
      obtain ⟨v, h1, _⟩ := hvar n x y hx hy
      rw [hg] at h1; cases h1
    | unboundNeg y hy => rw [hp.plain.1] at hy; cases hy
    | negation _ h => rw [hp.plain.1, hp.plain.2] at h; simp at h
    | two v w hv hw hne =>
      rcases hp.one with ⟨hv0, hreq⟩ | ⟨hv0, y, hy, hxy⟩
      · have hv1 : v = x.values := by
          cases hv with
          | literal _ => rfl
          | bound h _ _ => rw [hv0] at h; cases h
        have hw1 : w = x.values := by
          cases hw with
          | literal _ => rfl
          | bound h _ _ => rw [hv0] at h; cases h
        subst hv1; rw [hw1] at hne
        exact hne (data_refl (hdem n x hx _ hv).1)
      · have hvw : ∀ u, Demands bv x u → bv.get y = some u := by
          intro u hu
          cases hu with
          | literal hb => exact absurd (by rw [hv0]; trivial) hb
          | bound h _ hg => rw [hxy] at h; cases h; exact hg
        have := (hvw v hv).symm.trans (hvw w hw)
        cases this
        exact hne (data_refl (hdem n x hx _ hv).1)
  obtain ⟨st', hm⟩ := C16_success P st d c bv cf hreach hd.named hcn hdata hplain (Or.inl ⟨fs, hfs, by
    rintro n (⟨x, hx, _⟩ | ⟨s, hs⟩)
    · exact hcf n (List.mem_map_of_mem (f := Prod.fst) hx)
    · exact hdf n (List.mem_map_of_mem (f := Prod.fst) hs)⟩)
  obtain ⟨d', hst, hnamed⟩ := modify_known cf hreach hd.named hcn hdata hm hfs hcf hdf
  obtain ⟨c', hc1, hc2, _, _, hment, hkept, hsrc⟩ := C16_partial P st st' d c bv cf hreach hd.named hcn hdata hm
  have he : c' = d' := by
    rw [hst] at hc1; simp only [List.cons.injEq, and_true] at hc1; exact hc1.symm
  subst he
  have huniq : ∀ {n s s'}, (n, s) ∈ c'.slots → (n, s') ∈ c'.slots → s = s' := by
    intro n s s' h1 h2
    exact Option.some.inj ((alook_of_mem hnamed h1).symm.trans (alook_of_mem hnamed h2))
  have huniqd : ∀ {n s s'}, (n, s) ∈ d.slots → (n, s') ∈ d.slots → s = s' := by
    intro n s s' h1 h2
    exact Option.some.inj ((alook_of_mem hd.named h1).symm.trans (alook_of_mem hd.named h2))
  -- the value that a mentioned slot gets
  have hgot : ∀ n x, MentionsSlot c n x → ∃ r, (n, SlotOf.vv r) ∈ c'.slots ∧ r.vars = Option.none ∧ r.negvars = [] ∧ r.negvalues = [] ∧
      DataVal r.values ∧ ∃ v, Demands bv x v ∧ v = r.values := by
    intro n x hx
    obtain ⟨r, hr, hv, hn, hres⟩ := hment n x hx
    obtain ⟨h1, h2, _⟩ := hplain n x hx
    have hres := hres h1 h2
    obtain ⟨hp, _, _⟩ := hacts n x hx.1
    have hD : Demands bv x r.values := by
      rcases hres.value with h | ⟨h, _⟩
      · exact h
      · exfalso
        rcases hp.one with ⟨_, hreq⟩ | ⟨_, y, hy, hxy⟩
        · refine h x.values (.literal fun hb => hreq ?_)
          cases hxv : x.values with
          | none => trivial
          | empty => trivial
          | str s => rw [hxv] at hb; exact hb
          | chunk t sl => rw [hxv] at hb; exact hb
        · obtain ⟨v, hg, _⟩ := hvar n x y hx.1 hxy
          exact h v (.bound hxy hy hg)
    refine ⟨r, hr, hv, hn, ?_, (hdem n x hx.1 _ hD).1, _, hD, rfl⟩
    rcases hrn : r.negvalues with _ | ⟨v, vs⟩
    · rfl
    · have := hres.negSound v (by rw [hrn]; simp)
      cases this with
      | literal h => rw [hp.plain.2] at h; cases h
      | bound h _ => rw [hp.plain.1] at h; cases h
  -- every slot of the new chunk is mentioned or kept
  have hkind : ∀ n s, (n, s) ∈ c'.slots → (∃ x, MentionsSlot c n x) ∨ ((¬ ∃ x, MentionsSlot c n x) ∧ ∃ s', (n, s') ∈ d.slots) := by
    intro n s hs
    by_cases hx : ∃ x, MentionsSlot c n x
    · exact Or.inl hx
    · refine Or.inr ⟨hx, ?_⟩
      rcases hsrc n s hs with h | h | ⟨h, _⟩
      · exact absurd h hx
      · exact h
      · obtain ⟨⟨m, s'⟩, hm, rfl⟩ := List.mem_map.1 ((hfields n).2 h)
        exact ⟨s', hm⟩
  have hkeptslot : ∀ n s', (¬ ∃ x, MentionsSlot c n x) → (n, s') ∈ d.slots → ∃ y, (n, SlotOf.vv y) ∈ c'.slots ∧ KeptAs s' y ∧
      PlainVal y.values ∧ y.values ≠ .none ∧ y.vars = Option.none ∧ y.negvars = [] ∧ y.negvalues = [] := by
    intro n s' hx hs'
    obtain ⟨y, hk, hy⟩ := hkept n s' hs' hx
    refine ⟨y, hy, hk, ?_⟩
    cases s' with
    | empty => rw [hk]; exact ⟨trivial, by simp, rfl, rfl, rfl⟩
    | vv x =>
      rw [hk]
      obtain ⟨h1, h2, h3, h4⟩ := (plainSlots_iff _).1 hd.plain _ _ hs'
      exact ⟨h1, hd.noNone _ _ hs', h2, h4, h3⟩
  refine ⟨c', by rw [hm, hst], ⟨hc2, ⟨?_, hnamed, ?_⟩, ?_, ?_, ?_⟩⟩
  · rw [Plain, plainSlots_iff]
    intro n x hx
    rcases hkind n _ hx with ⟨z, hz⟩ | ⟨hno, s', hs'⟩
    · obtain ⟨r, hr, h1, h2, h3, hv, _⟩ := hgot n z hz
      cases huniq hx hr
      exact ⟨hv.1, h1, h3, h2⟩
    · obtain ⟨y, hy, _, h1, _, h2, h3, h4⟩ := hkeptslot n s' hno hs'
      cases huniq hx hy
      exact ⟨h1, h2, h4, h3⟩
  · intro n x hx
    rcases hkind n _ hx with ⟨z, hz⟩ | ⟨hno, s', hs'⟩
    · obtain ⟨r, hr, _, _, _, hv, _⟩ := hgot n z hz
      cases huniq hx hr
      exact hv.2
    · obtain ⟨y, hy, _, _, hv, _⟩ := hkeptslot n s' hno hs'
      cases huniq hx hy
      exact hv
  · intro n
    constructor
    · intro hn
      obtain ⟨⟨m, s⟩, hm, rfl⟩ := List.mem_map.1 hn
      rcases hkind m s hm with ⟨z, hz⟩ | ⟨_, s', hs'⟩
      · exact (hfields m).2 ⟨fs, hfs, hcf m (List.mem_map_of_mem (f := Prod.fst) hz.1)⟩
      · exact List.mem_map.2 ⟨_, hs', rfl⟩
    · intro hn
      obtain ⟨⟨m, s⟩, hm, rfl⟩ := List.mem_map.1 hn
      by_cases hx : ∃ x, MentionsSlot c m x
      · obtain ⟨x, hx⟩ := hx
        obtain ⟨r, hr, _⟩ := hgot m x hx
        exact List.mem_map.2 ⟨_, hr, rfl⟩
      · obtain ⟨y, hy, _⟩ := hkeptslot m s hx hm
        exact List.mem_map.2 ⟨_, hy, rfl⟩
  · intro n x w hx hw
    obtain ⟨r, hr, _, _, _, hv, v0, hD, hv0⟩ := hgot n x hx
    have hwr : w = r.values := by
      cases hw with
      | missing h => exact absurd hr (h _)
      | empty h => cases huniq h hr
      | val h => cases huniq h hr; rfl
    subst hwr
    rw [← hv0] at hv ⊢
    obtain ⟨hp, _, _⟩ := hacts n x hx.1
    refine ⟨hp.plain, fun hne => ?_, fun y hy hne => ?_⟩
    · cases hD with
      | literal _ => exact data_refl hv
      | bound h _ _ =>
        rcases hp.one with ⟨h0, _⟩ | ⟨h0, _⟩
        · rw [h] at h0; cases h0
        · exact absurd h0 hne
    · rcases hp.one with ⟨h0, _⟩ | ⟨h0, _⟩
      · rw [hy] at h0; cases h0
      · obtain ⟨v, h1, h2, _⟩ := hvar n x y hx.1 hy
        refine ⟨v, h2, ?_⟩
        cases hD with
        | literal hb => exact absurd (by rw [h0]; trivial) hb
        | bound h _ hg =>
          rw [hy] at h; cases h
          rw [hg] at h1; cases h1
          exact data_refl hv
  · intro n w w' hno hw hw'
    have hno' : ¬ ∃ x, MentionsSlot c n x := fun ⟨x, hx⟩ => hno x hx
    cases hw with
    | missing h =>
      cases hw' with
      | missing _ => trivial
      | empty h' =>
        rcases hkind n _ h' with h1 | ⟨_, s', hs'⟩
        · exact absurd h1 hno'
        · exact absurd hs' (h s')
      | val h' =>
        rcases hkind n _ h' with h1 | ⟨_, s', hs'⟩
        · exact absurd h1 hno'
        · exact absurd hs' (h s')
    | empty h =>
      obtain ⟨y, hy, hk, _⟩ := hkeptslot n _ hno' h
      have hwy : w' = y.values := by
        cases hw' with
        | missing h => exact absurd hy (h _)
        | empty h => cases huniq h hy
        | val h => cases huniq h hy; rfl
      rw [hwy, hk]; exact rfl
    | val h =>
      obtain ⟨y, hy, hk, hpv, hnn, _⟩ := hkeptslot n _ hno' h
      have hwy : w' = y.values := by
        cases hw' with
        | missing h => exact absurd hy (h _)
        | empty h => cases huniq h hy
        | val h => cases huniq h hy; rfl
      rw [hwy]
      cases hk
      exact data_refl ⟨hpv, hnn⟩

/-! ## One action -/

/-- Nothing changes except for one buffer and things that rules do not look at. -/
structure OnlyBuf (b : String) (w w' : Mach) : Prop where
  reg : w'.reg = w.reg
  rules : w'.rules = w.rules
  bv : w'.bv = w.bv
  usedName : w'.usedName = w.usedName
  curSlots : w'.curSlots = w.curSlots
  keys : w'.bufs.map Prod.fst = w.bufs.map Prod.fst
  rest : ∀ m, m ≠ b → w'.buf m = w.buf m

theorem OnlyBuf.trans {b : String} {w w' w'' : Mach} (h : OnlyBuf b w w') (h' : OnlyBuf b w' w'') : OnlyBuf b w w'' :=
  ⟨h'.reg.trans h.reg, h'.rules.trans h.rules, h'.bv.trans h.bv, h'.usedName.trans h.usedName, h'.curSlots.trans h.curSlots,
    h'.keys.trans h.keys, fun m hm => (h'.rest m hm).trans (h.rest m hm)⟩

theorem onlyBuf_upd (b : String) (w : Mach) (f : Buf → Buf) : OnlyBuf b w (w.upd b f) := by
  refine ⟨by rw [upd_eq], by rw [upd_eq], by rw [upd_eq], by rw [upd_eq], by rw [upd_eq], ?_, fun m hm => buf_upd_ne w hm f⟩
  unfold Mach.upd
  split
  · next x hx => rw [keys_aset, if_pos (mem_keys_iff.2 ⟨x, hx⟩)]
  · rfl

theorem onlyBuf_putBst {b : String} {w : Mach} {st : BState} (h : st.reg = w.reg) : OnlyBuf b w (w.putBst b st) := by
  have := onlyBuf_upd b ({ w with reg := st.reg, mems := st.mems } : Mach) (fun f => { f with data := st.data })
  exact ⟨this.reg.trans h, this.rules, this.bv, this.usedName, this.curSlots, this.keys, this.rest⟩

/-- What a buffer must be like for the action `c` to work, under the assignment `σ`. -/
structure Fit (σ : String → Option Val) (w : Mach) (b : String) (c : Chunk) (f : Buf) (d : Chunk) : Prop where
  buf : w.buf b = some f
  data : f.data = [d]
  chunk : DataChunk d
  known : KnownChunk w.reg c
  fields : ∀ n, n ∈ d.slots.map Prod.fst ↔ HasField w.reg c.typ n
  acts : ∀ n x, (n, SlotOf.vv x) ∈ c.slots → PlainAction x ∧ x.values ≠ .str ">" ∧ x.values ≠ .str "<"
  bound : ∀ n x y, (n, SlotOf.vv x) ∈ c.slots → x.vars = some y → ∃ v, w.bv.get y = some v ∧ σ y = some v ∧ Placeable v
  novars : f.cls = .visualLocation → ∀ n x, (n, SlotOf.vv x) ∈ c.slots → x.vars = Option.none

/-- Modifying a buffer. -/
theorem modifyBuf_fit {C : Cfg} {σ : String → Option Val} {w : Mach} {b : String} {c : Chunk} {f : Buf} {d : Chunk}
    (cf : C.P.H.CollisionFree) (hreach : Reach C.P.toPyEnv w.reg) (hbv : ∀ y v, w.bv.get y = some v → DataVal v)
    (hf : Fit σ w b c f d) :
    ∃ w' d' seen, modifyBuf C b c w.bv w = (w', .ok ()) ∧ OnlyBuf b w w' ∧ w'.buf b = some { f with data := [d'], seen := seen } ∧
      Changed σ c d d' := by
  have key : ∀ bv : BV, (∀ y v, bv.get y = some v → DataVal v) →
      (∀ n x y, (n, SlotOf.vv x) ∈ c.slots → x.vars = some y → ∃ v, bv.get y = some v ∧ σ y = some v ∧ Placeable v) →
      ∃ w' d', w.onBuf b (fun _ st => st.modify C.P c bv) = (w', .ok ()) ∧ OnlyBuf b w w' ∧ w'.buf b = some { f with data := [d'] } ∧
        Changed σ c d d' := by
    intro bv h1 h2
    obtain ⟨d', hm, hch⟩ := modify_changed (P := C.P) (st := w.bst f) cf hreach hf.chunk hf.known hf.data hf.fields hf.acts h1 h2
    refine ⟨w.putBst b { w.bst f with data := [d'] }, d', ?_, onlyBuf_putBst rfl, ?_, hch⟩
    · simp only [Mach.onBuf, hf.buf, hm]
    · rw [Mach.putBst, buf_upd_self]
      show Option.map _ (w.buf b) = _
      rw [hf.buf]
      rfl
  by_cases hcls : f.cls = .visualLocation
  · have hno := hf.novars hcls
    obtain ⟨w', d', h1, h2, h3, h4⟩ := key BV.init (by simp [BV.init, BV.get, alook]) (by
      intro n x y hx hy; rw [hno n x hx] at hy; cases hy)
    refine ⟨w'.upd b (fun g => { g with seen := visRemember g.finst g.seen (some (varsAsStim w.bv)) }), d',
      visRemember f.finst f.seen (some (varsAsStim w.bv)), ?_, h2.trans (onlyBuf_upd b w' _), ?_, h4⟩
    · simp only [modifyBuf, hf.buf, if_pos hcls, h1]
    · rw [buf_upd_self, h3]; rfl
  · obtain ⟨w', d', h1, h2, h3, h4⟩ := key w.bv hbv hf.bound
    exact ⟨w', d', f.seen, by simp only [modifyBuf, hf.buf, if_neg hcls, h1], h2, h3, h4⟩

/-- The next state after a modification: the buffer has the changed chunk and is free, and its slots are noted for compilation. -/
structure Modification (C : Cfg) (σ : String → Option Val) (b : String) (c : Chunk) (f : Buf) (d : Chunk) (w w' : Mach) : Prop where
  reg : w'.reg = w.reg
  rules : w'.rules = w.rules
  bv : w'.bv = w.bv
  usedName : w'.usedName = w.usedName
  keys : w'.bufs.map Prod.fst = w.bufs.map Prod.fst
  rest : ∀ m, m ≠ b → w'.buf m = w.buf m
  buf : ∃ d' seen, w'.buf b = some { f with data := [d'], seen := seen, state := .free } ∧ Changed σ c d d'
  slots : ∀ ds, lhsSlots w b = .ok ds → C.compilation = true → w'.curSlots = aset b (.dict (dictUpdate ds (givenSlots c))) w.curSlots

/-- One turn of the loop. -/
theorem updateLoop_step {C : Cfg} {σ : String → Option Val} {w : Mach} {b : String} {c : Chunk} {f : Buf} {d : Chunk} {ds : Slots}
    {t : ℚ} {r : List (Key × RVal)} {temp : BV}
    (cf : C.P.H.CollisionFree) (hreach : Reach C.P.toPyEnv w.reg) (hbv : ∀ y v, w.bv.get y = some v → DataVal v)
    (hf : Fit σ w b c f d) (hs : C.compilation = true → lhsSlots w b = .ok ds) :
    ∃ w1, updateLoop C t ((⟨'=', b⟩, .chunk c) :: r) temp w =
        .yield w1 (.ev ⟨round4 t, b, .modified⟩) (fun w' => updateLoop C t r (temp.popVar b) w') ∧
      Modification C σ b c f d w w1 := by
  have hbusy := (onlyBuf_upd b w (fun g => { g with state := .busy })).trans
    (onlyBuf_upd b (w.setState b .busy) (fun g => { g with state := .busy }))
  have hb0 : ((w.setState b .busy).setState b .busy).buf b = some { f with state := .busy } := by simp [hf.buf]
  obtain ⟨w1, hr1, hw1⟩ : ∃ w1, recordModify C b c ((w.setState b .busy).setState b .busy) = (fun _ => .ret w1 ()) () ∧
      w1 = if C.compilation then { (w.setState b .busy).setState b .busy with
        curSlots := aset b (.dict (dictUpdate ds (givenSlots c))) w.curSlots } else (w.setState b .busy).setState b .busy := by
    refine ⟨_, ?_, rfl⟩
    unfold recordModify
    rw [genM_act_apply]
    by_cases hc : C.compilation = true
    · have : lhsSlots ((w.setState b .busy).setState b .busy) b = .ok ds := by
        rw [← hs hc]
        unfold lhsSlots
        rw [show ((w.setState b .busy).setState b .busy).usedName = w.usedName from hbusy.usedName,
          show ((w.setState b .busy).setState b .busy).rules = w.rules from hbusy.rules]
      simp only [hc, if_true, this]
      rw [show ((w.setState b .busy).setState b .busy).curSlots = w.curSlots from hbusy.curSlots]
    · simp [hc]
  have hcur : w1.buf b = some { f with state := .busy } ∧ w1.reg = w.reg ∧ w1.rules = w.rules ∧ w1.bv = w.bv ∧ w1.usedName = w.usedName ∧
      w1.bufs.map Prod.fst = w.bufs.map Prod.fst ∧ (∀ m, m ≠ b → w1.buf m = w.buf m) ∧
      (C.compilation = true → w1.curSlots = aset b (.dict (dictUpdate ds (givenSlots c))) w.curSlots) := by
    rw [hw1]
    split
    · exact ⟨hb0, hbusy.reg, hbusy.rules, hbusy.bv, hbusy.usedName, hbusy.keys, hbusy.rest, fun _ => rfl⟩
    · next h => exact ⟨hb0, hbusy.reg, hbusy.rules, hbusy.bv, hbusy.usedName, hbusy.keys, hbusy.rest, fun h' => absurd h' h⟩
  obtain ⟨c1, c2, c3, c4, c5, c6, c7, c8⟩ := hcur
  obtain ⟨w2, d', seen, hm, ho, hb2, hch⟩ := modifyBuf_fit (C := C) (σ := σ) (w := w1) (b := b) (c := c) (f := { f with state := .busy })
    (d := d) cf (by rw [c2]; exact hreach) (by rw [c4]; exact hbv)
    ⟨c1, hf.data, hf.chunk, by rw [c2]; exact hf.known, by rw [c2]; exact hf.fields, hf.acts, by rw [c4]; exact hf.bound, hf.novars⟩
  have hfin := onlyBuf_upd b w2 (fun g => { g with state := .free })
  refine ⟨w2.setState b .free, ?_, ?_⟩
  · rw [c4] at hm
    rw [updateLoop]
    simp only [genM_bind_apply]
    rw [genM_act_ok (w' := w) (a := ()) (by simp [hf.buf])]
    simp only [out_bind_ret, genM_get_apply, genM_set_apply]
    rw [show interruptible (⟨'=', b⟩ : Key).code = false from rfl]
    simp only [Bool.false_eq_true, if_false, genM_bind_apply, genM_get_apply, genM_set_apply, out_bind_ret]
    rw [show immediate C ⟨'=', b⟩ (.chunk c) w.bv t = genModify C b (.chunk c) w.bv t from rfl]
    unfold genModify
    simp only [genM_bind_apply, genM_set_apply, out_bind_ret, RVal.asChunk, genM_lift_ok, hr1]
    rw [genM_act_ok hm]
    rfl
  · refine ⟨hfin.reg.trans (ho.reg.trans c2), hfin.rules.trans (ho.rules.trans c3), hfin.bv.trans (ho.bv.trans c4),
      hfin.usedName.trans (ho.usedName.trans c5), hfin.keys.trans (ho.keys.trans c6),
      fun m hm => (hfin.rest m hm).trans ((ho.rest m hm).trans (c7 m hm)), ⟨d', seen, ?_, hch⟩, fun ds' hds' hc => ?_⟩
    · rw [buf_setState_self, hb2]; rfl
    · rw [hs hc] at hds'
      cases hds'
      exact (hfin.curSlots.trans ho.curSlots).trans (c8 hc)

/-! ## All actions -/

/-- The state after all modifications of a rule. -/
structure Modifications (C : Cfg) (σ : String → Option Val) (r : List (Key × RVal)) (w w' : Mach) : Prop where
  reg : w'.reg = w.reg
  rules : w'.rules = w.rules
  usedName : w'.usedName = w.usedName
  keys : w'.bufs.map Prod.fst = w.bufs.map Prod.fst
  acted : ∀ b c, ((⟨'=', b⟩ : Key), RVal.chunk c) ∈ r → ∃ f d d' seen, w.buf b = some f ∧ f.data = [d] ∧
    w'.buf b = some { f with data := [d'], seen := seen, state := .free } ∧ Changed σ c d d'
  rest : ∀ b, (∀ c, ((⟨'=', b⟩ : Key), RVal.chunk c) ∉ r) → w'.buf b = w.buf b
  nodup : (w.curSlots.map Prod.fst).Nodup → C.compilation = true → (w'.curSlots.map Prod.fst).Nodup
  slots : C.compilation = true → ∀ b c, ((⟨'=', b⟩ : Key), RVal.chunk c) ∈ r → ∃ ds, lhsSlots w b = .ok ds ∧
    alook b w'.curSlots = some (.dict (dictUpdate ds (givenSlots c)))
  restSlots : C.compilation = true → ∀ b, (∀ c, ((⟨'=', b⟩ : Key), RVal.chunk c) ∉ r) → alook b w'.curSlots = alook b w.curSlots
  slotKeys : C.compilation = true → (∀ b c, ((⟨'=', b⟩ : Key), RVal.chunk c) ∈ r → b ∈ w.curSlots.map Prod.fst) →
    w'.curSlots.map Prod.fst = w.curSlots.map Prod.fst

/-- The loop over the actions never raises, and modifies the buffers. -/
theorem updateLoop_runs {C : Cfg} {σ : String → Option Val} {t : ℚ} (cf : C.P.H.CollisionFree) : ∀ {r : List (Key × RVal)} {w : Mach}
    {temp : BV} {tr : List (Mach × YV)} {e : GEnd Mach BV}, Reach C.P.toPyEnv w.reg → (∀ y v, w.bv.get y = some v → DataVal v) →
    (r.map Prod.fst).Nodup → (∀ p ∈ r, ∃ b c f d ds, p = (⟨'=', b⟩, .chunk c) ∧ Fit σ w b c f d ∧ (C.compilation = true → lhsSlots w b = .ok ds)) →
    Runs Undisturbed (updateLoop C t r temp w) tr e →
    (∀ w' x, e ≠ .raise w' x) ∧ ∀ w' tp, e = .ret w' tp → Modifications C σ r w w' ∧ w'.bv = w.bv
  | [], w, temp, tr, e, _, _, _, _, hr => by
    rw [updateLoop] at hr
    cases hr
    refine ⟨by simp, fun w' tp h => ?_⟩
    cases h
    exact ⟨⟨rfl, rfl, rfl, rfl, by simp, fun _ _ => rfl, fun h _ => h, by simp, fun _ _ _ => rfl, fun _ _ => rfl⟩, rfl⟩
  | p :: r, w, temp, tr, e, hreach, hbv, hnd, hfit, hr => by
    obtain ⟨b, c, f, d, ds, rfl, hf, hs⟩ := hfit p (by simp)
    obtain ⟨w1, hstep, hM⟩ := updateLoop_step (t := t) (r := r) (temp := temp) cf hreach hbv hf hs
    rw [hstep] at hr
    simp only [List.map_cons, List.nodup_cons] at hnd
    have hnotin : ∀ c', ((⟨'=', b⟩ : Key), RVal.chunk c') ∉ r := fun c' h => hnd.1 (List.mem_map.2 ⟨_, h, rfl⟩)
    cases hr with
    | cut => exact ⟨by simp, by simp⟩
    | @yield _ w2 _ _ tr' _ hu hr =>
      have hlhs : ∀ m, lhsSlots w2 m = lhsSlots w m := by
        intro m
        unfold lhsSlots
        rw [hu.usedName, hu.rules, hM.usedName, hM.rules]
      have hbuf : ∀ m, m ≠ b → w2.buf m = w.buf m := fun m hm => by
        rw [← hM.rest m hm]; unfold Mach.buf; rw [hu.bufs]
      obtain ⟨h1, h2⟩ := updateLoop_runs cf (w := w2) (by rw [hu.reg, hM.reg]; exact hreach) (by rw [hu.bv, hM.bv]; exact hbv) hnd.2 (by
        intro p hp
        obtain ⟨b', c', f', d', ds', rfl, hf', hs'⟩ := hfit p (List.mem_cons_of_mem _ hp)
        have hne : b' ≠ b := by
          rintro rfl
          exact hnotin c' hp
        exact ⟨b', c', f', d', ds', rfl, ⟨(hbuf b' hne).trans hf'.buf, hf'.data, hf'.chunk, by rw [hu.reg, hM.reg]; exact hf'.known,
          by rw [hu.reg, hM.reg]; exact hf'.fields, hf'.acts, by rw [hu.bv, hM.bv]; exact hf'.bound, hf'.novars⟩,
          fun h => (hlhs b').trans (hs' h)⟩) hr
      refine ⟨h1, fun w' tp he => ?_⟩
      obtain ⟨hD, hbv'⟩ := h2 w' tp he
      refine ⟨⟨hD.reg.trans (hu.reg.trans hM.reg), hD.rules.trans (hu.rules.trans hM.rules), hD.usedName.trans (hu.usedName.trans hM.usedName),
        hD.keys.trans (by rw [hu.bufs]; exact hM.keys), ?_, ?_, ?_, ?_, ?_, ?_⟩, hbv'.trans (hu.bv.trans hM.bv)⟩
      · intro b' c' hm
        rcases List.mem_cons.1 hm with h | hm'
        · cases h
          obtain ⟨d', seen, hb', hch⟩ := hM.buf
          refine ⟨f, d, d', seen, hf.buf, hf.data, ?_, hch⟩
          rw [hD.rest b hnotin, ← hb']
          unfold Mach.buf; rw [hu.bufs]
        · have hne : b' ≠ b := by
            intro hbb
            rw [hbb] at hm'
            exact hnotin c' hm'
          obtain ⟨f', d1, d', seen, g1, g2, g3, g4⟩ := hD.acted b' c' hm'
          exact ⟨f', d1, d', seen, (hbuf b' hne) ▸ g1, g2, g3, g4⟩
      · intro b' hno
        have hne : b' ≠ b := by
          rintro rfl
          exact hno c (by simp)
        rw [hD.rest b' (fun c' h => hno c' (List.mem_cons_of_mem _ h)), hbuf b' hne]
      · intro hn hc
        refine hD.nodup ?_ hc
        rw [hu.curSlots, hM.slots ds (hs hc) hc]
        exact nodup_aset _ _ _ hn
      · intro hc b' c' hm
        rcases List.mem_cons.1 hm with h | hm
        · cases h
          refine ⟨ds, hs hc, ?_⟩
          rw [hD.restSlots hc b hnotin, hu.curSlots, hM.slots ds (hs hc) hc, alook_aset, if_pos rfl]
        · obtain ⟨ds', g1, g2⟩ := hD.slots hc b' c' hm
          exact ⟨ds', (hlhs b') ▸ g1, g2⟩
      · intro hc b' hno
        have hne : b' ≠ b := by
          rintro rfl
          exact hno c (by simp)
        rw [hD.restSlots hc b' (fun c' h => hno c' (List.mem_cons_of_mem _ h)), hu.curSlots, hM.slots ds (hs hc) hc, alook_aset, if_neg hne]
      · intro hc hin
        have hk : w2.curSlots.map Prod.fst = w.curSlots.map Prod.fst := by
          rw [hu.curSlots, hM.slots ds (hs hc) hc, keys_aset, if_pos (hin b c (by simp))]
        rw [← hk]
        refine hD.slotKeys hc (fun b' c' hm => ?_)
        rw [hk]
        exact hin b' c' (List.mem_cons_of_mem _ hm)

/-! ## The whole right-hand side -/

/-- Modifications are carried out in the order in which they are written. -/
theorem sortRhs_modifying {r : List (Key × RVal)} (h : ∀ p ∈ r, p.1.code = '=') : sortRhs r = .ok r := by
  have hrank : ∀ p ∈ r, codeRank p.1.code = some 1 := by
    intro p hp; rw [h p hp]; rfl
  unfold sortRhs
  rw [if_pos (by rw [List.all_eq_true]; intro p hp; rw [hrank p hp]; rfl)]
  congr 1
  have hnil : ∀ k, k ≠ 1 → r.filter (fun p => decide (codeRank p.1.code = some k)) = [] := by
    intro k hk
    rw [List.filter_eq_nil_iff]
    intro p hp
    rw [hrank p hp]
    simpa using Ne.symm hk
  have hall : r.filter (fun p => decide (codeRank p.1.code = some 1)) = r := by
    rw [List.filter_eq_self]
    intro p hp
    rw [hrank p hp]; rfl
  have : List.range 6 = [0, 1, 2, 3, 4, 5] := rfl
  rw [this]
  simp only [List.flatMap_cons, List.flatMap_nil, hnil 0 (by decide), hall, hnil 2 (by decide), hnil 3 (by decide), hnil 4 (by decide),
    hnil 5 (by decide), List.nil_append, List.append_nil]

/-- The parts of a state that rules which modify buffers depend on. -/
structure SameParts (w w' : Mach) : Prop where
  bufs : w'.bufs = w.bufs
  reg : w'.reg = w.reg
  rules : w'.rules = w.rules
  usedName : w'.usedName = w.usedName
  curSlots : w'.curSlots = w.curSlots

theorem SameParts.trans {w w' w'' : Mach} (h : SameParts w w') (h' : SameParts w' w'') : SameParts w w'' :=
  ⟨h'.bufs.trans h.bufs, h'.reg.trans h.reg, h'.rules.trans h.rules, h'.usedName.trans h.usedName, h'.curSlots.trans h.curSlots⟩

theorem sameParts_harvest (t : ℚ) : ∀ (l : List String) (w : Mach), SameParts w (harvestAll t l w)
  | [], w => ⟨rfl, rfl, rfl, rfl, rfl⟩
  | n :: l, w => by
    rw [harvestAll]
    refine SameParts.trans ?_ (sameParts_harvest t l _)
    split <;> exact ⟨rfl, rfl, rfl, rfl, rfl⟩

theorem Modifications.after {C : Cfg} {σ : String → Option Val} {r : List (Key × RVal)} {w w' w'' : Mach} (h : Modifications C σ r w w')
    (hp : SameParts w' w'') : Modifications C σ r w w'' := by
  have hb : ∀ m, w''.buf m = w'.buf m := fun m => by unfold Mach.buf; rw [hp.bufs]
  refine ⟨hp.reg.trans h.reg, hp.rules.trans h.rules, hp.usedName.trans h.usedName, by rw [hp.bufs]; exact h.keys, ?_, ?_, ?_, ?_, ?_, ?_⟩
  · intro b c hm; rw [hb]; exact h.acted b c hm
  · intro b hm; rw [hb]; exact h.rest b hm
  · rw [hp.curSlots]; exact h.nodup
  · rw [hp.curSlots]; exact h.slots
  · rw [hp.curSlots]; exact h.restSlots
  · rw [hp.curSlots]; exact h.slotKeys

/-- The actions of a rule. -/
theorem genRhs_runs {C : Cfg} {σ : String → Option Val} {t : ℚ} (cf : C.P.H.CollisionFree) {r : List (Key × RVal)} {w : Mach}
    {name : String} {rule : CRule} {tr : List (Mach × YV)} {e : GEnd Mach Unit} (hb : rule.body.rhs = .ok r)
    (hreach : Reach C.P.toPyEnv w.reg) (hbv : ∀ y v, w.bv.get y = some v → DataVal v) (hnd : (r.map Prod.fst).Nodup)
    (hfit : ∀ p ∈ r, ∃ b c f d ds, p = (⟨'=', b⟩, .chunk c) ∧ Fit σ w b c f d ∧ (C.compilation = true → lhsSlots w b = .ok ds))
    (hr : Runs Undisturbed (genRhs C name rule t w) tr e) :
    (∀ w' x, e ≠ .raise w' x) ∧ ∀ w', e = .ret w' () → Modifications C σ r w w' := by
  have hs : sortRhs r = .ok r := sortRhs_modifying (by
    intro p hp
    obtain ⟨b, c, f, d, ds, rfl, _⟩ := hfit p hp
    rfl)
  have hshape : genRhs C name rule t w = (updateLoop C t r w.bv w).bind (fun left w1 =>
      (Out.ret (if C.strict then harvestAll t left.keyNames w1 else w1) () : Out Mach YV Unit).bind (fun _ w =>
        .ret (match w.lastRule with
          | some l => if l ≠ name then { w with compile := some (l, name, w.lastSlots), lastSlots := w.noSlots, lastRule := some name }
            else { w with lastRule := some name }
          | Option.none => { w with lastRule := some name }) ())) := by
    unfold genRhs genUpdate
    simp only [genM_bind_apply, hb, genM_lift_ok, out_bind_ret, genM_get_apply, hs]
    induction updateLoop C t r w.bv w with
    | yield v y k ih => simp only [Out.bind]; congr 1; funext w'; exact ih w'
    | ret v a => rfl
    | raise v x => rfl
  rw [hshape] at hr
  rcases runs_bind hr with ⟨w1, left, l1, l2, h1, h2, rfl⟩ | ⟨w1, x, h1, rfl⟩ | ⟨h1, rfl⟩
  · obtain ⟨_, hM⟩ := updateLoop_runs cf hreach hbv hnd hfit h1
    obtain ⟨hM, _⟩ := hM w1 left rfl
    cases h2
    refine ⟨by simp, fun w' hw' => ?_⟩
    cases hw'
    refine hM.after (SameParts.trans (w' := if C.strict then harvestAll t left.keyNames w1 else w1) ?_ ?_)
    · split
      · exact sameParts_harvest t _ w1
      · exact ⟨rfl, rfl, rfl, rfl, rfl⟩
    · generalize (if C.strict = true then harvestAll t left.keyNames w1 else w1) = v
      cases v.lastRule with
      | none => exact ⟨rfl, rfl, rfl, rfl, rfl⟩
      | some l =>
        simp only
        split <;> exact ⟨rfl, rfl, rfl, rfl, rfl⟩
  · exact absurd rfl ((updateLoop_runs cf hreach hbv hnd hfit h1).1 w1 x)
  · exact ⟨by simp, by simp⟩

/-! ## Learning and compilation leave the rules as they are -/

theorem stillThere_refl (rules : CRules) : StillThere rules rules := fun _ r h => ⟨r, h, rfl⟩

theorem stillThere_trans {a b c : CRules} (h : StillThere a b) (h' : StillThere b c) : StillThere a c := by
  intro n r hr
  obtain ⟨r1, h1, e1⟩ := h n r hr
  obtain ⟨r2, h2, e2⟩ := h' n r1 h1
  exact ⟨r2, h2, e2.trans e1⟩

theorem stillThere_setUtility (name : String) (f : ℚ → ℚ) (rules : CRules) : StillThere rules (setUtilityC name f rules) := by
  intro n r hr
  unfold setUtilityC
  cases ha : alook name rules with
  | none => exact ⟨r, hr, rfl⟩
  | some x =>
    by_cases hn : n = name
    · subst hn
      rw [hr] at ha; cases ha
      exact ⟨{ r with utility := f r.utility }, by rw [alook_aset, if_pos rfl], rfl⟩
    · exact ⟨r, by rw [alook_aset, if_neg hn]; exact hr, rfl⟩

theorem stillThere_modify (alpha time reward : ℚ) : ∀ (used : Used) (rules : CRules),
    StillThere rules (modifyUtilitiesC alpha time reward used rules)
  | [], rules => stillThere_refl rules
  | (n, ts) :: used, rules => by
    have hinner : ∀ (ts : List ℚ) (rules : CRules), StillThere rules (ts.foldl (fun rs t => setUtilityC n (learn alpha reward time t) rs) rules) := by
      intro ts
      induction ts with
      | nil => exact stillThere_refl
      | cons t ts ih => intro rules; exact stillThere_trans (stillThere_setUtility _ _ _) (ih _)
    exact stillThere_trans (hinner ts rules) (stillThere_modify alpha time reward used _)

theorem stillThere_reward (C : Cfg) (name : String) (t : ℚ) (w : Mach) : StillThere w.rules (rewardStep C name t w).rules := by
  unfold rewardStep
  split
  · split
    · exact stillThere_modify _ _ _ _ _
    · exact stillThere_refl _
  · exact stillThere_refl _

theorem stillThere_compile (P : Py) (reg : Reg) (p : UParams) (rules : CRules) (r1 r2 : String) (sv : SlotVals)
    (bufs : List (String × CBuf)) : StillThere rules (compileRules P reg p rules r1 r2 sv bufs).1 := by
  rcases compileRules_cases P reg p rules r1 r2 sv bufs with h | ⟨e, _, h⟩ | ⟨x1, x2, new, h1, h2, hn, hl⟩
  · rw [h.2]; exact stillThere_refl _
  · rw [h]; exact stillThere_refl _
  · obtain ⟨i, _, _, hc⟩ := nameLoop_pair hl
    rcases hc with ⟨ha, hr, _⟩ | ⟨r, ha, ⟨e, _, hr, _⟩ | ⟨_, hr, _⟩⟩
    · rw [hr]
      intro n r hnr
      have hne : n ≠ compiledName r1 r2 i := by
        rintro rfl
        rw [ha] at hnr; cases hnr
      exact ⟨r, by rw [alook_aset, if_neg hne]; exact hnr, rfl⟩
    · rw [hr]; exact stillThere_refl _
    · rw [hr]
      obtain ⟨⟨r', hr', hb', _⟩, ho', _⟩ := alook_relearn p x1.utility _ r rules ha
      intro n x hx
      by_cases hne : n = compiledName r1 r2 i
      · rw [hne] at hx ⊢
        rw [ha] at hx; cases hx
        exact ⟨r', hr', hb'⟩
      · exact ⟨x, (ho' n hne).trans hx, rfl⟩

/-- What learning and compilation leave alone. -/
structure SameButRules (w w' : Mach) : Prop where
  bufs : w'.bufs = w.bufs
  reg : w'.reg = w.reg
  rules : StillThere w.rules w'.rules
  bv : w'.bv = w.bv
  usedName : w'.usedName = w.usedName

theorem SameButRules.trans {w w' w'' : Mach} (h : SameButRules w w') (h' : SameButRules w' w'') : SameButRules w w'' :=
  ⟨h'.bufs.trans h.bufs, h'.reg.trans h.reg, stillThere_trans h.rules h'.rules, h'.bv.trans h.bv, h'.usedName.trans h.usedName⟩

theorem Spec.Undisturbed.same {w w' : Mach} (h : Undisturbed w w') : SameButRules w w' :=
  ⟨h.bufs, h.reg, h.rules ▸ stillThere_refl _, h.bv, h.usedName⟩

theorem sameButRules_reward (C : Cfg) (name : String) (t : ℚ) (w : Mach) : SameButRules w (rewardStep C name t w) := by
  refine ⟨?_, ?_, stillThere_reward C name t w, ?_, ?_⟩ <;> (unfold rewardStep; split <;> [split <;> rfl; rfl])

theorem sameButRules_compile (C : Cfg) (w : Mach) : SameButRules w (compileIn C w).1 := by
  unfold compileIn
  split
  · have h := stillThere_compile C.P w.reg C.up w.rules
    simp only
    split <;> exact ⟨rfl, rfl, h _ _ _ _, rfl, rfl⟩
  · exact ⟨rfl, rfl, stillThere_refl _, rfl, rfl⟩

theorem compileIn_error {C : Cfg} {w w' : Mach} {x : PyErr} (h : compileIn C w = (w', .error x)) :
    C.compilation = true ∧ w.compile ≠ Option.none := by
  unfold compileIn at h
  split at h
  · next hc hw => exact ⟨hc, by rw [hw]; simp⟩
  · cases h

/-- From the firing on: nothing can go wrong except for compilation, and when the actions begin, the state is as at the moment of
the test, with nothing noted about slots. -/
theorem genFire_runs {C : Cfg} {name : String} {rule : CRule} {t : ℚ} {w : Mach} {tr : List (Mach × YV)} {e : GEnd Mach Unit}
    (hr : Runs Undisturbed (genFire C name rule t w) tr e) :
    (∃ w', SameButRules w w' ∧ w'.curSlots = w'.noSlots ∧ ∃ tr', Runs Undisturbed (genRhs C name rule t w') tr' e) ∨
    e = .cut ∨ (∃ w' x, e = .raise w' x ∧ C.compilation = true ∧ w.compile ≠ Option.none) := by
  unfold genFire at hr
  simp only [genM_bind_apply, genM_set_apply, out_bind_ret] at hr
  have hrew := sameButRules_reward C name t w
  rcases hc : compileIn C (rewardStep C name t w) with ⟨w1, x | o⟩
  · rw [genM_act_error hc] at hr
    cases hr
    refine Or.inr (Or.inr ⟨_, _, rfl, ?_⟩)
    have := compileIn_error hc
    refine ⟨this.1, ?_⟩
    have hcomp : (rewardStep C name t w).compile = w.compile := by
      unfold rewardStep; split <;> [split <;> rfl; rfl]
    rw [← hcomp]; exact this.2
  · rw [genM_act_ok hc] at hr
    have hsame := hrew.trans (sameButRules_compile C _)
    rw [hc] at hsame
    simp only [out_bind_ret, genM_bind_apply, genM_set_apply] at hr
    have tail : ∀ (v : Mach) tr, SameButRules w v → Runs Undisturbed ((GenM.event t procName (.fired name) ({ v with curSlots := v.noSlots } : Mach)).bind
        (fun _ => genRhs C name rule t)) tr e →
        (∃ w', SameButRules w w' ∧ w'.curSlots = w'.noSlots ∧ ∃ tr', Runs Undisturbed (genRhs C name rule t w') tr' e) ∨ e = .cut := by
      intro v tr hv hr
      simp only [genM_event_apply, out_bind_yield, out_bind_ret] at hr
      cases hr with
      | cut => exact Or.inr rfl
      | @yield _ w2 _ _ tr' _ hu hr =>
        refine Or.inl ⟨w2, hv.trans ⟨hu.same.bufs, hu.same.reg, hu.same.rules, hu.same.bv, hu.same.usedName⟩, ?_, _, hr⟩
        rw [hu.curSlots]
        unfold Mach.noSlots
        rw [hu.bufs]
    cases o with
    | none =>
      simp only [genM_pure_apply, out_bind_ret] at hr
      rcases tail { w1 with compile := Option.none } tr (hsame.trans ⟨rfl, rfl, stillThere_refl _, rfl, rfl⟩) hr with h | h
      · exact Or.inl h
      · exact Or.inr (Or.inl h)
    | some o =>
      obtain ⟨n, re⟩ := o
      simp only [genM_event_apply, out_bind_yield, out_bind_ret] at hr
      cases hr with
      | cut => exact Or.inr (Or.inl rfl)
      | @yield _ w2 _ _ tr' _ hu hr =>
        rcases tail w2 tr' (hsame.trans ⟨hu.same.bufs, hu.same.reg, hu.same.rules, hu.same.bv, hu.same.usedName⟩) hr with h | h
        · exact Or.inl h
        · exact Or.inr (Or.inl h)

end Verif
