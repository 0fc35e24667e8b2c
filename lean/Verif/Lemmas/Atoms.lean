import Verif.Lemmas.Within
import Verif.Lemmas.Confined
import Verif.Lemmas.Dates
import Verif.Lemmas.Orders
import Verif.Lemmas.Carried
/-! # The few things that generators do with buffers, memories, chunk types and rules

A relation between states of the model that holds for each of these holds for whole simulations. -/
namespace Verif
open Verif.Spec Relation

/-- A relation between registries of chunk types that holds whenever a chunk is created. -/
structure Minting (P : Py) (G : Reg → Reg → Prop) : Prop where
  refl : ∀ r, G r r
  trans : ∀ a b c, G a b → G b c → G a c
  make : ∀ r typ dict, G r (createChunk P.toPyEnv r typ dict).1

/-- The few things that happen to a buffer and the memories. `D` tells which memories the buffer may be emptied into besides its own. -/
inductive BMove (P : Py) (G : Reg → Reg → Prop) (D : ℕ → Prop) : BState → BState → Prop
  | reg (st : BState) (r : Reg) : G st.reg r → BMove P G D st { st with reg := r }
  | put (st : BState) (c : Chunk) : BMove P G D st { st with data := [c] }
  | empty (st : BState) : BMove P G D st { st with data := [] }
  | drop (st : BState) (e : Chunk) (l : List Chunk) : st.data = e :: l → BMove P G D st { st with data := l }
  | change (st : BState) (e c : Chunk) (l : List Chunk) : st.data = e :: l → BMove P G D st { st with data := setAddChunk P.H l c }
  | store (st : BState) (c : Chunk) (l : List Chunk) (i : ℕ) (t : ℚ) : st.data = c :: l → D i ∨ st.dm = some i →
      BMove P G D st (({ st with data := l } : BState).harvest P i c t)

theorem bmove_dm {P : Py} {G : Reg → Reg → Prop} {D : ℕ → Prop} {st st' : BState} (h : BMove P G D st st') : st'.dm = st.dm := by
  cases h <;> rfl

section
variable {P : Py} {G : Reg → Reg → Prop} {D : ℕ → Prop} {st : BState}

theorem bmoves_bufferAdd {e : Option Chunk} : ReflTransGen (BMove P G D) st (st.bufferAdd e).1 := by
  cases e with
  | none => exact .single (.empty st)
  | some c => exact .single (.put st c)

theorem bmoves_clear {k : BufKind} {t : ℚ} {h : Option ℕ} (hD : ∀ i, h = some i → D i) : ReflTransGen (BMove P G D) st (st.clear P k t h).1 := by
  have key : ReflTransGen (BMove P G D) st (match st.data with
    | [] => (st, .ok ())
    | c :: rest =>
      match (if k = .retrieval then st.dm else h.or st.dm) with
      | Option.none => (st, .error .attribute)
      | some i => (({ st with data := rest } : BState).harvest P i c t, .ok ()) : BResult).1 := by
    split
    · exact .refl
    · rename_i c rest hd
      split
      · exact .refl
      · rename_i i hi
        refine .single (.store st c rest i t hd ?_)
        split at hi
        · exact .inr hi
        · cases h with
          | none => exact .inr hi
          | some j => cases hi; exact .inl (hD _ rfl)
  unfold BState.clear
  split
  · exact .single (.empty st)
  · exact key

theorem bmoves_add {k : BufKind} {e : Option Chunk} {t : ℚ} {h : Option ℕ} (hD : ∀ i, h = some i → D i) : ReflTransGen (BMove P G D) st (st.add P k e t h).1 := by
  have hc := bmoves_clear (P := P) (G := G) (st := st) (k := k) (t := t) hD
  unfold BState.add
  split
  · exact bmoves_bufferAdd
  · exact .refl
  · split
    · rename_i hs; rw [hs] at hc; exact hc.trans bmoves_bufferAdd
    · rename_i hs; rw [hs] at hc; exact hc

theorem bmoves_modify (hG : Minting P G) {c : Chunk} {bv : BV} : ReflTransGen (BMove P G D) st (st.modify P c bv).1 := by
  unfold BState.modify
  split
  · exact .refl
  · rename_i e l hd
    split
    · exact .single (.drop st e l hd)
    · rename_i mods _
      have hg := hG.make st.reg c.typ (modifyDict e mods)
      split
      · rename_i hc; rw [hc] at hg
        exact .tail (.single (.reg st _ hg)) (.drop { st with reg := _ } e l hd)
      · rename_i hc; rw [hc] at hg
        exact .tail (.single (.reg st _ hg)) (.change { st with reg := _ } e _ l hd)

theorem bmoves_create (hG : Minting P G) {c : Chunk} {bv : BV} {h : Option ℕ} : ReflTransGen (BMove P G D) st (st.create P c bv h).1 := by
  unfold BState.create
  split
  · exact .refl
  · rename_i mods _
    have hg := hG.make st.reg c.typ (mods.map (fun p => (p.1, SlotArg.vv p.2)))
    split
    · rename_i hc; rw [hc] at hg
      exact .single (.reg st _ hg)
    · rename_i hc; rw [hc] at hg
      exact .tail (.single (.reg st _ hg)) (.put { st with reg := _ } _)
end

/-! ## Chunk types -/

section
variable {P : Py} {G : Reg → Reg → Prop}

theorem Minting.resolve (hG : Minting P G) (bv : BV) (ni : Bool) (reg : Reg) (c : Chunk) : G reg (resolveChunk P bv ni reg c).1 := by
  unfold resolveChunk
  split
  · exact hG.refl _
  · exact hG.make ..

theorem Minting.made (hG : Minting P G) {r r' : Reg} {typ : String} {dict : List (String × SlotArg)} {x : Except PyErr Chunk} (h : createChunk P.toPyEnv r typ dict = (r', x)) : G r r' := by
  have := hG.make r typ dict
  rwa [h] at this

theorem Minting.retrieve (hG : Minting P G) (p : RParams) (st : RBuf) (now : ℚ) (other : Chunk) (bv : BV) (bufs : List (String × Option Chunk)) (want : Option Bool) (draws : ℕ → ℝ) :
    G st.reg (RBuf.retrieve P p st now other bv bufs want draws).1.reg := by
  have h := hG.resolve bv false st.reg other
  unfold RBuf.retrieve
  split
  · rename_i hr; rw [hr] at h; exact h
  · rename_i hr; rw [hr] at h
    dsimp only
    split
    · split <;> exact h
    · split <;> exact h

theorem Minting.locChunk (hG : Minting P G) (reg : Reg) (s : Stim) (pos : Bool) : G reg (locChunk P reg s pos).1 := by
  unfold Verif.locChunk
  dsimp only
  split
  · split
    · exact hG.refl _
    · exact hG.make ..
  · exact hG.make ..

theorem Minting.visChunk (hG : Minting P G) (reg : Reg) (s : Stim) (cmd : Option VarVal) : G reg (visChunk P reg s cmd).1 := by
  have h := hG.locChunk reg s true
  unfold Verif.visChunk
  dsimp only
  split
  · rename_i hr; rw [hr] at h; exact h
  · rename_i hr; rw [hr] at h
    exact hG.trans _ _ _ h (hG.make ..)

theorem Minting.autoLoop (hG : Minting P G) (recent : List Stim) (focus : ℚ × ℚ) : ∀ (l : List Stim) (reg : Reg) (best : Option (Chunk × Stim × ℚ)), G reg (autoLoop P recent focus reg best l).1
  | [], reg, best => hG.refl _
  | s :: r, reg, best => by
    unfold Verif.autoLoop
    split
    · exact Minting.autoLoop hG recent focus r _ _
    · split
      · exact hG.refl _
      · split_ifs
        · exact Minting.autoLoop hG recent focus r _ _
        · have h := hG.locChunk reg s true
          split
          · rename_i hr; rw [hr] at h; exact h
          · rename_i hr; rw [hr] at h
            exact hG.trans _ _ _ h (Minting.autoLoop hG recent focus r _ _)

theorem Minting.motorCreate (hG : Minting P G) (upper : String → String) (reg : Reg) (c : Chunk) (bv : BV) : G reg (motorCreate P upper reg c bv).1 := by
  unfold Verif.motorCreate
  split
  · exact hG.refl _
  · split
    · exact hG.made (by assumption)
    · have h1 := hG.made (by assumption)
      split
      · exact h1
      · split
        · exact h1
        · split
          · split
            · exact h1
            · split
              · exact hG.trans _ _ _ h1 (hG.made (by assumption))
              · have h2 := hG.trans _ _ _ h1 (hG.made (by assumption))
                split
                · exact h2
                · split
                  · exact h2
                  · split <;> exact h2
            · exact h1
          · exact h1

theorem Minting.findLoop (F : FindCfg) (hG : Minting F.P G) (sx sy sv : Slot) : ∀ (l : Screen) (reg : Reg) (st : FindSt), G reg (findLoop F sx sy sv reg st l).1
  | [], reg, st => hG.refl _
  | (_, s) :: r, reg, st => by
    unfold Verif.findLoop
    split
    · exact hG.refl _
    · exact Minting.findLoop F hG sx sy sv r _ _
    · have h1 := hG.locChunk reg s false
      split
      · rename_i hr; rw [hr] at h1; exact h1
      · rename_i reg1 v hr; rw [hr] at h1
        split
        · have h2 := hG.locChunk reg1 s true
          split
          · rename_i hr; rw [hr] at h2; exact hG.trans _ _ _ h1 h2
          · rename_i hr; rw [hr] at h2
            exact hG.trans _ _ _ h1 (hG.trans _ _ _ h2 (Minting.findLoop F hG sx sy sv r _ _))
        · exact hG.trans _ _ _ h1 (Minting.findLoop F hG sx sy sv r _ _)

theorem Minting.visFind (hG : Minting P G) (pyInt : String → Option ℤ) (reg : Reg) (other : Chunk) (bv : BV) (att : Option Bool) (finst : ℕ) (recent : List Stim) (focus : ℚ × ℚ) (screen : Option Screen) :
    G reg (visFind P pyInt reg other bv att finst recent focus screen).1 := by
  unfold Verif.visFind
  split
  · exact hG.refl _
  · split
    · exact hG.made (by assumption)
    · have h1 := hG.made (by assumption)
      split
      · exact h1
      · split
        · exact hG.trans _ _ _ h1 (Minting.findLoop _ hG _ _ _ _ _ _)
        · exact h1
end

/-! ## States of the model -/

/-- A relation between states of the model that holds for each of the few things that are done. -/
structure Quanta (C : Cfg) (G : Reg → Reg → Prop) (R : Mach → Mach → Prop) : Prop where
  mint : Minting C.P G
  refl : ∀ w, R w w
  trans : ∀ a b c, R a b → R b c → R a c
  upd : ∀ (w : Mach) n f, (∀ b : Buf, (f b).cls = b.cls ∧ (f b).data = b.data ∧ (f b).dm = b.dm) → R w (w.upd n f)
  other : ∀ w w' : Mach, w'.reg = w.reg → w'.mems = w.mems → w'.dms = w.dms → w'.bufs = w.bufs → w'.rules = w.rules → w'.ordered = w.ordered → (w.env = Option.none → w'.env = Option.none) → R w w'
  reg : ∀ (w : Mach) r, G w.reg r → R w { w with reg := r }
  mems : ∀ (w : Mach) l, l.map DecMem.data = w.mems.map DecMem.data → R w { w with mems := l }
  buf : ∀ (w : Mach) n b st, w.buf n = some b → BMove C.P G (fun i => i ∈ w.dms.map Prod.snd) (w.bst b) st → R w (w.putBst n st)
  exec : ∀ (w : Mach) n b c, w.buf n = some b → R w (w.upd n (fun b' => { (C.exec c b).1 with cls := b'.cls }))
  reward : ∀ n t w, R w (rewardStep C n t w)
  compile : ∀ w, R w (compileIn C w).1

/-- And that environments are set. -/
structure Atoms (C : Cfg) (G : Reg → Reg → Prop) (R : Mach → Mach → Prop) : Prop extends Quanta C G R where
  environ : ∀ (w : Mach) e, R w { w with env := e }

variable {C : Cfg} {G : Reg → Reg → Prop} {R : Mach → Mach → Prop} {w : Mach} {n : String}

theorem aset_twice {α : Type} (n : String) (a b : α) : ∀ l : List (String × α), aset n b (aset n a l) = aset n b l
  | [] => by simp [aset]
  | (m, c) :: r => by
    by_cases h : m = n
    · simp [aset, h]
    · simp [aset, h, aset_twice n a b r]

theorem putBst_twice (st st' : BState) : (w.putBst n st).putBst n st' = w.putBst n st' := by
  unfold Mach.putBst Mach.upd
  rcases h : alook n w.bufs with _ | b
  · simp only [h]
  · simp only [h, alook_aset, if_true, aset_twice]

theorem atoms_path (hA : Quanta C G R) {b : Buf} (hb : w.buf n = some b) {st st' : BState} (hm : BMove C.P G (fun i => i ∈ w.dms.map Prod.snd) st st') (hd : st.dm = b.dm) :
    R (w.putBst n st) (w.putBst n st') := by
  have hb' := putBst_buf hb st
  have h : (w.putBst n st).bst { b with data := st.data } = st := by
    unfold Mach.bst
    have h1 : (w.putBst n st).reg = st.reg := by unfold Mach.putBst; rw [upd_reg]
    rw [h1, putBst_mems]
    show BState.mk _ _ b.dm _ = st
    rw [← hd]
  have hdms : (w.putBst n st).dms = w.dms := by unfold Mach.putBst; rw [upd_dms]
  have := hA.buf (w.putBst n st) n _ st' hb' (by rw [h, hdms]; exact hm)
  rwa [putBst_twice] at this

theorem atoms_bmoves (hA : Quanta C G R) {b : Buf} (hb : w.buf n = some b) {st : BState} (h : ReflTransGen (BMove C.P G (fun i => i ∈ w.dms.map Prod.snd)) (w.bst b) st) :
    st.dm = b.dm ∧ R w (w.putBst n st) := by
  induction h with
  | refl =>
    refine ⟨rfl, ?_⟩
    have : w.putBst n (w.bst b) = w := by
      unfold Mach.putBst Mach.upd
      have hb : alook n w.bufs = some b := hb
      simp only [Mach.bst, hb]
      have : aset n b w.bufs = w.bufs := by
        clear hA
        generalize w.bufs = l at hb
        induction l with
        | nil => cases hb
        | cons p r ih =>
          obtain ⟨m, c⟩ := p
          unfold alook at hb
          unfold aset
          split at hb
          · rename_i hm; cases hb; simp [hm]
          · rename_i hm; simp [hm, ih hb]
      show ({ w with bufs := aset n b w.bufs } : Mach) = w
      rw [this]
    rw [this]; exact hA.refl w
  | tail _ hm ih => exact ⟨(bmove_dm hm).trans ih.1, hA.trans _ _ _ ih.2 (atoms_path hA hb hm ih.1)⟩

theorem atoms_onBuf (hA : Quanta C G R) {f : Buf → BState → BResult} (h : ∀ b, ReflTransGen (BMove C.P G (fun i => i ∈ w.dms.map Prod.snd)) (w.bst b) (f b (w.bst b)).1) : R w (w.onBuf n f).1 := by
  unfold Mach.onBuf
  split
  · exact hA.refl w
  · rename_i b hb
    exact (atoms_bmoves hA hb (h b)).2

theorem atoms_onBuf' (hA : Quanta C G R) {f : Buf → BState → BResult} {w1 : Mach} {r : Except PyErr Unit} (h : ∀ b, ReflTransGen (BMove C.P G (fun i => i ∈ w.dms.map Prod.snd)) (w.bst b) (f b (w.bst b)).1)
    (hw : w.onBuf n f = (w1, r)) : R w w1 := by
  have := atoms_onBuf hA (n := n) h
  rwa [hw] at this

theorem atoms_setState (hA : Quanta C G R) {x : Status} : R w (w.setState n x) := hA.upd w n _ fun _ => ⟨rfl, rfl, rfl⟩

theorem atoms_clearBuf (hA : Quanta C G R) {v : RVal} {t : ℚ} : R w (clearBuf C n v t w).1 := by
  have ha : ∀ (b : Buf) (i : ℕ), i ∈ w.dms.map Prod.snd → R w (if b.cls = .decmem then (w, .error .type)
      else w.onBuf n (fun b st => st.clear C.P b.cls.kind t (some i)) : Mach × Except PyErr Unit).1 := by
    intro b i hi
    split
    · exact hA.refl w
    · exact atoms_onBuf hA fun _ => bmoves_clear fun j hj => by cases hj; exact hi
  have hn : ∀ (b : Buf), R w (match alook n w.dms with
      | some i => (if b.cls = .decmem then (w, .error .type)
          else w.onBuf n (fun b st => st.clear C.P b.cls.kind t (some i)))
      | Option.none => (w, .error .actr) : Mach × Except PyErr Unit).1 := by
    intro b
    split
    · rename_i i hi
      exact ha _ _ (List.mem_map.2 ⟨(n, i), alook_mem hi, rfl⟩)
    · exact hA.refl w
  unfold clearBuf
  dsimp only
  split
  · exact hA.refl w
  · rename_i b hb
    split
    · exact hA.refl w
    · split
      · rename_i st _ hst
        have := bmoves_clear (P := C.P) (G := G) (D := fun i => i ∈ w.dms.map Prod.snd) (st := w.bst b) (k := b.cls.kind) (t := t) (h := Option.none) (fun _ h => by cases h)
        rw [hst] at this
        exact (atoms_bmoves hA hb this).2
      · split
        · rename_i i hd
          exact ha _ _ (by rw [hd]; exact .head _)
        · split
          · exact hn _
          · split
            · exact hn _
            · exact hA.refl w
          · split
            · exact hn _
            · exact hA.refl w
          · split
            · exact hn _
            · exact hA.refl w

theorem atoms_execAll (hA : Quanta C G R) (n : String) : ∀ l w, R w (execAll C n l w).1
  | [], w => hA.refl w
  | c :: r, w => by
    simp only [execAll]
    split
    · exact hA.refl w
    · rename_i b hb
      have h := hA.exec w n b c hb
      split
      · rename_i hc; rw [hc] at h; exact hA.trans _ _ _ h (atoms_execAll hA n r _)
      · rename_i hc; rw [hc] at h; exact h

theorem atoms_modifyBuf (hA : Quanta C G R) {c : Chunk} {bv : BV} : R w (modifyBuf C n c bv w).1 := by
  unfold modifyBuf
  split
  · exact hA.refl w
  · split
    · split
      · exact hA.trans _ _ _ (atoms_onBuf' hA (fun _ => bmoves_modify hA.mint) (by assumption)) (hA.upd _ _ _ fun _ => ⟨rfl, rfl, rfl⟩)
      · exact atoms_onBuf' hA (fun _ => bmoves_modify hA.mint) (by assumption)
    · exact atoms_onBuf hA fun _ => bmoves_modify hA.mint

theorem atoms_createIn (hA : Quanta C G R) {c : Chunk} {bv : BV} : R w (createIn C n c bv w).1 := by
  unfold createIn
  split
  · exact hA.refl w
  · split
    · exact hA.refl w
    · split
      · exact hA.refl w
      · split
        · exact hA.refl w
        · exact atoms_onBuf hA fun _ => bmoves_create hA.mint

theorem atoms_firstOf (hA : Quanta C G R) : R w (firstOf n w).1 := by
  unfold firstOf
  split
  · split <;> exact hA.refl w
  · exact hA.refl w

theorem atoms_reg_tick (hA : Quanta C G R) {r : Reg} {k : ℕ} (h : G w.reg r) : R w { w with reg := r, tick := k } :=
  hA.trans _ _ _ (hA.reg w r h) (hA.other _ _ rfl rfl rfl rfl rfl rfl id)

theorem atoms_retrieveIn (hA : Quanta C G R) {c : Chunk} {bv : BV} {t : ℚ} : R w (retrieveIn C n c bv t w).1 := by
  unfold retrieveIn
  dsimp only
  split
  · exact hA.refl w
  · rename_i b hb
    split
    · have h := hA.mint.resolve bv false w.reg c
      split <;> (rename_i hr; rw [hr] at h; exact hA.reg w _ h)
    · rename_i i m him
      have hm : w.mems[i]? = some m := by
        cases hd : b.dm with
        | none => rw [hd] at him; cases him
        | some j =>
          rw [hd] at him
          cases hj : w.mems[j]? with
          | none => simp [hj] at him
          | some m' => simp [hj] at him; obtain ⟨rfl, rfl⟩ := him; exact hj
      refine hA.trans _ _ _ ?_ (hA.upd _ _ _ fun _ => ⟨rfl, rfl, rfl⟩)
      have hg := hA.mint.retrieve C.rp ⟨w.reg, m, b.finst, b.recent, b.activation⟩ t c bv (w.bufs.map (fun p => (p.1, p.2.data.head?))) (w.extraTest n "recently_retrieved") (C.draws w.tick)
      refine hA.trans _ _ _ (atoms_reg_tick hA (k := w.tick + 1) hg) (hA.mems _ _ ?_)
      show List.map DecMem.data (w.mems.set i _) = List.map DecMem.data w.mems
      rw [List.map_set, retrieve_data]
      obtain ⟨hlt, hget⟩ := List.getElem?_eq_some_iff.1 hm
      rw [← hget]
      have := List.set_getElem_self (as := w.mems.map DecMem.data) (i := i) (by simpa using hlt)
      simpa using this

theorem atoms_findIn (hA : Quanta C G R) {c : Chunk} {bv : BV} : R w (findIn C n c bv w).1 := by
  unfold findIn
  split
  · exact hA.reg _ _ (hA.mint.visFind _ _ _ _ _ _ _ _ _)
  · exact hA.refl w

theorem atoms_addLocation (hA : Quanta C G R) {c : Chunk} {s : Option Stim} {t : ℚ} : R w (addLocation C n c s t w).1 := by
  unfold addLocation
  split
  · exact hA.trans _ _ _ (atoms_onBuf' hA (fun _ => bmoves_add (h := Option.none) fun _ h => by cases h) (by assumption)) (hA.upd _ _ _ fun _ => ⟨rfl, rfl, rfl⟩)
  · exact atoms_onBuf' hA (fun _ => bmoves_add (h := Option.none) fun _ h => by cases h) (by assumption)

theorem atoms_shiftIn (hA : Quanta C G R) {c : Chunk} {bv : BV} : R w (shiftIn C c bv w).1 := by
  unfold shiftIn
  split
  · exact hA.refl w
  · split
    · exact hA.refl w
    · split
      · exact hA.refl w
      · exact hA.refl w
      · have h : ∀ {s x r y}, visChunk C.P w.reg s x = (r, y) → G w.reg r := fun {s x r y} hr => by
          have := hA.mint.visChunk w.reg s x
          rwa [hr] at this
        split
        · rename_i hr; exact hA.reg _ _ (h hr)
        · rename_i hr
          have h := h hr
          dsimp only
          split
          · exact atoms_reg_tick hA h
          · exact hA.reg _ _ h

theorem atoms_autoBufferLoop (hA : Quanta C G R) (data : List Chunk) (cf : ℚ × ℚ) : ∀ (l : List Stim) (w : Mach) (acc : Option (Chunk × ℚ)), R w (autoBufferLoop C data cf l w acc).1
  | [], w, _ => hA.refl w
  | s :: r, w, acc => by
    unfold autoBufferLoop
    split
    · exact hA.refl w
    · split
      · split
        · exact hA.refl w
        · exact atoms_autoBufferLoop hA data cf r _ _
        · have h := hA.mint.visChunk w.reg s Option.none
          split
          · rename_i hr; rw [hr] at h; exact hA.reg _ _ h
          · rename_i hr; rw [hr] at h
            exact hA.trans _ _ _ (atoms_reg_tick hA h) (atoms_autoBufferLoop hA data cf r _ _)
      · exact atoms_autoBufferLoop hA data cf r _ _

theorem atoms_motorCreateIn (hA : Quanta C G R) {c : Chunk} {bv : BV} : R w (motorCreateIn C c bv w).1 := by
  have h := hA.mint.motorCreate C.upper w.reg c bv
  unfold motorCreateIn
  split
  · rename_i hr; rw [hr] at h; exact hA.reg _ _ h
  · rename_i hr; rw [hr] at h
    split <;> exact hA.reg _ _ h

/-! ## Generators -/

section
variable {A B : Type}
theorem stays_bind (hA : Quanta C G R) {g : GenM A} {f : A → GenM B} (hg : StaysIn R g) (hf : ∀ a, StaysIn R (f a)) : StaysIn R (g >>= f) :=
  ⟨fun w => moves_bind hA.trans (hg.moves w) fun a => (hf a).moves⟩
theorem stays_set {f : Mach → Mach} (h : ∀ w, R w (f w)) : StaysIn R (GenM.set f) := ⟨fun w => moves_set (h w)⟩
theorem stays_act {f : Mach → Mach × Except PyErr A} (h : ∀ w, R w (f w).1) : StaysIn R (GenM.act f) := ⟨fun w => moves_act (h w)⟩
theorem stays_get (hA : Quanta C G R) {f : Mach → A} : StaysIn R (GenM.get f) := ⟨fun w => moves_get hA.refl f w⟩
theorem stays_lift (hA : Quanta C G R) {x : Except PyErr A} : StaysIn R (GenM.lift x) := ⟨fun w => moves_lift hA.refl x w⟩
theorem stays_throw (hA : Quanta C G R) {x : PyErr} : StaysIn R (GenM.throw x : GenM A) := ⟨fun w => moves_throw hA.refl x w⟩
theorem stays_pure (hA : Quanta C G R) {x : A} : StaysIn R (Pure.pure x : GenM A) := ⟨fun w => moves_pure hA.refl x w⟩
theorem stays_event (hA : Quanta C G R) {t : ℚ} {m : String} {a : Act} : StaysIn R (GenM.event t m a) := ⟨fun w => moves_event hA.refl t m a w⟩
theorem stays_yield (hA : Quanta C G R) {y : YV} : StaysIn R (GenM.yield y) := ⟨fun w => moves_yield hA.refl y w⟩
end

/-- Steps of the proofs below: the parts of a generator one by one. -/
macro "atomic" h:ident : tactic => `(tactic| repeat' with_reducible first
  | exact stays_event $h | exact stays_yield $h | exact stays_get $h | exact stays_lift $h | exact stays_throw $h | exact stays_pure $h
  | exact stays_act fun _ => atoms_clearBuf $h | exact stays_act fun _ => atoms_modifyBuf $h | exact stays_act fun _ => atoms_createIn $h
  | exact stays_act fun _ => atoms_firstOf $h | exact stays_act fun _ => atoms_retrieveIn $h | exact stays_act fun _ => atoms_findIn $h
  | exact stays_act fun _ => atoms_addLocation $h | exact stays_act fun _ => atoms_shiftIn $h | exact stays_act fun _ => atoms_motorCreateIn $h
  | exact stays_act fun _ => atoms_onBuf $h fun _ => bmoves_add fun _ h => by cases h
  | exact stays_set fun _ => atoms_setState $h | exact stays_set fun _ => ($h).upd _ _ _ fun _ => ⟨rfl, rfl, rfl⟩
  | assumption
  | refine stays_bind $h ?_ fun _ => ?_
  | split)

variable (hA : Quanta C G R)
include hA

theorem atoms_genClear (n : String) (v : RVal) (t : ℚ) (f : Bool) : StaysIn R (genClear C n v t f) := by
  have h : StaysIn R (GenM.set fun w => if f then w.setState n .free else w) := stays_set fun w => by
    split
    · exact atoms_setState hA
    · exact hA.refl w
  unfold genClear
  atomic hA

theorem atoms_extraTest (n : String) (v : RVal) (t : ℚ) : StaysIn R (genExtraTest n v t) := by
  unfold genExtraTest
  refine stays_bind hA (stays_set fun _ => atoms_setState hA) fun _ => stays_bind hA (stays_set fun w => ?_) fun _ => ?_
  · exact hA.other _ _ rfl rfl rfl rfl rfl rfl id
  · atomic hA

theorem atoms_execute (n : String) (v : RVal) (t : ℚ) : StaysIn R (genExecute C n v t) := by
  unfold genExecute
  refine stays_bind hA (stays_set fun _ => atoms_setState hA) fun _ => stays_bind hA (stays_act fun w => ?_) fun _ => ?_
  · split
    · exact atoms_execAll hA ..
    · exact hA.refl w
  · atomic hA

theorem atoms_recordModify (m : String) (c : Chunk) : StaysIn R (recordModify C m c) := by
  unfold recordModify
  refine stays_act fun w => ?_
  split
  · split
    · exact hA.refl w
    · exact hA.other _ _ rfl rfl rfl rfl rfl rfl id
  · exact hA.refl w

theorem atoms_recordSet (m : String) (c : Chunk) : StaysIn R (recordSet C m c) := by
  unfold recordSet
  refine stays_set fun w => ?_
  split
  · exact hA.other _ _ rfl rfl rfl rfl rfl rfl id
  · exact hA.refl w

theorem atoms_recordRetrieved (m : String) (c : Chunk) (r : Option Chunk) : StaysIn R (recordRetrieved C m c r) := by
  unfold recordRetrieved
  refine stays_set fun w => ?_
  split
  · exact hA.other _ _ rfl rfl rfl rfl rfl rfl id
  · exact hA.refl w

theorem atoms_modify (n : String) (v : RVal) (bv : BV) (t : ℚ) : StaysIn R (genModify C n v bv t) := by
  have h := fun c => atoms_recordModify hA n c
  unfold genModify
  repeat' with_reducible first | exact h _ | (atomic hA; done) | refine stays_bind hA ?_ fun _ => ?_

theorem atoms_modifyRequest (n : String) (v : RVal) (bv : BV) (t : ℚ) : StaysIn R (genModifyRequest C n v bv t) := by
  have h := fun c => atoms_recordModify hA n c
  unfold genModifyRequest
  repeat' with_reducible first | exact h _ | (atomic hA; done) | refine stays_bind hA ?_ fun _ => ?_

theorem atoms_overwrite (n : String) (v : RVal) (bv : BV) (t : ℚ) : StaysIn R (genOverwrite C n v bv t) := by
  have h := fun c => atoms_recordSet hA n c
  unfold genOverwrite
  repeat' with_reducible first | exact h _ | (atomic hA; done) | refine stays_bind hA ?_ fun _ => ?_

theorem atoms_immediate (k : Key) (v : RVal) (bv : BV) (t : ℚ) : StaysIn R (immediate C k v bv t) := by
  unfold immediate
  split_ifs
  · exact atoms_extraTest hA ..
  · exact atoms_execute hA ..
  · exact atoms_modify hA ..
  · exact atoms_overwrite hA ..
  · exact atoms_genClear hA ..

theorem atoms_setGoal (n : String) (v : RVal) (bv : BV) (t : ℚ) : StaysIn R (genSetGoal C n v bv t) := by
  have h := fun c => atoms_recordSet hA n c
  have h' := atoms_genClear hA n v t false
  unfold genSetGoal
  repeat' with_reducible first | exact h _ | exact h' | (atomic hA; done) | refine stays_bind hA ?_ fun _ => ?_

theorem atoms_retrieve (n : String) (v : RVal) (bv : BV) (t : ℚ) : StaysIn R (genRetrieve C n v bv t) := by
  have h := fun c r => atoms_recordRetrieved hA n c r
  unfold genRetrieve
  repeat' with_reducible first | exact h _ _ | (atomic hA; done) | refine stays_bind hA ?_ fun _ => ?_ | split

theorem atoms_findLocation (n : String) (v : RVal) (bv : BV) (t : ℚ) : StaysIn R (genFindLocation C n v bv t) := by
  have h := atoms_genClear hA n .nothing t false
  unfold genFindLocation
  atomic hA

theorem atoms_visualencode (n : String) (c : Chunk) (t x : ℚ) (s : ℚ × ℚ) : StaysIn R (genVisualencode C n c t x s) := by
  have h := atoms_genClear hA n .nothing (t + x) false
  unfold genVisualencode
  atomic hA

theorem atoms_visualshift (n : String) (v : RVal) (bv : BV) (t : ℚ) : StaysIn R (genVisualshift C n v bv t) := by
  have h := fun c t x s => atoms_visualencode hA n c t x s
  unfold genVisualshift
  repeat' with_reducible first | exact h _ _ _ _ | (atomic hA; done) | refine stays_bind hA ?_ fun _ => ?_ | split

theorem atoms_visualcontinue (n : String) (c : Chunk) (bv : BV) (t : ℚ) (ts : ℚ × ℚ × ℚ) (s : ℚ × ℚ) : StaysIn R (genVisualcontinue C n c bv t ts s) := by
  have h := fun c t x s => atoms_visualencode hA n c t x s
  have h' : StaysIn R (GenM.set (fun w =>
      ({ w with env := w.env.map (fun e => { e with focus := ((truncQ s.1 : ℚ), (truncQ s.2 : ℚ)) }) } : Mach).upd n
        (fun b => { b with focus := ((truncQ s.1 : ℚ), (truncQ s.2 : ℚ)) }))) := stays_set fun w =>
    hA.trans _ { w with env := w.env.map (fun e => { e with focus := ((truncQ s.1 : ℚ), (truncQ s.2 : ℚ)) }) } _ (hA.other _ _ rfl rfl rfl rfl rfl rfl fun h => congrArg (Option.map _) h) (hA.upd _ _ _ fun _ => ⟨rfl, rfl, rfl⟩)
  unfold genVisualcontinue
  repeat' with_reducible first | exact h _ _ _ _ | exact h' | (atomic hA; done) | refine stays_bind hA ?_ fun _ => ?_ | split

theorem atoms_visual (n : String) (v : RVal) (bv : BV) (t : ℚ) : StaysIn R (genVisual C n v bv t) := by
  have h := atoms_visualshift hA n v bv t
  unfold genVisual
  atomic hA

theorem atoms_autoSearch (n : String) (s : List Stim) (t : ℚ) : StaysIn R (genAutoSearch C n s t) := by
  unfold genAutoSearch
  refine stays_bind hA (stays_set fun _ => atoms_setState hA) fun _ => stays_bind hA (stays_act fun w => ?_) fun r => ?_
  · split
    · split
      · exact hA.reg _ _ (hA.mint.autoLoop _ _ _ _ _)
      · exact hA.refl w
    · exact hA.refl w
  · atomic hA
    refine stays_act fun w => ?_
    split
    · exact hA.trans _ _ _ (atoms_onBuf' hA (fun _ => bmoves_modify hA.mint) (by assumption)) (hA.upd _ _ _ fun _ => ⟨rfl, rfl, rfl⟩)
    · exact atoms_onBuf' hA (fun _ => bmoves_modify hA.mint) (by assumption)

theorem atoms_autoBuffer (n : String) (s : List Stim) (t : ℚ) : StaysIn R (genAutoBuffer C n s t) := by
  have h : ∀ c t', StaysIn R (GenM.act (fun w => w.onBuf n (fun b st => if b.data.isEmpty then st.add C.P b.cls.kind (some c) t' Option.none else st.modify C.P c BV.init))) := fun c t' => stays_act fun w => atoms_onBuf hA fun b => by
    split
    · exact bmoves_add fun _ h => by cases h
    · exact bmoves_modify hA.mint
  unfold genAutoBuffer
  refine stays_bind hA (stays_set fun _ => hA.upd _ _ _ fun _ => ⟨rfl, rfl, rfl⟩) fun _ => stays_bind hA (stays_act fun w => ?_) fun r => ?_
  · split
    · exact atoms_autoBufferLoop hA ..
    · exact hA.refl w
  · repeat' with_reducible first | exact h _ _ | (atomic hA; done) | refine stays_bind hA ?_ fun _ => ?_ | split

theorem atoms_motorset (n : String) (v : RVal) (bv : BV) (t : ℚ) : StaysIn R (genMotorset C n v bv t) := by
  unfold genMotorset
  refine stays_bind hA (stays_lift hA) fun _ => stays_bind hA (stays_act fun _ => atoms_motorCreateIn hA) fun m => stays_bind hA (stays_get hA) fun _ =>
    stays_bind hA (stays_set fun w => ?_) fun _ => ?_
  · split
    · exact hA.other _ _ rfl rfl rfl rfl rfl rfl id
    · exact hA.refl w
  · atomic hA

theorem atoms_motorcontinue (n : String) (k : String) (t : ℚ) (pr : ℚ × ℚ × ℚ × ℚ) : StaysIn R (genMotorcontinue n k t pr) := by
  have h : StaysIn R (GenM.set (fun w => { w with interaction := addStr w.interaction k })) := stays_set fun w => hA.other _ _ rfl rfl rfl rfl rfl rfl id
  unfold genMotorcontinue
  atomic hA

theorem atoms_retrieveorset (n : String) (v : RVal) (bv : BV) (t : ℚ) : StaysIn R (genRetrieveorset C n v bv t) := by
  have h1 := atoms_setGoal hA n v bv t
  have h2 := atoms_retrieve hA n v bv t
  have h3 := atoms_motorset hA n v bv t
  have h4 := atoms_visual hA n v bv t
  have h5 := atoms_findLocation hA n v bv t
  unfold genRetrieveorset
  atomic hA

theorem atoms_run (d : Desc) : StaysIn R (d.run C) := by
  cases d with
  | retrieveorset n v bv t => exact atoms_retrieveorset hA ..
  | modifyRequest n v bv t => exact atoms_modifyRequest hA ..
  | clear n bv t => exact atoms_genClear hA ..
  | autoSearch n s t => exact atoms_autoSearch hA ..
  | autoBuffer n s t => exact atoms_autoBuffer hA ..
  | visualContinue n c bv t ts s => exact atoms_visualcontinue hA ..
  | motorContinue n k t pr => exact atoms_motorcontinue hA ..

/-! ## The procedural module -/

theorem atoms_queue (w : Mach) (n : String) (d : Desc) : R w (w.queue n d) := hA.other _ _ rfl rfl rfl rfl rfl rfl id

theorem atoms_harvest (t : ℚ) : ∀ l w, R w (harvestAll t l w)
  | [], w => hA.refl w
  | n :: r, w => by
    unfold harvestAll
    refine hA.trans _ _ _ ?_ (atoms_harvest t r _)
    split
    · exact atoms_queue hA w n _
    · exact hA.refl w

theorem atoms_updateLoop (t : ℚ) : ∀ l temp, StaysIn R (updateLoop C t l temp)
  | [], temp => stays_pure hA
  | (k, v) :: r, temp => by
    unfold updateLoop
    refine stays_bind hA (stays_act fun w => ?_) fun _ => ?_
    · split <;> exact hA.refl _
    refine stays_bind hA (stays_get hA) fun bv => stays_bind hA (stays_set fun _ => atoms_setState hA) fun _ => ?_
    have hrest := atoms_updateLoop t r (temp.popVar k.name)
    dsimp only
    split
    · exact stays_bind hA (stays_set fun w => atoms_queue hA w _ _) fun _ => hrest
    · exact stays_bind hA (atoms_immediate hA k v bv t) fun _ => hrest

theorem atoms_rhs (n : String) (rule : CRule) (t : ℚ) : StaysIn R (genRhs C n rule t) := by
  unfold genRhs
  refine stays_bind hA (stays_lift hA) fun rhs => stays_bind hA ?_ fun _ => stays_set fun w => ?_
  · unfold genUpdate
    refine stays_bind hA (stays_get hA) fun temp => stays_bind hA (stays_lift hA) fun sorted => stays_bind hA (atoms_updateLoop hA t _ _) fun left => stays_set fun w => ?_
    split
    · exact atoms_harvest hA t _ w
    · exact hA.refl w
  · split
    · split <;> exact hA.other _ _ rfl rfl rfl rfl rfl rfl id
    · exact hA.other _ _ rfl rfl rfl rfl rfl rfl id

theorem atoms_fire (n : String) (rule : CRule) (t : ℚ) : StaysIn R (genFire C n rule t) := by
  unfold genFire
  refine stays_bind hA (stays_set fun w => hA.reward _ _ _) fun _ => stays_bind hA (stays_act fun w => hA.compile w) fun comp => stays_bind hA (stays_set fun w => hA.other _ _ rfl rfl rfl rfl rfl rfl id) fun _ => ?_
  have hrest : StaysIn R (do .set (fun w => { w with curSlots := w.noSlots }); .event t procName (.fired n); genRhs C n rule t : GenM Unit) :=
    stays_bind hA (stays_set fun w => hA.other _ _ rfl rfl rfl rfl rfl rfl id) fun _ => stays_bind hA (stays_event hA) fun _ => atoms_rhs hA n rule t
  dsimp only
  rcases comp with _ | ⟨m, re⟩
  · exact hrest
  · exact stays_bind hA (stays_event hA) fun _ => hrest

theorem atoms_procedural (t : ℚ) : StaysIn R (genProcedural C t) := by
  unfold genProcedural
  refine stays_bind hA (stays_set fun w => hA.other _ _ rfl rfl rfl rfl rfl rfl id) fun _ => stays_bind hA (stays_event hA) fun _ => stays_bind hA (stays_act fun w => ?_) fun sel => ?_
  · unfold selectIn
    dsimp only
    split
    · exact hA.other _ _ rfl rfl rfl rfl rfl rfl id
    · exact hA.other _ _ rfl rfl rfl rfl rfl rfl id
    · split <;> exact hA.other _ _ rfl rfl rfl rfl rfl rfl id
  have hlast : StaysIn R (GenM.yield .procs) := stays_yield hA
  dsimp only
  rcases sel with _ | ⟨n, rule⟩
  · exact stays_bind hA (stays_set fun w => hA.other _ _ rfl rfl rfl rfl rfl rfl id) fun _ => stays_bind hA (stays_event hA) fun _ => hlast
  · refine stays_bind hA ?_ fun _ => hlast
    unfold genSelected
    refine stays_bind hA (stays_set fun w => hA.other _ _ rfl rfl rfl rfl rfl rfl id) fun _ => stays_bind hA (stays_event hA) fun _ => stays_bind hA (stays_event hA) fun _ => ?_
    unfold genTest
    refine stays_bind hA (stays_lift hA) fun lhs => stays_bind hA (stays_act fun w => hA.refl w) fun m => ?_
    cases m with
    | none => exact stays_event hA
    | some bv => exact stays_bind hA (stays_set fun w => hA.other _ _ rfl rfl rfl rfl rfl rfl id) fun _ => atoms_fire hA n rule _

omit hA in
/-- What holds for the few things that are done holds for whole simulations. -/
theorem Atoms.regime (hA : Atoms C G R) : Regime C R where
  refl := hA.refl
  trans := hA.trans
  run d w := (atoms_run hA.toQuanta d).moves w
  procedural t w := (atoms_procedural hA.toQuanta t).moves w
  light w procs inter env k := hA.trans _ { w with env := env } _ (hA.environ w env) (hA.other _ _ rfl rfl rfl rfl rfl rfl id)
  compile := hA.compile

end Verif
