import Verif.Model.Procedural
import Verif.Model.Environment
/-! # What raises no exception of simpy -/
namespace Verif

variable {A B : Type}

/-- Exceptions that only simpy raises: by interruptions, and when events are triggered twice or processes interrupted that have ended. -/
class Foreign (err : PyErr) : Prop where
  out : err = .interrupt ∨ err = .runtime

instance : Foreign .interrupt := ⟨.inl rfl⟩
instance : Foreign .runtime := ⟨.inr rfl⟩

variable {err : PyErr} [Foreign err]

theorem foreign_ne {e : PyErr} (h1 : e ≠ .interrupt) (h2 : e ≠ .runtime) : e ≠ err := fun h => by
  subst h
  rcases Foreign.out (err := e) with h | h
  · exact h1 h
  · exact h2 h

/-- The result is not the exception `err`. -/
class Blameless (err : PyErr) (x : Except PyErr A) : Prop where
  out : x ≠ .error err

omit [Foreign err] in
theorem blameless_error {e : PyErr} (h : e ≠ err) : Blameless err (.error e : Except PyErr A) := ⟨fun h' => h (by cases h'; rfl)⟩
omit [Foreign err] in
instance blameless_ok {a : A} : Blameless err (.ok a : Except PyErr A) := ⟨by simp⟩
instance : Blameless err (.error .actr : Except PyErr A) := blameless_error (foreign_ne (by decide) (by decide))
instance : Blameless err (.error .unboundLocal : Except PyErr A) := blameless_error (foreign_ne (by decide) (by decide))
instance : Blameless err (.error .key : Except PyErr A) := blameless_error (foreign_ne (by decide) (by decide))
instance : Blameless err (.error .type : Except PyErr A) := blameless_error (foreign_ne (by decide) (by decide))
instance : Blameless err (.error .value : Except PyErr A) := blameless_error (foreign_ne (by decide) (by decide))
instance : Blameless err (.error .attribute : Except PyErr A) := blameless_error (foreign_ne (by decide) (by decide))
instance : Blameless err (.error .index : Except PyErr A) := blameless_error (foreign_ne (by decide) (by decide))
instance : Blameless err (.error .runtimeWarning : Except PyErr A) := blameless_error (foreign_ne (by decide) (by decide))
instance : Blameless err (.error .zeroDivision : Except PyErr A) := blameless_error (foreign_ne (by decide) (by decide))
instance : Blameless err (.error .assertion : Except PyErr A) := blameless_error (foreign_ne (by decide) (by decide))
theorem blameless_ne {x : Except PyErr A} {e : PyErr} (h : x = .error e) (hx : Blameless err x) : e ≠ err := fun he => hx.out (by rw [h, he])
theorem blameless_eq {x : Except PyErr A} {e : PyErr} (h : x = .error e) (hx : Blameless err x) : Blameless err (.error e : Except PyErr B) := blameless_error (blameless_ne h hx)
theorem blameless_pair {W : Type} {p : W × Except PyErr A} {w : W} {e : PyErr} (h : p = (w, .error e)) (hx : Blameless err p.2) : Blameless err (.error e : Except PyErr B) := by
  rw [h] at hx; exact blameless_eq rfl hx
theorem blameless_bind {x : Except PyErr A} {f : A → Except PyErr B} (hx : Blameless err x) (hf : ∀ a, Blameless err (f a)) : Blameless err (x.bind f) := by
  cases x with
  | error e => exact blameless_eq rfl hx
  | ok a => exact hf a
instance {x : Except PyErr A} {f : A → B} [hx : Blameless err x] : Blameless err (x.map f) := by
  cases x with
  | error e => exact blameless_eq rfl hx
  | ok a => exact blameless_ok

/-- Goes through the branches of a function. -/
macro "blame" : tactic => `(tactic| repeat' first
  | infer_instance
  | assumption
  | (apply blameless_eq; assumption; first | infer_instance | solve_by_elim)
  | (apply blameless_pair; assumption; first | infer_instance | solve_by_elim)
  | solve_by_elim
  | (refine blameless_bind ?_ ?_)
  | intro _
  | dsimp only
  | split)

/-! ## Chunks -/

instance {s : String} : Blameless err (stringsplitting s) := by unfold stringsplitting; blame
instance {O : SetOrder} {s : String} : Blameless err (parseSlot O s) := by unfold parseSlot; blame
instance {E : PyEnv} {a : SlotArg} : Blameless err (a.convert E) := by unfold SlotArg.convert; blame
instance {E : PyEnv} {l : List (String × SlotArg)} : Blameless err (convertAll E l) := by
  induction l with
  | nil => unfold convertAll; blame
  | cons p r ih => unfold convertAll; blame
instance {f : List String} {kw : Slots} : Blameless err (buildSlots f kw) := by unfold buildSlots; blame
instance {reg : Reg} {f i l : List String} : Blameless err (inheritLoop reg f i l) := by
  induction l generalizing f i with
  | nil => unfold inheritLoop; blame
  | cons p r ih => unfold inheritLoop; blame
instance {E : PyEnv} {reg : Reg} {n : String} {f : FieldArg} {i : List String} : Blameless err (chunktype E reg n f i) := by unfold chunktype; blame
instance {E : PyEnv} {reg : Reg} {t : String} {d : List (String × SlotArg)} : Blameless err (createChunk E reg t d).2 := by unfold createChunk; blame

instance {a b : Val} : Blameless err (joinDesc a b) := by unfold joinDesc; blame
instance {H : PyHash} {st : CbvState} : Blameless err (cbvCombine H st) := by unfold cbvCombine; blame
instance {bv : BV} {x : VarVal} {st : CbvState} : Blameless err (cbvVars bv x st) := by unfold cbvVars; blame
instance {H : PyHash} {b : Bool} {x : VarVal} {st : CbvState} : Blameless err (cbvNegvalues H b x st) := by unfold cbvNegvalues; blame
instance {H : PyHash} {bv : BV} {b : Bool} {n : List Val} {l : List String} : Blameless err (cbvNegLoop H bv b n l) := by
  induction l generalizing n with
  | nil => unfold cbvNegLoop; blame
  | cons y r ih =>
    unfold cbvNegLoop
    split
    · exact ih
    · exact blameless_error (foreign_ne (by cases b <;> decide) (by cases b <;> decide))
instance {H : PyHash} {bv : BV} {b : Bool} {x : VarVal} {st : CbvState} : Blameless err (cbvNegvars H bv b x st) := by unfold cbvNegvars; blame
instance {P : Py} {st : CbvState} : Blameless err (cbvFinish P st) := by unfold cbvFinish; blame
instance {P : Py} {bv : BV} {b : Bool} {s : Slot} : Blameless err (checkBoundVars P bv b s) := by unfold checkBoundVars; blame
instance {P : Py} {bv : BV} {b : Bool} {l : List (String × VarVal)} : Blameless err (resolveAll P bv b l) := by
  induction l with
  | nil => unfold resolveAll; blame
  | cons p r ih => unfold resolveAll; blame
instance {P : Py} {bv : BV} {b : Bool} {reg : Reg} {c : Chunk} : Blameless err (resolveChunk P bv b reg c).2 := by unfold resolveChunk; blame
instance {c : Chunk} {n : String} : Blameless err (slotValue c n) := by unfold slotValue; blame

/-! ## Buffers and memories -/

instance {st : BState} {e : Option Chunk} : Blameless err (st.bufferAdd e).2 := by unfold BState.bufferAdd; blame
instance {P : Py} {k : BufKind} {st : BState} {t : ℚ} {h : Option ℕ} : Blameless err (st.clear P k t h).2 := by unfold BState.clear; blame
instance {P : Py} {k : BufKind} {st : BState} {e : Option Chunk} {t : ℚ} {h : Option ℕ} : Blameless err (st.add P k e t h).2 := by unfold BState.add; blame
instance {P : Py} {st : BState} {c : Chunk} {bv : BV} : Blameless err (st.modify P c bv).2 := by unfold BState.modify; blame
instance {P : Py} {st : BState} {c : Chunk} {bv : BV} {h : Option ℕ} : Blameless err (st.create P c bv h).2 := by unfold BState.create; blame
instance {P : Py} {u : String → String} {reg : Reg} {c : Chunk} {bv : BV} : Blameless err (motorCreate P u reg c bv).2 := by unfold motorCreate; blame

/-! ## Retrieval -/

instance {now : ℚ} {d : ℝ} {l : List ℚ} : Blameless err (logSum now d l) := by unfold logSum; blame
instance {now : ℚ} {d : ℝ} {l : List ℚ} : Blameless err (bllPlain now d l) := by unfold bllPlain; blame
instance {now : ℚ} {d : ℝ} {l : List ℚ} : Blameless err (bllOptimized now d l) := by unfold bllOptimized; blame
instance {now : ℚ} {l : List ℚ} {b : Bool} {d : ℝ} {a : Option ℝ} {o : Bool} : Blameless err (baselevel now l b d a o) := by
  have h : Blameless err (if b then if l = [] then .ok Option.none else if o then bllOptimized now d l else bllPlain now d l else .ok (some 0) : Except PyErr (Option ℝ)) := by blame
  unfold baselevel
  blame
instance {s x : ℝ} : Blameless err (instNoise s x) := by unfold instNoise; blame
instance {H : PyHash} {S : ℝ} {a b : Bool} {bufs : List (String × Option Chunk)} {i : Chunk} {l : List (String × ℝ)} {dm : DecMem} {acc : ℝ} : Blameless err (spreading H S a b bufs i l dm acc).2 := by
  induction l generalizing dm acc with
  | nil => unfold spreading; blame
  | cons p r ih => unfold spreading; blame
instance {H : PyHash} {c : Chunk} {now : ℚ} {f : Chunk → Bool} {l : List (Chunk × List ℚ)} {a : Option Chunk} : Blameless err (symLoop H c now f l a) := by
  induction l generalizing a with
  | nil => unfold symLoop; blame
  | cons p r ih => obtain ⟨c', l⟩ := p; cases l <;> (unfold symLoop; blame)
instance {H : PyHash} {p : RParams} {c : Chunk} {now : ℚ} {bufs : List (String × Option Chunk)} {x : ℝ} {dm : DecMem} {d : Chunk} {l : List ℚ} :
    Blameless err (candidateActivation H p c now bufs x dm d l).2 := by unfold candidateActivation; blame
theorem blameless_subLoop {H : PyHash} {p : RParams} {c : Chunk} {now : ℚ} {f : Chunk → Bool} {bufs : List (String × Option Chunk)} {x : ℕ → ℝ} {e : PyErr} :
    ∀ {l : List (Chunk × List ℚ)} {k : ℕ} {dm : DecMem} {b : Best}, (subLoop H p c now f bufs x k l dm b).2.2 = some e → e ≠ err := by
  intro l
  induction l with
  | nil => intro k dm b h; unfold subLoop at h; cases h
  | cons y r ih =>
    intro k dm b h
    unfold subLoop at h
    split at h
    · exact ih h
    · split at h
      · rename_i hc
        cases h
        have := (inferInstance : Blameless err (candidateActivation H p c now bufs (x k) dm y.1 y.2).2)
        rw [hc] at this
        exact blameless_ne rfl this
      · exact ih h
      · exact ih h
instance {P : Py} {p : RParams} {st : RBuf} {now : ℚ} {c : Chunk} {bv : BV} {bufs : List (String × Option Chunk)} {a : Option Bool} {x : ℕ → ℝ} :
    Blameless err (st.retrieve P p now c bv bufs a x).2 := by
  unfold RBuf.retrieve
  dsimp only
  split
  · blame
  · split
    · split
      · rename_i h
        have h' := congrArg (fun x => x.2.2) h
        exact blameless_error (blameless_subLoop h')
      · blame
    · blame

/-! ## Vision and the environment -/

instance {P : Py} {reg : Reg} {s : Stim} {b : Bool} : Blameless err (locChunk P reg s b).2 := by unfold locChunk; blame
instance {H : PyHash} {sl : Slot} {s : Stim} : Blameless err (textOk H sl s) := by unfold textOk; blame
instance {f : String → Option ℤ} {sl : Slot} {p : ℤ} : Blameless err (relOk f sl p) := by unfold relOk; blame
instance {c : Chunk} {n : String} : Blameless err (searchSlot c n) := by unfold searchSlot; blame
instance {F : FindCfg} {x y v : Slot} {cur : Option (ℤ × ℤ)} {s : Stim} : Blameless err (examine F x y v cur s) := by unfold examine; blame
instance {F : FindCfg} {x y v : Slot} {reg : Reg} {st : FindSt} {sc : Screen} : Blameless err (findLoop F x y v reg st sc).2 := by
  induction sc generalizing reg st with
  | nil => unfold findLoop; blame
  | cons p r ih => unfold findLoop; blame
instance {P : Py} {f : String → Option ℤ} {reg : Reg} {c : Chunk} {bv : BV} {a : Option Bool} {n : ℕ} {l : List Stim} {q : ℚ × ℚ} {sc : Option Screen} :
    Blameless err (visFind P f reg c bv a n l q sc).2 := by unfold visFind; blame
instance {P : Py} {l r : List Stim} {q : ℚ × ℚ} {reg : Reg} {b : Option (Chunk × Stim × ℚ)} : Blameless err (autoLoop P l q reg b r).2 := by
  induction r generalizing reg b with
  | nil => unfold autoLoop; blame
  | cons p r ih => unfold autoLoop; blame
instance {P : Py} {reg : Reg} {l r : List Stim} {q : ℚ × ℚ} : Blameless err (autoSearch P reg l q r).2 := by unfold autoSearch; blame
instance {P : Py} {reg : Reg} {s : Stim} {c : Option VarVal} : Blameless err (visChunk P reg s c).2 := by unfold visChunk; blame
instance {C : Cfg} {v : Val} {n : String} : Blameless err (coordinate C v n) := by unfold coordinate; blame
instance {C : Cfg} {m : List (String × VarVal)} {sc : Screen} {a : Option Stim} : Blameless err (shiftTarget C m sc a) := by
  induction sc generalizing a with
  | nil => unfold shiftTarget; blame
  | cons p r ih => unfold shiftTarget; blame

instance {b : Bool} {l : List StimItem} : Blameless err (normStims b l) := by
  induction l with
  | nil => unfold normStims; blame
  | cons p r ih => unfold normStims; blame
instance {a : StimArg} : Blameless err a.norm := by unfold StimArg.norm; blame
instance {st : List Screen} {l : List TrigItem} : Blameless err (fitTriggers st l) := by unfold fitTriggers; blame
instance {st : List Screen} {l : List ℚ} : Blameless err (fitTimes st l) := by unfold fitTimes; blame
instance {u : String → String} {a : TrigItem} : Blameless err (normTrigger u a) := by unfold normTrigger; blame
instance {u : String → String} {l : List TrigItem} : Blameless err (normTriggers u l) := by
  induction l with
  | nil => unfold normTriggers; blame
  | cons p r ih => unfold normTriggers; blame
instance {u : String → String} {a : StimArg} {b : TrigArg} {c : EnvTimes} : Blameless err (prepareEnv u a b c) := by unfold prepareEnv; blame

/-! ## Rules -/

instance {b : Option BufFace} {l : List (String × String)} : Blameless err (queryBuffer b l) := by
  induction l with
  | nil => unfold queryBuffer; blame
  | cons p r ih => unfold queryBuffer; blame
instance {H : PyHash} {f : Faces} {k : Key} {v : LVal} {bv : BV} : Blameless err (testCond H f k v bv) := by unfold testCond; blame
instance {H : PyHash} {f : Faces} {l : List (Key × LVal)} {bv : BV} : Blameless err (lhsTest H f l bv) := by
  induction l generalizing bv with
  | nil => unfold lhsTest; blame
  | cons p r ih => unfold lhsTest; blame
instance {p : UParams} {d : ℚ} : Blameless err (utilityDraw p d) := by unfold utilityDraw; blame
instance {l : List (Key × RVal)} : Blameless err (sortRhs l) := by unfold sortRhs; blame
instance {v : RVal} : Blameless err v.asChunk := by unfold RVal.asChunk; blame

/-- The exceptions a rule raises when it is called. -/
structure SoundBody (err : PyErr) (b : Body) : Prop where
  lhs : Blameless err b.lhs
  rhs : Blameless err b.rhs

instance {E : PyEnv} {reg : Reg} {t : String} {d : List (String × SlotArg)} : Blameless err (mkChunk E reg t d) := by unfold mkChunk; blame
instance {E : PyEnv} {n : String} {u : List String} {s : Slot} : Blameless err (renameSlot E n u s) := by unfold renameSlot; blame
instance {P : Py} {m : List (String × String)} {v : List (String × Val)} {s : Slot} : Blameless err (substSlot P m v s) := by unfold substSlot; blame

section
variable {f : Slot → Except PyErr VarVal} {E : PyEnv} {reg : Reg} {k : Key}

theorem blameless_mapSlots (hf : ∀ s, Blameless err (f s)) {l : Slots} : Blameless err (mapSlots f l) := by
  induction l with
  | nil => unfold mapSlots; blame
  | cons p r ih => unfold mapSlots; blame
theorem blameless_mapChunk (hf : ∀ s, Blameless err (f s)) {c : Chunk} : Blameless err (mapChunk E reg f c) := by
  have := blameless_mapSlots hf (l := c.slots)
  unfold mapChunk; blame
theorem blameless_mapLVal (hf : ∀ s, Blameless err (f s)) {v : LVal} : Blameless err (mapLVal E reg f k v) := by
  have := fun c => blameless_mapChunk (E := E) (reg := reg) hf (c := c)
  unfold mapLVal; blame
theorem blameless_mapRVal (hf : ∀ s, Blameless err (f s)) {v : RVal} : Blameless err (mapRVal E reg f k v) := by
  have := fun c => blameless_mapChunk (E := E) (reg := reg) hf (c := c)
  unfold mapRVal; blame
theorem blameless_mapEntries {α : Type} {f : Key → α → Except PyErr α} (hf : ∀ k v, Blameless err (f k v)) {l : List (Key × α)} : Blameless err (mapEntries f l) := by
  induction l with
  | nil => unfold mapEntries; blame
  | cons p r ih => unfold mapEntries; blame
theorem sound_mapBody (hf : ∀ s, Blameless err (f s)) {b : Body} (h : SoundBody err b) : SoundBody err (mapBody E reg f b) :=
  ⟨blameless_bind h.lhs fun _ => blameless_mapEntries fun _ _ => blameless_mapLVal hf, blameless_bind h.rhs fun _ => blameless_mapEntries fun _ _ => blameless_mapRVal hf⟩
end

instance {P : Py} {d l : Slots} {st : MatchSt} : Blameless err (matchDict P d l st) := by
  induction l generalizing st with
  | nil => unfold matchDict; blame
  | cons p r ih => unfold matchDict; blame
instance {P : Py} {l : List (Key × LVal)} {t sv : SlotVals} {st : MatchSt} : Blameless err (matchRules P l t sv st) := by
  induction l generalizing t sv st with
  | nil => unfold matchRules; blame
  | cons p r ih => unfold matchRules; blame
instance {P : Py} {st : MatchSt} {l : SlotVals} : Blameless err (substSlotVals P st l) := by
  have hs := fun d => blameless_mapSlots (err := err) (f := substSlot P st.matched st.valued) (fun _ => inferInstance) (l := d)
  induction l with
  | nil => unfold substSlotVals; blame
  | cons p r ih =>
    obtain ⟨b, i⟩ := p
    cases i <;> (unfold substSlotVals; blame)
instance {s l : Slots} : Blameless err (mergeSlots s l) := by
  induction l with
  | nil => unfold mergeSlots; blame
  | cons p r ih => unfold mergeSlots; blame
instance {E : PyEnv} {reg : Reg} {sv : SlotVals} {o : Option String} {l m : List (Key × LVal)} : Blameless err (collapseLhs1 E reg sv o l m) := by
  induction l generalizing m with
  | nil => unfold collapseLhs1; blame
  | cons p r ih => unfold collapseLhs1; blame
instance {n : String} {l : List (Key × RVal)} : Blameless err (actsOn n l) := by
  induction l with
  | nil => unfold actsOn; blame
  | cons p r ih => unfold actsOn; blame
theorem blameless_collapseLhs2 {E : PyEnv} {reg : Reg} {x : Except PyErr (List (Key × RVal))} (hx : Blameless err x) {sv : SlotVals} {o : Option String} {l m : List (Key × LVal)} :
    Blameless err (collapseLhs2 E reg x sv o l m) := by
  have hb : ∀ n, Blameless err (x.bind (actsOn n)) := fun n => blameless_bind hx fun _ => inferInstance
  induction l generalizing m with
  | nil => unfold collapseLhs2; blame
  | cons p r ih => unfold collapseLhs2; blame
instance {E : PyEnv} {reg : Reg} {sv : SlotVals} {l : List (Key × RVal)} : Blameless err (collapseRhs2 E reg sv l) := by
  induction l with
  | nil => unfold collapseRhs2; blame
  | cons p r ih => unfold collapseRhs2; blame
instance {E : PyEnv} {reg : Reg} {o : Option String} {l m : List (Key × RVal)} : Blameless err (collapseRhs1 E reg o l m) := by
  induction l generalizing m with
  | nil => unfold collapseRhs1; blame
  | cons p r ih => unfold collapseRhs1; blame
theorem sound_collapse {E : PyEnv} {reg : Reg} {b1 b2 : Body} {sv : SlotVals} {o : Option String} (h1 : SoundBody err b1) (h2 : SoundBody err b2) : SoundBody err (collapse E reg b1 b2 sv o) :=
  ⟨blameless_bind h1.lhs fun _ => blameless_bind h2.lhs fun _ => blameless_bind inferInstance fun _ => blameless_collapseLhs2 h1.rhs,
    blameless_bind h1.rhs fun _ => blameless_bind h2.rhs fun _ => blameless_bind inferInstance fun _ => inferInstance⟩

theorem sound_rename {E : PyEnv} {reg : Reg} {n : String} {u : List String} {b : Body} (h : SoundBody err b) : SoundBody err (renameBody E reg n u b) := sound_mapBody (fun _ => inferInstance) h
theorem sound_subst {P : Py} {reg : Reg} {m : List (String × String)} {v : List (String × Val)} {b : Body} (h : SoundBody err b) : SoundBody err (substBody P reg m v b) := sound_mapBody (fun _ => inferInstance) h

instance {o : String × String} {v : LVal} : Blameless err (v.isDict o) := by unfold LVal.isDict; blame
theorem blameless_anyKey {α : Type} {f : Key → α → Except PyErr Bool} (hf : ∀ k v, Blameless err (f k v)) {l : List (Key × α)} : Blameless err (anyKey f l) := by
  induction l with
  | nil => unfold anyKey; blame
  | cons p r ih => unfold anyKey; blame
instance {b : Bool} {n : String} {k : Key} {v : LVal} : Blameless err (unsafeCond b n k v) := by unfold unsafeCond; blame
instance {n : String} {k : Key} {v : LVal} : Blameless err (errorCond n k v) := by unfold errorCond; blame
instance {bufs : List (String × CBuf)} {l : List (Key × LVal)} {r : List (Key × RVal)} {k : Key} : Blameless err (unsafeKey bufs l r k) := by
  have h1 := fun b n => blameless_anyKey (err := err) (f := unsafeCond b n) (fun _ _ => inferInstance) (l := l)
  have h2 := fun n => blameless_anyKey (err := err) (f := errorCond n) (fun _ _ => inferInstance) (l := l)
  unfold unsafeKey; blame
theorem blameless_check {bufs : List (String × CBuf)} {b1 b2 : Body} (h1 : SoundBody err b1) (h2 : SoundBody err b2) : Blameless err (checkCompilation bufs b1 b2) :=
  blameless_bind h1.lhs fun _ => blameless_bind h1.rhs fun _ => blameless_bind h2.lhs fun _ => blameless_bind h2.rhs fun _ => blameless_anyKey fun _ _ => inferInstance
instance {bufs : List (String × CBuf)} {l : SlotVals} {sc : Scan} : Blameless err (scanSlotVals bufs l sc) := by
  induction l generalizing sc with
  | nil => unfold scanSlotVals; blame
  | cons p r ih =>
    obtain ⟨b, i⟩ := p
    cases i <;> (unfold scanSlotVals; blame)
theorem blameless_dictEq {α : Type} {f : α → α → Except PyErr Bool} (hf : ∀ a b, Blameless err (f a b)) {a b : List (Key × α)} : Blameless err (dictEq f a b) := by
  have hg : ∀ l, Blameless err (dictEq.go f b l) := by
    intro l
    induction l with
    | nil => unfold dictEq.go; blame
    | cons p r ih => unfold dictEq.go; blame
  unfold dictEq; blame
instance {H : PyHash} {a b : LVal} : Blameless err (a.eq H b) := by unfold LVal.eq; blame
instance {H : PyHash} {a b : RVal} : Blameless err (a.eq H b) := by unfold RVal.eq; blame
theorem blameless_bodyEq {H : PyHash} {a b : Body} (h1 : SoundBody err a) (h2 : SoundBody err b) : Blameless err (bodyEq H a b) :=
  blameless_bind h1.lhs fun _ => blameless_bind h2.lhs fun _ => blameless_bind (blameless_dictEq fun _ _ => inferInstance) fun e => by
    cases e
    · exact blameless_ok
    · exact blameless_bind h1.rhs fun _ => blameless_bind h2.rhs fun _ => blameless_dictEq fun _ _ => inferInstance

section
variable {P : Py} {reg : Reg} {n : String} {b1 b2 : Body} {sv : SlotVals} {bufs : List (String × CBuf)}

theorem blameless_newRule (h1 : SoundBody err b1) (h2 : SoundBody err b2) : Blameless err (newRule P reg n b1 b2 sv bufs) := by
  unfold newRule
  refine blameless_bind (blameless_check h1 h2) fun stop => ?_
  split
  · exact blameless_ok
  · refine blameless_bind inferInstance fun sc => ?_
    split
    · exact blameless_ok
    · exact blameless_bind (sound_rename h2).lhs fun _ => blameless_bind inferInstance fun _ => inferInstance
theorem sound_newRule {new : Body} (h1 : SoundBody err b1) (h2 : SoundBody err b2) (h : newRule P reg n b1 b2 sv bufs = .ok (some new)) : SoundBody err new := by
  unfold newRule at h
  cases hc : checkCompilation bufs b1 b2 with
  | error e => rw [hc] at h; cases h
  | ok stop =>
    rw [hc] at h
    cases stop with
    | true => cases h
    | false =>
      cases hs : scanSlotVals bufs sv ⟨[], Option.none⟩ with
      | error e => simp only [Except.bind, hs] at h; cases h
      | ok sc =>
        cases sc with
        | none => simp only [Except.bind, hs] at h; cases h
        | some sc =>
          simp only [Except.bind, hs] at h
          cases hl : (renameBody P.toPyEnv reg n sc.used b2).lhs with
          | error e => simp only [hl] at h; cases h
          | ok l2 =>
            simp only [hl] at h
            cases hx : matchRules P l2 sv sv ⟨[], []⟩ with
            | error e => simp only [hx] at h; cases h
            | ok x =>
              simp only [hx] at h
              cases hv : substSlotVals P x.2 x.1 with
              | error e => simp [hv, Except.map] at h
              | ok sv'' =>
                simp [hv, Except.map] at h
                rw [← h]
                exact sound_collapse (sound_subst h1) (sound_subst (sound_rename h2))
end

end Verif
