import Verif.Lemmas.Copy
import Verif.Lemmas.ExSim
import Verif.Props.BoundVars
/-!
# Property C86: copies of memories and buffers

`h` ranges over everything a program can have made of its memories and buffers so far, by any calls, successful or failing.
-/
namespace Verif.Props
open Verif Verif.Spec

/-- The whole of C86, as the comment in `DecMemBuffer.copy` has it: the buffer is copied along with its declarative memory, so nothing
that is done to the copy changes the memory of the original. -/
def C86_full : Prop := ∀ (P : Py) (reg : Reg) (ops : List HOp) (i j : ℕ) (b : HBuf) (o : HBufOp),
  ((Heap.init reg).run P ops).bufs[i]? = some b → b.retr = true → b.dm = some j →
  ((((Heap.init reg).run P ops).step P (.copyBuf i Option.none)).step P (.buf ((Heap.init reg).run P ops).bufs.length o)).mems[j]? =
    ((Heap.init reg).run P ops).mems[j]?

/-- And the copy is set up like the original. -/
def C86_full_settings : Prop := ∀ (P : Py) (reg : Reg) (ops : List HOp) (i : ℕ) (b : HBuf),
  ((Heap.init reg).run P ops).bufs[i]? = some b →
  settings (((Heap.init reg).run P ops).step P (.copyBuf i Option.none)) ((Heap.init reg).run P ops).bufs.length =
    settings ((Heap.init reg).run P ops) i

/-- A memory, and a retrieval buffer with the chunk `press A` in it. -/
def exHeld : List HOp := [.newMem, .newBuf true (some 0), .buf 0 (.add (some (exPress "A")) 0), .buf 0 (.tune 0 3 [] Option.none)]

/-- C86 is false: the copy has the memory of the original; when the copy is cleared, its chunk turns up there. -/
theorem C86_refuted : ¬ C86_full := by
  intro h
  have h1 := h (exPy exHash) [] exHeld 0 0 ⟨true, 1, some 0, 0, 3, [], Option.none⟩ (.clear 1) rfl rfl rfl
  have h2 := congrArg (fun m : Option DecMem => m.map (fun m => m.data.length)) h1
  revert h2
  decide +kernel

/-- Nor is it set up like the original: it remembers no retrieved chunks. -/
theorem C86_settings_refuted : ¬ C86_full_settings := by
  intro h
  have h1 := h (exPy exHash) [] exHeld 0 ⟨true, 1, some 0, 0, 3, [], Option.none⟩ rfl
  have h2 := congrArg (fun m : Option (ℚ × ℕ × Option ℕ) => m.map (fun m => m.2.1)) h1
  revert h2
  decide +kernel

theorem content_step {P : Py} {h : Heap} (A : OwnSets P.H h) {i : ℕ} (hi : i < h.bufs.length) (o : HOp) (ho : ¬ OnBuf i o) :
    contentAt (h.step P o) i = contentAt h i ∧ i < (h.step P o).bufs.length := by
  obtain ⟨b, hb⟩ : ∃ b, h.bufs[i]? = some b := ⟨_, List.getElem?_eq_getElem hi⟩
  have snoc : ∀ (c : List Chunk) (d : HBuf),
      contentAt { h with sets := h.sets ++ [c], bufs := h.bufs ++ [d] } i = contentAt h i ∧ i < (h.bufs ++ [d]).length := by
    intro c d
    refine ⟨?_, by simp; omega⟩
    simp only [contentAt]
    rw [List.getElem?_append_left hi, hb]
    simp only [Option.map_some]
    rw [getD_append (A.lt i b hb)]
  cases o with
  | newMem => exact ⟨rfl, hi⟩
  | copyMem j =>
    simp only [Heap.step]
    cases h.mems[j]? <;> exact ⟨rfl, hi⟩
  | mem j o => exact ⟨rfl, hi⟩
  | newBuf r dm => exact snoc _ _
  | copyBuf k dm =>
    simp only [Heap.step]
    cases h.bufs[k]? with
    | none => exact ⟨rfl, hi⟩
    | some d => exact snoc _ _
  | buf k o =>
    simp only [Heap.step]
    cases hk : h.bufs[k]? with
    | none => exact ⟨rfl, hi⟩
    | some d =>
      have hne : i ≠ k := fun hik => ho hik.symm
      have m := moved_step (P := P) hk (A.lt k d hk) o
      refine ⟨?_, by rw [m.len]; exact hi⟩
      simp only [contentAt]
      rw [m.others i hne, hb]
      simp only [Option.map_some]
      rw [(m.sets b.set (A.lt i b hb) (fun hs => hne (A.inj i k b d hb hk hs))).2]
  | setDm k dm =>
    simp only [Heap.step]
    cases hk : h.bufs[k]? with
    | none => exact ⟨rfl, hi⟩
    | some d =>
      refine ⟨?_, by simpa using hi⟩
      simp only [contentAt, List.getElem?_set]
      by_cases hik : k = i
      · subst hik; rw [hb] at hk; cases hk; rw [if_pos rfl, if_pos hi, hb]; rfl
      · simp [hik]

theorem content_run {P : Py} : ∀ (ops : List HOp) {h : Heap}, OwnSets P.H h → ∀ {i : ℕ}, i < h.bufs.length → (∀ o ∈ ops, ¬ OnBuf i o) →
    contentAt (h.run P ops) i = contentAt h i
  | [], _, _, _, _, _ => rfl
  | o :: r, h, A, i, hi, ho => by
    obtain ⟨h1, h2⟩ := content_step A hi o (ho o (by simp))
    rw [← h1]
    exact content_run r (own_step A o) h2 (fun q hq => ho q (by simp [hq]))

theorem memory_step {P : Py} {h : Heap} (A : OwnSets P.H h) {j : ℕ} (hj : j < h.mems.length) (o : HOp) (ho : ¬ Reaches h j o) :
    (h.step P o).mems[j]? = h.mems[j]? := by
  cases o with
  | newMem => simp [Heap.step, List.getElem?_append_left hj]
  | copyMem k =>
    simp only [Heap.step]
    cases h.mems[k]? <;> simp [List.getElem?_append_left hj]
  | mem k o =>
    have : k ≠ j := ho
    simp [Heap.step, List.getElem?_modify, this]
  | newBuf r dm => rfl
  | copyBuf k dm =>
    simp only [Heap.step]
    cases h.bufs[k]? <;> rfl
  | setDm k dm =>
    simp only [Heap.step]
    cases h.bufs[k]? <;> rfl
  | buf k o =>
    simp only [Heap.step]
    cases hk : h.bufs[k]? with
    | none => rfl
    | some d =>
      obtain ⟨e, _, _, _, _, _, hv⟩ := (moved_step (P := P) hk (A.lt k d hk) o).mine
      have hd : (h.view d).dm ≠ some j := by
        intro hd; apply ho; simp only [Reaches, memoryOf, hk]; exact hd
      have := congrArg BState.mems hv
      show (Heap.bufStep P h k d o).1.mems[j]? = _
      have e1 : (Heap.bufStep P h k d o).1.mems = (aloneStep P d.kind (h.view d) o).1.mems := this
      rw [e1, alone_frame o hd]
      rfl

theorem memory_run {P : Py} : ∀ (ops : List HOp) {h : Heap}, OwnSets P.H h → ∀ {j : ℕ} {m : DecMem}, h.mems[j]? = some m → Spares P j h ops →
    (h.run P ops).mems[j]? = some m
  | [], _, _, _, _, hm, _ => hm
  | o :: r, h, A, j, m, hm, hs =>
    memory_run r (own_step A o) ((memory_step A (List.getElem?_eq_some_iff.mp hm).1 o hs.1).trans hm) hs.2

/-- C86 for memories, without restriction: a copied memory holds what the original holds, with the same times, activations and counters;
and whatever is done afterwards that does not reach the original through itself or one of its buffers leaves it as it is. The same
holds of the copy. -/
theorem C86_memory (P : Py) (reg : Reg) (ops more : List HOp) (j : ℕ) (m : DecMem)
    (hm : ((Heap.init reg).run P ops).mems[j]? = some m) :
    let h := ((Heap.init reg).run P ops)
    let h' := h.step P (.copyMem j)
    h'.mems[h.mems.length]? = some m ∧ h'.mems[j]? = some m ∧ h'.bufs = h.bufs ∧ h'.sets = h.sets ∧
    (Spares P j h' more → (h'.run P more).mems[j]? = some m) ∧
    (Spares P h.mems.length h' more → (h'.run P more).mems[h.mems.length]? = some m) := by
  intro h h'
  have A : OwnSets P.H h := own_run ops (own_init reg)
  have e : h' = { h with mems := h.mems ++ [m] } := by
    show h.step P (.copyMem j) = _
    simp only [Heap.step]
    rw [show h.mems[j]? = some m from hm]
    simp only [copy_eq (A.keys m (List.mem_of_getElem? hm))]
  have A' : OwnSets P.H h' := own_step A _
  have h1 : h'.mems[h.mems.length]? = some m := by rw [e]; simp
  have h2 : h'.mems[j]? = some m := by
    rw [e]; simp only; rw [List.getElem?_append_left (List.getElem?_eq_some_iff.mp hm).1]; exact hm
  exact ⟨h1, h2, by rw [e], by rw [e], memory_run more A' h2, memory_run more A' h1⟩

/-- The part of C86 that holds for buffers: a copied buffer holds what the original holds, and nothing that is done to other buffers ever
changes what a buffer holds; so the copy and the original go their own ways. The copy has the memory that is given, or else the one of the
original, and the settings of a new buffer. All memories are as before. -/
theorem C86_partial (P : Py) (reg : Reg) (ops more : List HOp) (i : ℕ) (b : HBuf) (dm : Option ℕ)
    (hb : ((Heap.init reg).run P ops).bufs[i]? = some b) :
    let h := ((Heap.init reg).run P ops)
    let h' := h.step P (.copyBuf i dm)
    contentAt h' h.bufs.length = contentAt h i ∧ settings h' h.bufs.length = some (0, 0, dm.or b.dm) ∧ h'.mems = h.mems ∧
    (∀ k, k < h.bufs.length → contentAt h' k = contentAt h k ∧ settings h' k = settings h k) ∧
    ((∀ o ∈ more, ¬ OnBuf i o) → contentAt (h'.run P more) i = contentAt h i) ∧
    ((∀ o ∈ more, ¬ OnBuf h.bufs.length o) → contentAt (h'.run P more) h.bufs.length = contentAt h i) := by
  intro h h'
  have A : OwnSets P.H h := own_run ops (own_init reg)
  have e : h' = h.copyBuf b dm := by
    show h.step P (.copyBuf i dm) = _
    simp only [Heap.step]
    rw [show h.bufs[i]? = some b from hb]
  have A' : OwnSets P.H h' := own_step A _
  have hi : i < h.bufs.length := (List.getElem?_eq_some_iff.mp hb).1
  have hl : h'.bufs.length = h.bufs.length + 1 := by rw [e]; simp [Heap.copyBuf]
  have h1 : contentAt h' h.bufs.length = contentAt h i := by
    simp only [contentAt]
    rw [show h.bufs[i]? = some b from hb, e]
    simp only [Heap.copyBuf, List.getElem?_concat_length, Option.map_some]
    rw [getD_snoc]
  have h2 : ∀ k, k < h.bufs.length → contentAt h' k = contentAt h k := fun k hk => (content_step A hk (.copyBuf i dm) (fun hf => hf)).1
  refine ⟨h1, ?_, by rw [e]; rfl, fun k hk => ⟨h2 k hk, ?_⟩, fun ho => ?_, fun ho => ?_⟩
  · simp only [settings]; rw [e]; simp [Heap.copyBuf]
  · simp only [settings]; rw [e]; simp only [Heap.copyBuf]; rw [List.getElem?_append_left hk]
  · rw [content_run more A' (by omega) ho, h2 i hi]
  · rw [content_run more A' (by omega) ho, h1]

theorem alone_run {P : Py} (i : ℕ) : ∀ (os : List HBufOp) {h : Heap}, OwnSets P.H h → ∀ {b : HBuf}, h.bufs[i]? = some b →
    ∃ d, (h.run P (os.map (HOp.buf i))).bufs[i]? = some d ∧
      (h.run P (os.map (HOp.buf i))).view d = os.foldl (fun st o => (aloneStep P b.kind st o).1) (h.view b)
  | [], _, _, b, hb => ⟨b, hb, rfl⟩
  | o :: r, h, A, b, hb => by
    obtain ⟨d, hd, hr, _, _, _, hv⟩ := (moved_step (P := P) hb (A.lt i b hb) o).mine
    have hs : h.step P (.buf i o) = (h.bufStep P i b o).1 := by simp only [Heap.step, hb]
    have A' := own_step A (.buf i o)
    rw [hs] at A'
    obtain ⟨f, hf, hfv⟩ := alone_run i r A' hd
    refine ⟨f, ?_, ?_⟩
    · simp only [List.map_cons, Heap.run, List.foldl_cons] at hf ⊢
      rw [hs]; exact hf
    · simp only [List.map_cons, Heap.run, List.foldl_cons] at hfv ⊢
      rw [hs, hfv, hv]
      have : d.kind = b.kind := by simp only [HBuf.kind, hr]
      rw [this]

/-- A copy without a memory of its own does whatever the original would have done: after the same calls it holds the same, and so do all
memories. -/
theorem C86_alike (P : Py) (reg : Reg) (ops : List HOp) (os : List HBufOp) (i : ℕ) (b : HBuf)
    (hb : ((Heap.init reg).run P ops).bufs[i]? = some b) :
    let h := ((Heap.init reg).run P ops)
    let copied := (h.step P (.copyBuf i Option.none)).run P (os.map (HOp.buf h.bufs.length))
    contentAt copied h.bufs.length = contentAt (h.run P (os.map (HOp.buf i))) i ∧ copied.mems = (h.run P (os.map (HOp.buf i))).mems := by
  intro h copied
  have A : OwnSets P.H h := own_run ops (own_init reg)
  have e : h.step P (.copyBuf i Option.none) = h.copyBuf b Option.none := by
    simp only [Heap.step]
    rw [show h.bufs[i]? = some b from hb]
  have A' : OwnSets P.H (h.copyBuf b Option.none) := by rw [← e]; exact own_step A _
  have hk : (h.copyBuf b Option.none).bufs[h.bufs.length]? = some ⟨b.retr, h.sets.length, b.dm, 0, 0, [], Option.none⟩ := by
    simp [Heap.copyBuf]
  obtain ⟨d, h1, h2⟩ := alone_run h.bufs.length os A' hk
  obtain ⟨f, h3, h4⟩ := alone_run i os A hb
  have hv : (h.copyBuf b Option.none).view ⟨b.retr, h.sets.length, b.dm, 0, 0, [], Option.none⟩ = h.view b := by
    simp only [Heap.view, Heap.copyBuf]; rw [getD_snoc]
  have hkd : (⟨b.retr, h.sets.length, b.dm, 0, 0, [], Option.none⟩ : HBuf).kind = b.kind := rfl
  rw [hv, hkd, ← h4, ← e] at h2
  rw [← e] at h1
  constructor
  · simp only [contentAt]
    rw [show copied.bufs[h.bufs.length]? = some d from h1, h3]
    simp only [Option.map_some]
    exact congrArg some (congrArg BState.data h2)
  · exact congrArg BState.mems h2

/-- An example: a retrieval buffer is copied; the original is cleared and filled again, the copy keeps `press A`. -/
example : let h := (Heap.init []).run (exPy exHash) (exHeld ++ [.copyBuf 0 Option.none, .buf 0 (.clear 1), .buf 0 (.add (some (exPress "B")) 2)])
    (contentAt h 0).map List.length = some 1 ∧ (contentAt h 1).map (List.map (·.slots.length)) = some [(exPress "A").slots.length] ∧
      (h.mems[0]?).map (·.data.length) = some 1 := by
  decide +kernel

/-- An example for memories: the copy of a memory with one chunk, which the buffer then stores in the original again. -/
example : let h := (Heap.init []).run (exPy exHash) (exHeld ++ [.buf 0 (.clear 1), .copyMem 0, .buf 0 (.add (some (exPress "A")) 2), .buf 0 (.clear 3)])
    (h.mems.map (fun m => m.data.map Prod.snd)) = [[[1, 3]], [[1]]] := by
  decide +kernel

end Verif.Props
