import Verif.Spec.ActrModel
import Verif.Lemmas.Match
import Mathlib.Tactic.NormNum
import Mathlib.Tactic.Ring
/-! # C51, C52: the model object -/
namespace Verif.Props
open Verif Verif.Spec

theorem documented_iff (n : String) (v : ParamVal) : Documented n v ↔ (n, v) ∈ modelDefaults := by
  constructor
  · intro h
    cases h <;> norm_num [modelDefaults]
  · intro h
    simp only [modelDefaults, List.mem_cons, List.not_mem_nil, or_false, Prod.mk.injEq] at h
    norm_num at h
    rcases h with h | h | h | h | h | h | h | h | h | h | h | h | h | h | h | h | h | h | h | h | h | h | h | h | h | h | h | h <;>
      (obtain ⟨rfl, rfl⟩ := h; constructor)

theorem alook_none_keys {α : Type} (n : String) (l : List (String × α)) :
    alook n l = Option.none ↔ n ∉ l.map Prod.fst := by
  rw [alook_none_iff]; simp

theorem alook_foldl_aset {α : Type} (g : List (String × α)) (d : List (String × α)) (hg : (g.map Prod.fst).Nodup) (n : String) :
    alook n (g.foldl (fun d p => aset p.1 p.2 d) d) = (alook n g).orElse (fun _ => alook n d) := by
  induction g generalizing d with
  | nil => simp [alook]
  | cons p g ih =>
    obtain ⟨m, a⟩ := p
    simp only [List.map_cons, List.nodup_cons] at hg
    simp only [List.foldl_cons]
    rw [ih _ hg.2, alook_aset]
    by_cases h : n = m
    · subst h
      rw [(alook_none_keys n g).2 hg.1]
      simp [alook]
    · have : m ≠ n := fun e => h e.symm
      simp [alook, h, this]

/-- C52: a parameter that is not documented makes the model raise ACTRError; otherwise every given parameter has the given
value, every other documented parameter its documented default, and there are no other parameters. -/
theorem C52 (given : List (String × ParamVal)) (hnd : (given.map Prod.fst).Nodup) :
    ((∃ n v, (n, v) ∈ given ∧ ¬ ∃ d, Documented n d) → modelParameters given = .error .actr) ∧
    ((∀ n v, (n, v) ∈ given → ∃ d, Documented n d) → ∃ ps, modelParameters given = .ok ps ∧
      (∀ n v, (n, v) ∈ given → alook n ps = some v) ∧
      (∀ n d, Documented n d → n ∉ given.map Prod.fst → alook n ps = some d) ∧
      ∀ n, n ∈ ps.map Prod.fst → ∃ d, Documented n d) := by
  have hdoc : ∀ n, (∃ d, Documented n d) ↔ n ∈ modelDefaults.map Prod.fst := by
    intro n
    simp only [documented_iff, List.mem_map, Prod.exists, exists_and_right, exists_eq_right]
  have hdn : (modelDefaults.map Prod.fst).Nodup := by decide
  constructor
  · rintro ⟨n, v, hm, hn⟩
    rw [hdoc] at hn
    unfold modelParameters
    rw [if_neg]
    intro hall
    rw [List.all_eq_true] at hall
    exact hn (by simpa using hall _ hm)
  · intro hall
    refine ⟨given.foldl (fun d p => aset p.1 p.2 d) modelDefaults, ?_, ?_, ?_, ?_⟩
    · unfold modelParameters
      rw [if_pos]
      rw [List.all_eq_true]
      rintro ⟨n, v⟩ hm
      simpa using (hdoc n).1 (hall n v hm)
    · intro n v hm
      rw [alook_foldl_aset _ _ hnd, alook_of_mem hnd hm]; rfl
    · intro n d hd hn
      rw [alook_foldl_aset _ _ hnd, (alook_none_keys n given).2 hn]
      exact alook_of_mem hdn ((documented_iff n d).1 hd)
    · intro n hn
      by_contra hc
      rw [hdoc] at hc
      have h1 : n ∉ given.map Prod.fst := by
        intro h
        obtain ⟨⟨n', v⟩, hm, rfl⟩ := List.mem_map.1 h
        exact hc ((hdoc _).1 (hall _ v hm))
      have h2 := alook_foldl_aset given modelDefaults hnd n
      rw [(alook_none_keys n given).2 h1, (alook_none_keys n modelDefaults).2 hc] at h2
      exact ((alook_none_keys n _).1 h2) hn

example : modelParameters [("decay", .num 1), ("subsymbolc", .bool true)] = .error .actr := by decide
example : ∃ ps, modelParameters [("decay", .num 1)] = .ok ps ∧ alook "decay" ps = some (.num 1) ∧
    alook "emma" ps = some (.bool true) := ⟨_, rfl, by decide, by decide⟩

/-! ## C51 -/

theorem giveAll_get (d : ℕ) (bs : List (String × ℕ)) (os : List BObj) (i : ℕ) :
    (giveAll d bs os)[i]? = if i ∈ bs.map Prod.snd then (os[i]?).map (fun b => { b with dm := some d }) else os[i]? := by
  induction bs generalizing os with
  | nil => simp [giveAll]
  | cons p bs ih =>
    have : giveAll d (p :: bs) os = giveAll d bs (os.modify p.2 (fun b => { b with dm := some d })) := rfl
    rw [this, ih]
    by_cases h : p.2 = i
    · subst h
      simp only [List.getElem?_modify, List.map_cons, List.mem_cons, true_or, if_true]
      split <;> cases os[p.2]? <;> simp
    · have h' : i ≠ p.2 := fun e => h e.symm
      simp only [List.getElem?_modify, h, if_false, List.map_cons, List.mem_cons, h', false_or, id_map]
      cases os[i]? <;> rfl

theorem giveAll_length (d : ℕ) (bs : List (String × ℕ)) (os : List BObj) : (giveAll d bs os).length = os.length := by
  induction bs generalizing os with
  | nil => rfl
  | cons p bs ih =>
    have : giveAll d (p :: bs) os = giveAll d bs (os.modify p.2 (fun b => { b with dm := some d })) := rfl
    rw [this, ih, List.length_modify]

theorem mem_of_alook {α : Type} {n : String} {a : α} {l : List (String × α)} (h : alook n l = some a) : (n, a) ∈ l := by
  induction l with
  | nil => simp [alook] at h
  | cons p l ih =>
    obtain ⟨m, b⟩ := p
    simp only [alook] at h
    split at h
    · rename_i e; subst e; simp at h; simp [h]
    · exact List.mem_cons_of_mem _ (ih h)

theorem mem_aset {α : Type} {n m : String} {a b : α} {l : List (String × α)} (h : (m, b) ∈ aset n a l) :
    b = a ∨ (m, b) ∈ l := by
  induction l with
  | nil => simp [aset] at h; exact .inl h.2
  | cons p l ih =>
    obtain ⟨k, c⟩ := p
    simp only [aset] at h
    split at h
    · rcases List.mem_cons.1 h with h | h
      · simp at h; exact .inl h.2
      · exact .inr (List.mem_cons_of_mem _ h)
    · rcases List.mem_cons.1 h with h | h
      · exact .inr (by simp [h])
      · exact (ih h).imp id (List.mem_cons_of_mem _)

theorem aset_ne_nil {α : Type} (n : String) (a : α) (l : List (String × α)) : aset n a l ≠ [] := by
  cases l with
  | nil => simp [aset]
  | cons p l => simp only [aset]; split <;> simp

theorem mem_foldl_aset {α : Type} {g d : List (String × α)} {n : String} {a : α}
    (h : (n, a) ∈ g.foldl (fun d p => aset p.1 p.2 d) d) : a ∈ g.map Prod.snd ∨ (n, a) ∈ d := by
  induction g generalizing d with
  | nil => exact .inr h
  | cons p g ih =>
    rcases ih h with h | h
    · exact .inl (by simp only [List.map_cons]; exact List.mem_cons_of_mem _ h)
    · rcases mem_aset h with h | h
      · exact .inl (by simp [h])
      · exact .inr h

theorem alook_foldl_mem {α : Type} {g d : List (String × α)} {n : String} {a : α}
    (h : alook n (g.foldl (fun d p => aset p.1 p.2 d) d) = some a) : a ∈ g.map Prod.snd ∨ alook n d = some a := by
  induction g generalizing d with
  | nil => exact .inr h
  | cons p g ih =>
    rcases ih h with h | h
    · exact .inl (by simp only [List.map_cons]; exact List.mem_cons_of_mem _ h)
    · rw [alook_aset] at h
      split at h
      · exact .inl (by simp at h; simp [h])
      · exact .inr h

theorem alook_foldl_out {α : Type} {g d : List (String × α)} {n : String} (hn : n ∉ g.map Prod.fst) :
    alook n (g.foldl (fun d p => aset p.1 p.2 d) d) = alook n d := by
  induction g generalizing d with
  | nil => rfl
  | cons p g ih =>
    simp only [List.map_cons, List.mem_cons, not_or] at hn
    simp only [List.foldl_cons]
    rw [ih hn.2, alook_aset, if_neg hn.1]

/-- What holds after every history: one memory `d`; the buffers exist; the buffers made by visualBuffer are visual. -/
structure MInv (m : ActrModel) (d : ℕ) : Prop where
  one : m.decmems = [("decmem", d)]
  ne : m.buffers ≠ []
  lt : ∀ n i, (n, i) ∈ m.buffers → i < m.objs.length
  vis : ∀ i, i ∈ m.visbuffers.map Prod.snd → ∃ b, m.objs[i]? = some b ∧ (b.cls = .visual ∨ b.cls = .visualLocation)

/-- The model after `simulation`, up to the visual buffers. -/
def ActrModel.prepared (m : ActrModel) (d : ℕ) : ActrModel :=
  { m with objs := giveAll d m.buffers m.objs ++ [⟨.motor, Option.none⟩], buffers := aset "manual" m.objs.length m.buffers }

theorem usedMems_all {m : ActrModel} {d : ℕ} (h : MInv m d) :
    ∃ r, ({ m with objs := giveAll d m.buffers m.objs } : ActrModel).usedMems = d :: r := by
  obtain ⟨p, bs, hb⟩ : ∃ p bs, m.buffers = p :: bs := by
    cases hb : m.buffers with
    | nil => exact absurd hb h.ne
    | cons p bs => exact ⟨p, bs, rfl⟩
  have hl := h.lt p.1 p.2 (by rw [hb]; simp)
  have hg := giveAll_get d m.buffers m.objs p.2
  rw [if_pos (by rw [hb]; simp), List.getElem?_eq_getElem hl] at hg
  refine ⟨bs.filterMap (fun p => ((giveAll d m.buffers m.objs)[p.2]?).bind BObj.dm), ?_⟩
  unfold ActrModel.usedMems
  simp only
  generalize hO : giveAll d m.buffers m.objs = O at hg ⊢
  rw [hb, List.filterMap_cons_some]
  rw [hg]; rfl

/-- `simulation` never raises, and what it does. -/
theorem sim_eq {m : ActrModel} {d : ℕ} (h : MInv m d) (full : ℕ → Bool) :
    m.simulation full = .ok (
      let m2 := ActrModel.prepared m d
      if m.env = false then m2
      else if m.visbuffers ≠ [] then
        { m2 with buffers := m.visbuffers.foldl (fun bs p => aset p.1 p.2 bs) m2.buffers }
      else { m2 with objs := m2.objs ++ [⟨.visual, some d⟩, ⟨.visualLocation, some d⟩],
                     buffers := aset "visual_location" (m2.objs.length + 1) (aset "visual" m2.objs.length m2.buffers) }) := by
  obtain ⟨r, hr⟩ := usedMems_all h
  have hs : m.harvestSetup full = .ok { m with objs := giveAll d m.buffers m.objs } := by
    unfold ActrModel.harvestSetup; rw [h.one]
  unfold ActrModel.simulation
  rw [hs]
  simp only
  rw [hr]
  cases he : m.env <;> cases hv : m.visbuffers <;> simp [ActrModel.prepared, giveAll_length, he, hv]

theorem sim_inv {m m' : ActrModel} {d : ℕ} (h : MInv m d) (full : ℕ → Bool) (hs : m.simulation full = .ok m') : MInv m' d := by
  have hv1 : ∀ i, i ∈ m.visbuffers.map Prod.snd →
      ∃ b, (ActrModel.prepared m d).objs[i]? = some b ∧ (b.cls = .visual ∨ b.cls = .visualLocation) := by
    intro i hi
    obtain ⟨b, hb, hc⟩ := h.vis i hi
    have hl : i < (giveAll d m.buffers m.objs).length := by
      rw [giveAll_length]; exact (List.getElem?_eq_some_iff.1 hb).1
    simp only [ActrModel.prepared]
    rw [List.getElem?_append_left hl, giveAll_get, hb]
    split
    · exact ⟨_, rfl, hc⟩
    · exact ⟨_, rfl, hc⟩
  have hl1 : ∀ n i, (n, i) ∈ (ActrModel.prepared m d).buffers → i < (ActrModel.prepared m d).objs.length := by
    intro n i hi
    have hlen : (ActrModel.prepared m d).objs.length = m.objs.length + 1 := by simp [ActrModel.prepared, giveAll_length]
    rw [hlen]
    rcases mem_aset hi with e | hi
    · omega
    · have := h.lt n i hi; omega
  rw [sim_eq h] at hs
  simp only [Except.ok.injEq] at hs
  subst hs
  split
  · exact ⟨h.one, aset_ne_nil _ _ _, hl1, hv1⟩
  · split
    · rename_i hne
      refine ⟨h.one, ?_, ?_, hv1⟩
      · intro hnil
        simp only at hnil
        obtain ⟨p, ps, hp⟩ : ∃ p ps, m.visbuffers = ps ++ [p] := by
          rcases List.eq_nil_or_concat m.visbuffers with e | ⟨ps, p, e⟩
          · exact absurd e hne
          · exact ⟨p, ps, by simpa using e⟩
        rw [hp, List.foldl_append] at hnil
        exact aset_ne_nil _ _ _ hnil
      · intro n i hi
        rcases mem_foldl_aset hi with hi | hi
        · obtain ⟨b, hb, -⟩ := hv1 i hi
          exact (List.getElem?_eq_some_iff.1 hb).1
        · exact hl1 n i hi
    · refine ⟨h.one, aset_ne_nil _ _ _, ?_, ?_⟩
      · intro n i hi
        simp only [List.length_append, List.length_cons, List.length_nil]
        rcases mem_aset hi with e | hi
        · omega
        · rcases mem_aset hi with e | hi
          · omega
          · have := hl1 n i hi; omega
      · intro i hi
        obtain ⟨b, hb, hc⟩ := hv1 i hi
        exact ⟨b, by rw [List.getElem?_append_left (List.getElem?_eq_some_iff.1 hb).1]; exact hb, hc⟩

theorem vis_append {os : List BObj} {i : ℕ} (x : List BObj)
    (h : ∃ b, os[i]? = some b ∧ (b.cls = .visual ∨ b.cls = .visualLocation)) :
    ∃ b, (os ++ x)[i]? = some b ∧ (b.cls = .visual ∨ b.cls = .visualLocation) := by
  obtain ⟨b, hb, hc⟩ := h
  exact ⟨b, by rw [List.getElem?_append_left (List.getElem?_eq_some_iff.1 hb).1]; exact hb, hc⟩

theorem mem_map_aset {α : Type} {n : String} {a b : α} {l : List (String × α)} (h : b ∈ (aset n a l).map Prod.snd) :
    b = a ∨ b ∈ l.map Prod.snd := by
  obtain ⟨⟨k, c⟩, hm, rfl⟩ := List.mem_map.1 h
  exact (mem_aset hm).imp id (fun h => List.mem_map.2 ⟨_, h, rfl⟩)

open Classical in
theorem step_inv {m : ActrModel} {d : ℕ} (h : MInv m d) (op : ModelOp) :
    MInv (m.step op) (if op = .setDecmem then m.nmem else d) := by
  cases op with
  | setDecmem =>
    simp only [ActrModel.step, ActrModel.setDecmem, if_true]
    exact ⟨by simp [h.one, aset], h.ne, h.lt, h.vis⟩
  | setGoal n =>
    simp only [reduceCtorEq, if_false]
    refine ⟨h.one, aset_ne_nil _ _ _, ?_, fun i hi => vis_append _ (h.vis i hi)⟩
    intro k i hi
    simp only [ActrModel.step, ActrModel.setGoal, List.length_append, List.length_cons, List.length_nil]
    rcases mem_aset hi with e | hi
    · omega
    · have := h.lt k i hi; omega
  | setRetrieval n =>
    simp only [reduceCtorEq, if_false]
    refine ⟨h.one, aset_ne_nil _ _ _, ?_, fun i hi => vis_append _ (h.vis i hi)⟩
    intro k i hi
    simp only [ActrModel.step, ActrModel.setRetrieval, List.length_append, List.length_cons, List.length_nil]
    rcases mem_aset hi with e | hi
    · omega
    · have := h.lt k i hi; omega
  | visualBuffer v l hv =>
    simp only [reduceCtorEq, if_false]
    refine ⟨h.one, h.ne, ?_, ?_⟩
    · intro k i hi
      simp only [ActrModel.step, ActrModel.visualBuffer, List.length_append, List.length_cons, List.length_nil]
      have := h.lt k i hi; omega
    · intro i hi
      simp only [ActrModel.step, ActrModel.visualBuffer] at hi ⊢
      rcases mem_map_aset hi with e | hi
      · subst e; exact ⟨⟨.visualLocation, hv⟩, by simp, .inr rfl⟩
      · rcases mem_map_aset hi with e | hi
        · subst e; exact ⟨⟨.visual, hv⟩, by simp, .inl rfl⟩
        · exact vis_append _ (h.vis i hi)
  | setDm j x =>
    simp only [reduceCtorEq, if_false]
    refine ⟨h.one, h.ne, ?_, ?_⟩
    · intro k i hi
      simpa [ActrModel.step, ActrModel.setDm] using h.lt k i hi
    · intro i hi
      obtain ⟨b, hb, hc⟩ := h.vis i hi
      simp only [ActrModel.step, ActrModel.setDm, List.getElem?_modify]
      rw [hb]
      by_cases e : j = i
      · exact ⟨{ b with dm := x }, by simp [e], hc⟩
      · exact ⟨b, by simp [e], hc⟩
  | simulation full =>
    simp only [reduceCtorEq, if_false]
    have hs := sim_eq h full
    simp only [ActrModel.step]
    rw [hs]
    exact sim_inv h full hs

theorem init_inv (env : Bool) : MInv (ActrModel.init env) 0 := by
  refine ⟨rfl, by simp [ActrModel.init], ?_, by simp [ActrModel.init]⟩
  intro n i hi
  simp [ActrModel.init] at hi ⊢
  omega

theorem run_inv {m : ActrModel} {d : ℕ} (h : MInv m d) (ops : List ModelOp) : ∃ d', MInv (m.run ops) d' := by
  induction ops generalizing m d with
  | nil => exact ⟨d, h⟩
  | cons o ops ih => exact ih (step_inv h o)

theorem run_inv_noset {m : ActrModel} {d : ℕ} (h : MInv m d) (ops : List ModelOp) (hn : ModelOp.setDecmem ∉ ops) :
    MInv (m.run ops) d := by
  induction ops generalizing m with
  | nil => exact h
  | cons o ops ih =>
    simp only [List.mem_cons, not_or] at hn
    have := step_inv h o
    rw [if_neg (fun e => hn.1 e.symm)] at this
    exact ih this hn.2

theorem lastSet_inv {env : Bool} {ops : List ModelOp} {d : ℕ} (h : LastSet env ops d) :
    MInv ((ActrModel.init env).run ops) d := by
  cases h with
  | initial hn => exact run_inv_noset (init_inv env) ops hn
  | @set before after hn =>
    obtain ⟨d', hd'⟩ := run_inv (init_inv env) before
    have h1 := step_inv hd' .setDecmem
    rw [if_pos rfl] at h1
    have := run_inv_noset h1 after hn
    simpa [ActrModel.run, List.foldl_append, ActrModel.step, ActrModel.setDecmem] using this

/-- Every history has a memory set last. -/
theorem lastSet_exists (env : Bool) (ops : List ModelOp) : ∃ d, LastSet env ops d := by
  by_cases h : ModelOp.setDecmem ∈ ops
  · obtain ⟨a, b, rfl, hb⟩ : ∃ a b, ops = a ++ [.setDecmem] ++ b ∧ ModelOp.setDecmem ∉ b := by
      induction ops with
      | nil => simp at h
      | cons o ops ih =>
        by_cases h' : ModelOp.setDecmem ∈ ops
        · obtain ⟨a, b, e, hb⟩ := ih h'
          exact ⟨o :: a, b, by simp [e], hb⟩
        · have : o = .setDecmem := by
            rcases List.mem_cons.1 h with e | e
            · exact e.symm
            · exact absurd e h'
          exact ⟨[], ops, by simp [this], h'⟩
    exact ⟨_, .set hb⟩
  · exact ⟨0, .initial h⟩

/-- The full statement of C51. -/
def C51_full : Prop := ∀ (env : Bool) (ops : List ModelOp) (d : ℕ), LastSet env ops d →
  ((ActrModel.init env).run ops).decmem = .ok d ∧
  ∀ full, ∃ m', ((ActrModel.init env).run ops).simulation full = .ok m' ∧ ∀ n cls x, HasBuffer m' n cls x → x = some d

/-- C51, the memory of the model: after any history it is the one set last. -/
theorem C51_decmem (env : Bool) (ops : List ModelOp) (d : ℕ) (h : LastSet env ops d) :
    ((ActrModel.init env).run ops).decmem = .ok d := by
  unfold ActrModel.decmem; rw [(lastSet_inv h).one]

/-- In any state whatever, also after users have put memories into the dictionary `decmems` themselves, the property shows a memory only if it is the only one. -/
theorem C51_only (m : ActrModel) (d : ℕ) : m.decmem = .ok d ↔ ∃ n, m.decmems = [(n, d)] := by
  unfold ActrModel.decmem
  split
  · rename_i k e he
    simp [he]
  · rename_i hne
    exact ⟨nofun, fun ⟨n, hn⟩ => (hne n d hn).elim⟩

/-- With no memory or several, it raises ValueError. -/
theorem C51_memories (m : ActrModel) (h : m.decmems.length ≠ 1) : m.decmem = .error .value := by
  unfold ActrModel.decmem
  split
  · rename_i k e he
    simp [he] at h
  · rfl

/-- `set_decmem` alone never leads there: the memory keeps the one name decmem, and the names decmem2, decmem3, ... are never given. -/
theorem C51_names (env : Bool) (ops : List ModelOp) : (((ActrModel.init env).run ops).decmems.map Prod.fst) = ["decmem"] := by
  obtain ⟨d, h⟩ := lastSet_exists env ops
  rw [(lastSet_inv h).one]; rfl

example : ({ ActrModel.init true with decmems := [("decmem", 0), ("other", 1)] } : ActrModel).decmem = .error .value := C51_memories _ (by decide)
example : ((ActrModel.init true).run [.setDecmem, .setDecmem, .setDecmem]).decmems.map Prod.fst = ["decmem"] := C51_names ..

theorem prepared_buffers {m : ActrModel} {d : ℕ} (h : MInv m d) {n : String} {i : ℕ} {b : BObj}
    (hi : alook n (ActrModel.prepared m d).buffers = some i) (hb : (ActrModel.prepared m d).objs[i]? = some b) :
    b.cls = .motor ∨ b.dm = some d := by
  simp only [ActrModel.prepared] at hi hb
  rw [alook_aset] at hi
  split at hi
  · simp only [Option.some.injEq] at hi
    subst hi
    rw [List.getElem?_append_right (by rw [giveAll_length])] at hb
    simp [giveAll_length] at hb
    subst hb; exact .inl rfl
  · have hm := mem_of_alook hi
    rw [List.getElem?_append_left (by rw [giveAll_length]; exact h.lt n i hm), giveAll_get,
      if_pos (List.mem_map.2 ⟨_, hm, rfl⟩)] at hb
    obtain ⟨c, -, rfl⟩ := Option.map_eq_some_iff.1 hb
    exact .inr rfl

theorem novis_run {m : ActrModel} {d : ℕ} (h : MInv m d) (hv : m.visbuffers = []) (ops : List ModelOp)
    (hn : ∀ v l x, ModelOp.visualBuffer v l x ∉ ops) : (m.run ops).visbuffers = [] := by
  induction ops generalizing m d with
  | nil => exact hv
  | cons o ops ih =>
    refine ih (step_inv h o) ?_ (fun v l x hm => hn v l x (List.mem_cons_of_mem _ hm))
    cases o with
    | visualBuffer v l x => exact absurd (List.mem_cons_self ..) (hn v l x)
    | simulation full =>
      have hs := sim_eq h full
      simp only [ActrModel.step, hs]
      split
      · exact hv
      · split <;> exact hv
    | _ => exact hv

/-- C51, partial: a simulation can always be created and gives the memory set last to all goal and retrieval buffers; if no
visual buffers were created by hand, it gives it to all buffers but the motor buffer. Missing: the motor buffer and
the visual buffers created by `visualBuffer`, for which the claim is wrong. -/
theorem C51_partial (env : Bool) (ops : List ModelOp) (d : ℕ) (h : LastSet env ops d) :
    ((ActrModel.init env).run ops).decmem = .ok d ∧
    ∀ full, ∃ m', ((ActrModel.init env).run ops).simulation full = .ok m' ∧ ∀ n cls x, HasBuffer m' n cls x →
      (cls = .goal ∨ cls = .retrieval ∨ (cls ≠ .motor ∧ ∀ v l y, ModelOp.visualBuffer v l y ∉ ops)) → x = some d := by
  refine ⟨C51_decmem env ops d h, fun full => ⟨_, sim_eq (lastSet_inv h) full, ?_⟩⟩
  have hm := lastSet_inv h
  have hnv : (∀ v l y, ModelOp.visualBuffer v l y ∉ ops) → ((ActrModel.init env).run ops).visbuffers = [] :=
    novis_run (init_inv env) rfl ops
  generalize (ActrModel.init env).run ops = m at hm hnv
  rintro n cls x ⟨i, hi, hb⟩ hc
  have hmot : cls ≠ .motor := by rcases hc with rfl | rfl | hc <;> first | decide | exact hc.1
  have fin : ∀ {j : ℕ}, alook n (ActrModel.prepared m d).buffers = some j →
      (ActrModel.prepared m d).objs[j]? = some ⟨cls, x⟩ → x = some d := by
    intro j hj hb
    rcases prepared_buffers hm hj hb with e | e
    · exact absurd e hmot
    · exact e
  simp only at hi hb
  split at hi
  · rename_i he
    rw [if_pos he] at hb
    exact fin hi hb
  · rename_i he
    rw [if_neg he] at hb
    split at hi
    · rename_i hne
      rw [if_pos hne] at hb
      simp only at hi hb
      rcases alook_foldl_mem hi with hv | hj
      · have hcls : cls = .visual ∨ cls = .visualLocation := by
          obtain ⟨b, hb', hc'⟩ := hm.vis i hv
          have hl : i < (giveAll d m.buffers m.objs).length := by
            rw [giveAll_length]; exact (List.getElem?_eq_some_iff.1 hb').1
          simp only [ActrModel.prepared] at hb
          rw [List.getElem?_append_left hl, giveAll_get, hb'] at hb
          split at hb
          · simp only [Option.map_some, Option.some.injEq] at hb
            have := congrArg BObj.cls hb
            simp only at this
            rw [← this]; exact hc'
          · simp only [Option.some.injEq] at hb
            rw [hb] at hc'; exact hc'
        rcases hc with rfl | rfl | hc
        · simp at hcls
        · simp at hcls
        · exact absurd (hnv hc.2) hne
      · exact fin hj hb
    · rename_i hne
      rw [if_neg hne] at hb
      simp only at hi hb
      rw [alook_aset, alook_aset] at hi
      split at hi
      · simp only [Option.some.injEq] at hi
        subst hi
        simp at hb
        exact hb.2.symm
      · split at hi
        · simp only [Option.some.injEq] at hi
          subst hi
          simp at hb
          exact hb.2.symm
        · have hl : i < (ActrModel.prepared m d).objs.length := by
            simp only [ActrModel.prepared] at hi ⊢
            rw [alook_aset] at hi
            simp only [List.length_append, giveAll_length, List.length_cons, List.length_nil]
            split at hi
            · simp at hi; omega
            · have := hm.lt n i (mem_of_alook hi); omega
          rw [List.getElem?_append_left hl] at hb
          exact fin hi hb

/-- C51, the buffers stay: a buffer of the model keeps its object in a new simulation and gets the memory set last, unless its
name is one under which the simulation puts a motor or visual buffer. -/
theorem C51_buffers (env : Bool) (ops : List ModelOp) (d : ℕ) (h : LastSet env ops d) (n : String) (cls : BClass) (x : Option ℕ)
    (hb : HasBuffer ((ActrModel.init env).run ops) n cls x)
    (h1 : n ≠ "manual") (h2 : n ≠ "visual") (h3 : n ≠ "visual_location")
    (h4 : n ∉ ((ActrModel.init env).run ops).visbuffers.map Prod.fst) (full : ℕ → Bool) :
    ∃ m', ((ActrModel.init env).run ops).simulation full = .ok m' ∧ HasBuffer m' n cls (some d) := by
  refine ⟨_, sim_eq (lastSet_inv h) full, ?_⟩
  have hm := lastSet_inv h
  generalize (ActrModel.init env).run ops = m at hm hb h4
  obtain ⟨i, hi, hb⟩ := hb
  have hmem := mem_of_alook hi
  have hl := hm.lt n i hmem
  have ho : (ActrModel.prepared m d).objs[i]? = some ⟨cls, some d⟩ := by
    simp only [ActrModel.prepared]
    rw [List.getElem?_append_left (by rw [giveAll_length]; exact hl), giveAll_get, if_pos (List.mem_map.2 ⟨_, hmem, rfl⟩), hb]
    rfl
  have hn : alook n (ActrModel.prepared m d).buffers = some i := by
    simp only [ActrModel.prepared]; rw [alook_aset, if_neg h1]; exact hi
  refine ⟨i, ?_, ?_⟩
  · split
    · exact hn
    · split
      · rw [alook_foldl_out h4]; exact hn
      · rw [alook_aset, if_neg h3, alook_aset, if_neg h2]; exact hn
  · split
    · exact ho
    · split
      · exact ho
      · rw [List.getElem?_append_left (List.getElem?_eq_some_iff.1 ho).1]; exact ho

/-- C51 is wrong for the motor buffer: a new simulation gives it no memory. -/
theorem C51_refuted : ¬ C51_full := by
  intro h
  obtain ⟨m', hm, hx⟩ := (h false [] 0 (.initial (by simp))).2 (fun _ => false)
  have e : m' = ⟨1, [("decmem", 0)], [⟨.goal, some 0⟩, ⟨.retrieval, some 0⟩, ⟨.motor, Option.none⟩],
      [("g", 0), ("retrieval", 1), ("manual", 2)], [("g", 0)], [("retrieval", 1)], [], false⟩ := by
    have : (ActrModel.run (ActrModel.init false) []).simulation (fun _ => false) = .ok ⟨1, [("decmem", 0)],
      [⟨.goal, some 0⟩, ⟨.retrieval, some 0⟩, ⟨.motor, Option.none⟩],
      [("g", 0), ("retrieval", 1), ("manual", 2)], [("g", 0)], [("retrieval", 1)], [], false⟩ := by rfl
    rw [hm] at this
    exact Except.ok.inj this
  subst e
  exact absurd (hx "manual" .motor Option.none ⟨2, by decide, by decide⟩) (by simp)

/-- It is also wrong for visual buffers created by `visualBuffer` without `default_harvest`: they have no memory in the
simulation. -/
theorem C51_visual_refuted : ∃ m', ((ActrModel.init true).run [.visualBuffer "v" "l" Option.none]).simulation (fun _ => false)
    = .ok m' ∧ HasBuffer m' "v" .visual Option.none ∧ HasBuffer m' "l" .visualLocation Option.none :=
  ⟨_, rfl, ⟨2, by decide, by decide⟩, ⟨3, by decide, by decide⟩⟩

example : LastSet true [.setDecmem, .setGoal "imaginal", .setDecmem, .simulation (fun _ => false), .setRetrieval "r2"] 2 :=
  .set (before := [.setDecmem, .setGoal "imaginal"]) (after := [.simulation (fun _ => false), .setRetrieval "r2"]) (by simp)
example : ∃ m', ((ActrModel.init true).run [.setDecmem, .setGoal "imaginal", .setDecmem, .simulation (fun _ => false),
    .setDecmem]).simulation (fun _ => false) = .ok m' ∧ HasBuffer m' "imaginal" .goal (some 3) ∧
    HasBuffer m' "visual" .visual (some 3) :=
  ⟨_, rfl, ⟨2, by decide, by decide⟩, ⟨7, by decide, by decide⟩⟩

end Verif.Props
