import Verif.Spec.Accessors
import Verif.Props.ActrModel
import Verif.Lemmas.ChunkDict
/-! # The buffers of a model (property C89) -/
namespace Verif.Props
open Verif Verif.Spec

variable {env : Bool} {m m' : ActrModel} {ops : List ModelOp} {i : ℕ} {n : String}

theorem sim_lists {full : ℕ → Bool} (h : m.simulation full = .ok m') : m'.goals = m.goals ∧ m'.retrievals = m.retrievals ∧ m'.visbuffers = m.visbuffers := by
  have h1 : ∀ {m1}, m.harvestSetup full = .ok m1 → m1.goals = m.goals ∧ m1.retrievals = m.retrievals ∧ m1.visbuffers = m.visbuffers := fun {m1} h => by
    unfold ActrModel.harvestSetup at h
    split at h
    · cases h; exact ⟨rfl, rfl, rfl⟩
    · split at h
      · split at h <;> cases h
        exact ⟨rfl, rfl, rfl⟩
      · cases h; exact ⟨rfl, rfl, rfl⟩
  unfold ActrModel.simulation at h
  split at h
  · cases h
  · rename_i m1 hm
    dsimp only at h
    split at h
    · cases h; exact ⟨(h1 hm).1, (h1 hm).2.1, (h1 hm).2.2⟩
    · split at h
      · cases h; exact ⟨(h1 hm).1, (h1 hm).2.1, (h1 hm).2.2⟩
      · split at h <;> cases h
        exact ⟨(h1 hm).1, (h1 hm).2.1, (h1 hm).2.2⟩

/-! ## The properties `goal` and `retrieval` -/

theorem step_goals {op : ModelOp} (h : ∀ n, op ≠ .setGoal n) : (m.step op).goals = m.goals := by
  cases op with
  | setGoal n => exact absurd rfl (h n)
  | simulation full =>
    simp only [ActrModel.step]
    split
    · rename_i hs; exact (sim_lists hs).1
    · rfl
  | _ => rfl

theorem step_retrievals {op : ModelOp} (h : ∀ n, op ≠ .setRetrieval n) : (m.step op).retrievals = m.retrievals := by
  cases op with
  | setRetrieval n => exact absurd rfl (h n)
  | simulation full =>
    simp only [ActrModel.step]
    split
    · rename_i hs; exact (sim_lists hs).2.1
    · rfl
  | _ => rfl

theorem run_append (a b : List ModelOp) : m.run (a ++ b) = (m.run a).run b := List.foldl_append ..

theorem run_goals : ∀ {ops : List ModelOp} {m : ActrModel}, (∀ n, .setGoal n ∉ ops) → (m.run ops).goals = m.goals
  | [], _, _ => rfl
  | op :: r, m, h => (run_goals (ops := r) (m := m.step op) fun n hn => h n (.tail _ hn)).trans (step_goals fun n e => h n (e ▸ .head _))

theorem run_retrievals : ∀ {ops : List ModelOp} {m : ActrModel}, (∀ n, .setRetrieval n ∉ ops) → (m.run ops).retrievals = m.retrievals
  | [], _, _ => rfl
  | op :: r, m, h => (run_retrievals (ops := r) (m := m.step op) fun n hn => h n (.tail _ hn)).trans (step_retrievals fun n e => h n (e ▸ .head _))

theorem goals_only : ∀ {ops : List ModelOp} {m : ActrModel} {i : ℕ}, m.goals = [("g", i)] → (∀ n, .setGoal n ∈ ops → n = "g") → ∃ j, (m.run ops).goals = [("g", j)]
  | [], _, i, h, _ => ⟨i, h⟩
  | op :: r, m, i, h, ho => by
    have hr : ∀ n, .setGoal n ∈ r → n = "g" := fun n hn => ho n (.tail _ hn)
    by_cases hg : ∃ n, op = .setGoal n
    · obtain ⟨n, rfl⟩ := hg
      obtain rfl := ho n (.head _)
      refine goals_only (ops := r) (m := m.step (.setGoal "g")) (i := m.objs.length) ?_ hr
      show aset "g" m.objs.length m.goals = _
      rw [h]; rfl
    · exact goals_only (ops := r) (m := m.step op) (i := i) ((step_goals fun n e => hg ⟨n, e⟩).trans h) hr

theorem retrievals_only : ∀ {ops : List ModelOp} {m : ActrModel} {i : ℕ}, m.retrievals = [("retrieval", i)] → (∀ n, .setRetrieval n ∈ ops → n = "retrieval") →
    ∃ j, (m.run ops).retrievals = [("retrieval", j)]
  | [], _, i, h, _ => ⟨i, h⟩
  | op :: r, m, i, h, ho => by
    have hr : ∀ n, .setRetrieval n ∈ r → n = "retrieval" := fun n hn => ho n (.tail _ hn)
    by_cases hg : ∃ n, op = .setRetrieval n
    · obtain ⟨n, rfl⟩ := hg
      obtain rfl := ho n (.head _)
      refine retrievals_only (ops := r) (m := m.step (.setRetrieval "retrieval")) (i := m.objs.length) ?_ hr
      show aset "retrieval" m.objs.length m.retrievals = _
      rw [h]; rfl
    · exact retrievals_only (ops := r) (m := m.step op) (i := i) ((step_retrievals fun n e => hg ⟨n, e⟩).trans h) hr

theorem mem_keys_aset {α : Type} {k n : String} {a : α} {l : List (String × α)} : k ∈ (aset n a l).map Prod.fst ↔ k = n ∨ k ∈ l.map Prod.fst := by
  rw [keys_aset]
  split
  · rename_i h
    exact ⟨.inr, fun hk => hk.elim (fun e => e ▸ h) id⟩
  · rw [List.mem_append, List.mem_singleton]; exact or_comm

theorem goals_kept : ∀ {ops : List ModelOp} {m : ActrModel}, n ∈ m.goals.map Prod.fst ∨ .setGoal n ∈ ops → n ∈ (m.run ops).goals.map Prod.fst
  | [], _, h => h.resolve_right (by simp)
  | op :: r, m, h => by
    refine goals_kept (ops := r) (m := m.step op) ?_
    by_cases hg : ∃ k, op = .setGoal k
    · obtain ⟨k, rfl⟩ := hg
      show n ∈ (aset k m.objs.length m.goals).map Prod.fst ∨ _
      rw [mem_keys_aset]
      rcases h with h | h
      · exact .inl (.inr h)
      · rcases List.mem_cons.1 h with h | h
        · cases h; exact .inl (.inl rfl)
        · exact .inr h
    · rw [step_goals fun k e => hg ⟨k, e⟩]
      exact h.imp_right fun h => (List.mem_cons.1 h).resolve_left fun e => hg ⟨n, e.symm⟩

theorem retrievals_kept : ∀ {ops : List ModelOp} {m : ActrModel}, n ∈ m.retrievals.map Prod.fst ∨ .setRetrieval n ∈ ops → n ∈ (m.run ops).retrievals.map Prod.fst
  | [], _, h => h.resolve_right (by simp)
  | op :: r, m, h => by
    refine retrievals_kept (ops := r) (m := m.step op) ?_
    by_cases hg : ∃ k, op = .setRetrieval k
    · obtain ⟨k, rfl⟩ := hg
      show n ∈ (aset k m.objs.length m.retrievals).map Prod.fst ∨ _
      rw [mem_keys_aset]
      rcases h with h | h
      · exact .inl (.inr h)
      · rcases List.mem_cons.1 h with h | h
        · cases h; exact .inl (.inl rfl)
        · exact .inr h
    · rw [step_retrievals fun k e => hg ⟨k, e⟩]
      exact h.imp_right fun h => (List.mem_cons.1 h).resolve_left fun e => hg ⟨n, e.symm⟩

/-- C89, the goal: as long as goals are set under the name g only, `goal` is the one set last. -/
theorem C89_goal (h : ∀ n, .setGoal n ∈ ops → n = "g") (hl : LastGoal env ops i) : ((ActrModel.init env).run ops).goal = .ok i := by
  have key : ((ActrModel.init env).run ops).goals = [("g", i)] := by
    cases hl with
    | initial hn => rw [run_goals hn]; rfl
    | @set before after n hn =>
      obtain rfl := h n (by simp)
      obtain ⟨j, hj⟩ := goals_only (ops := before) (m := ActrModel.init env) (i := 0) rfl fun k hk => h k (by simp [hk])
      rw [run_append]
      show ((((ActrModel.init env).run before).step (.setGoal "g")).run after).goals = _
      rw [run_goals hn]
      show aset "g" _ ((ActrModel.init env).run before).goals = _
      rw [hj]; rfl
  unfold ActrModel.goal
  rw [key]

/-- Once a goal has been set under another name, it raises ValueError. -/
theorem C89_goals (h : .setGoal n ∈ ops) (hn : n ≠ "g") : ((ActrModel.init env).run ops).goal = .error .value := by
  have h1 := goals_kept (m := ActrModel.init env) (n := n) (ops := ops) (.inr h)
  have h2 := goals_kept (m := ActrModel.init env) (n := "g") (ops := ops) (.inl (.head _))
  unfold ActrModel.goal
  split
  · rename_i hg
    rw [hg] at h1 h2
    simp only [List.map_cons, List.map_nil, List.mem_singleton] at h1 h2
    exact absurd (h1.trans h2.symm) hn
  · rfl

/-- C89, the retrieval buffer: as long as they are set under the name retrieval only, `retrieval` is the one set last. -/
theorem C89_retrieval (h : ∀ n, .setRetrieval n ∈ ops → n = "retrieval") (hl : LastRetrieval env ops i) : ((ActrModel.init env).run ops).retrieval = .ok i := by
  have key : ((ActrModel.init env).run ops).retrievals = [("retrieval", i)] := by
    cases hl with
    | initial hn => rw [run_retrievals hn]; rfl
    | @set before after n hn =>
      obtain rfl := h n (by simp)
      obtain ⟨j, hj⟩ := retrievals_only (ops := before) (m := ActrModel.init env) (i := 1) rfl fun k hk => h k (by simp [hk])
      rw [run_append]
      show ((((ActrModel.init env).run before).step (.setRetrieval "retrieval")).run after).retrievals = _
      rw [run_retrievals hn]
      show aset "retrieval" _ ((ActrModel.init env).run before).retrievals = _
      rw [hj]; rfl
  unfold ActrModel.retrieval
  rw [key]

/-- Once one has been set under another name, it raises ValueError. -/
theorem C89_retrievals (h : .setRetrieval n ∈ ops) (hn : n ≠ "retrieval") : ((ActrModel.init env).run ops).retrieval = .error .value := by
  have h1 := retrievals_kept (m := ActrModel.init env) (n := n) (ops := ops) (.inr h)
  have h2 := retrievals_kept (m := ActrModel.init env) (n := "retrieval") (ops := ops) (.inl (.head _))
  unfold ActrModel.retrieval
  split
  · rename_i hg
    rw [hg] at h1 h2
    simp only [List.map_cons, List.map_nil, List.mem_singleton] at h1 h2
    exact absurd (h1.trans h2.symm) hn
  · rfl

example : ((ActrModel.init true).run [.setRetrieval "r", .setGoal "g", .simulation fun _ => true]).goal = .ok 3 :=
  C89_goal (by simp) (LastGoal.set (before := [.setRetrieval "r"]) (after := [.simulation fun _ => true]) "g" (by simp))
example : ((ActrModel.init true).run [.setGoal "imaginal", .setGoal "g"]).goal = .error .value := C89_goals (.head _) (by decide)
example : ((ActrModel.init true).run [.setGoal "imaginal", .setRetrieval "retrieval"]).retrieval = .ok 3 :=
  C89_retrieval (by simp) (LastRetrieval.set (before := [.setGoal "imaginal"]) (after := []) "retrieval" (by simp))
example : ((ActrModel.init true).run [.setRetrieval "r"]).retrieval = .error .value := C89_retrievals (.head _) (by decide)

/-! ## What names stand for -/

theorem giveAll_cls {d : ℕ} {bs : List (String × ℕ)} {os : List BObj} {b : BObj} (h : os[i]? = some b) : ∃ b', (giveAll d bs os)[i]? = some b' ∧ b'.cls = b.cls := by
  rw [giveAll_get, h]
  split
  · exact ⟨_, rfl, rfl⟩
  · exact ⟨_, rfl, rfl⟩

theorem append_cls {os x : List BObj} {b : BObj} (h : os[i]? = some b) : (os ++ x)[i]? = some b := by
  rw [List.getElem?_append_left (List.getElem?_eq_some_iff.1 h).1]; exact h

/-- What a simulation keeps. -/
theorem sim_stands {full : ℕ → Bool} {cls : BClass} (h : m.simulation full = .ok m') (hr : ¬ Reserved n) (hv : n ∉ m.visbuffers.map Prod.fst) (hs : StandsFor m n i cls) : StandsFor m' n i cls := by
  have h1 : n ≠ "manual" := fun e => hr (.inl e)
  have h2 : n ≠ "visual" := fun e => hr (.inr (.inl e))
  have h3 : n ≠ "visual_location" := fun e => hr (.inr (.inr e))
  have key : ∀ {m1}, m.harvestSetup full = .ok m1 → StandsFor m1 n i cls ∧ m1.visbuffers = m.visbuffers := fun {m1} h => by
    obtain ⟨h1, d, h2⟩ := hs
    unfold ActrModel.harvestSetup at h
    split at h
    · cases h
      obtain ⟨⟨c, d'⟩, hb, hc⟩ := giveAll_cls (bs := m.buffers) h2
      exact ⟨⟨h1, d', by rw [hb]; cases hc; rfl⟩, rfl⟩
    · split at h
      · split at h <;> cases h
        exact ⟨⟨h1, d, h2⟩, rfl⟩
      · cases h; exact ⟨⟨h1, d, h2⟩, rfl⟩
  unfold ActrModel.simulation at h
  split at h
  · cases h
  · rename_i m1 hm
    obtain ⟨⟨k1, d, k2⟩, k3⟩ := key hm
    have hman : alook n (aset "manual" m1.objs.length m1.buffers) = some i := by rw [alook_aset, if_neg h1]; exact k1
    dsimp only at h
    split at h
    · cases h; exact ⟨hman, d, append_cls k2⟩
    · split at h
      · cases h
        refine ⟨?_, d, append_cls k2⟩
        show alook n (m1.visbuffers.foldl (fun bs p => aset p.1 p.2 bs) _) = _
        rw [alook_foldl_out (by rw [k3]; exact hv)]; exact hman
      · split at h <;> cases h
        refine ⟨?_, d, append_cls (append_cls k2)⟩
        rw [alook_aset, if_neg h3, alook_aset, if_neg h2]; exact hman

theorem claims_ne {k : String} : (¬ Claims n (.setGoal k) → n ≠ k) ∧ (¬ Claims n (.setRetrieval k) → n ≠ k) :=
  ⟨fun h e => h (by subst e; exact .goal), fun h e => h (by subst e; exact .retrieval)⟩

theorem claims_goal {k : String} (h : Claims n (.setGoal k)) : k = n := by cases h; rfl

theorem step_vis {op : ModelOp} (h : n ∉ m.visbuffers.map Prod.fst) (hc : ¬ Claims n op) : n ∉ (m.step op).visbuffers.map Prod.fst := by
  cases op with
  | visualBuffer v l hv =>
    show n ∉ (aset l _ (aset v _ m.visbuffers)).map Prod.fst
    rw [mem_keys_aset, mem_keys_aset]
    rintro (rfl | rfl | hn)
    · exact hc (.location _ _)
    · exact hc (.visual _ _)
    · exact h hn
  | simulation full =>
    simp only [ActrModel.step]
    split
    · rename_i hs; rw [(sim_lists hs).2.2]; exact h
    · exact h
  | _ => exact h

theorem step_stands {op : ModelOp} {cls : BClass} (hr : ¬ Reserved n) (hv : n ∉ m.visbuffers.map Prod.fst) (hc : ¬ Claims n op) (hs : StandsFor m n i cls) : StandsFor (m.step op) n i cls := by
  obtain ⟨h1, d, h2⟩ := hs
  cases op with
  | setDecmem => exact ⟨h1, d, h2⟩
  | setGoal k =>
    refine ⟨?_, d, append_cls h2⟩
    show alook n (aset k _ m.buffers) = _
    rw [alook_aset, if_neg (claims_ne.1 hc)]; exact h1
  | setRetrieval k =>
    refine ⟨?_, d, append_cls h2⟩
    show alook n (aset k _ m.buffers) = _
    rw [alook_aset, if_neg (claims_ne.2 hc)]; exact h1
  | visualBuffer v l hv => exact ⟨h1, d, append_cls h2⟩
  | setDm j x =>
    by_cases e : j = i
    · exact ⟨h1, x, by simp [ActrModel.step, ActrModel.setDm, List.getElem?_modify, e, h2]⟩
    · exact ⟨h1, d, by simp [ActrModel.step, ActrModel.setDm, List.getElem?_modify, e, h2]⟩
  | simulation full =>
    simp only [ActrModel.step]
    split
    · rename_i hs; exact sim_stands hs hr hv ⟨h1, d, h2⟩
    · exact ⟨h1, d, h2⟩

theorem run_stands {cls : BClass} (hr : ¬ Reserved n) : ∀ {ops : List ModelOp} {m : ActrModel}, n ∉ m.visbuffers.map Prod.fst → (∀ op ∈ ops, ¬ Claims n op) → StandsFor m n i cls → StandsFor (m.run ops) n i cls
  | [], _, _, _, h => h
  | op :: r, m, hv, hc, h => run_stands hr (ops := r) (m := m.step op) (step_vis hv (hc op (.head _))) (fun o ho => hc o (.tail _ ho)) (step_stands hr hv (hc op (.head _)) h)

theorem run_vis : ∀ {ops : List ModelOp} {m : ActrModel}, n ∉ m.visbuffers.map Prod.fst → (∀ v l h, .visualBuffer v l h ∈ ops → n ≠ v ∧ n ≠ l) → n ∉ (m.run ops).visbuffers.map Prod.fst
  | [], _, h, _ => h
  | op :: r, m, h, hc => by
    refine run_vis (ops := r) (m := m.step op) ?_ fun v l x hx => hc v l x (.tail _ hx)
    cases op with
    | visualBuffer v l x => exact step_vis h fun hcl => by cases hcl; exacts [(hc _ _ _ (.head _)).1 rfl, (hc _ _ _ (.head _)).2 rfl]
    | simulation full => exact step_vis h fun hcl => by cases hcl
    | setDecmem => exact h
    | setGoal k => exact h
    | setRetrieval k => exact h
    | setDm j x => exact h

/-- C89, names: unless it is one of the names that simulations use, or that of a visual buffer, a name stands for the goal or retrieval buffer
that was set under it as long as nothing else is, also in all simulations. -/
theorem C89_named {before after : List ModelOp} (hr : ¬ Reserved n) (hv : ∀ v l h, .visualBuffer v l h ∈ before → n ≠ v ∧ n ≠ l) (hc : ∀ op ∈ after, ¬ Claims n op) :
    StandsFor ((ActrModel.init env).run (before ++ .setGoal n :: after)) n ((ActrModel.init env).run before).objs.length .goal ∧
    StandsFor ((ActrModel.init env).run (before ++ .setRetrieval n :: after)) n ((ActrModel.init env).run before).objs.length .retrieval := by
  have h0 := run_vis (m := ActrModel.init env) (ops := before) (n := n) (by simp [ActrModel.init]) hv
  rw [run_append, run_append]
  constructor
  · refine run_stands hr (m := ((ActrModel.init env).run before).setGoal n) (ops := after) h0 hc ⟨?_, Option.none, by simp [ActrModel.setGoal]⟩
    show alook n (aset n _ _) = _
    rw [alook_aset, if_pos rfl]
  · refine run_stands hr (m := ((ActrModel.init env).run before).setRetrieval n) (ops := after) h0 hc ⟨?_, Option.none, by simp [ActrModel.setRetrieval]⟩
    show alook n (aset n _ _) = _
    rw [alook_aset, if_pos rfl]

example : StandsFor ((ActrModel.init true).run [.setRetrieval "x", .setGoal "x", .setGoal "g", .simulation fun _ => true]) "x" 3 .goal :=
  (C89_named (before := [.setRetrieval "x"]) (after := [.setGoal "g", .simulation fun _ => true]) (by simp [Reserved]) (by simp) (by
    intro op ho hc
    simp only [List.mem_cons, List.not_mem_nil, or_false] at ho
    rcases ho with rfl | rfl
    · exact absurd (claims_goal hc) (by decide)
    · cases hc)).1

/-! ## The goal that is shown and the goal that is used -/

/-- C89 in full: the buffer that `goal` shows is the one that rules call g. -/
def C89_full : Prop := ∀ (env : Bool) (ops : List ModelOp) (i : ℕ), ((ActrModel.init env).run ops).goal = .ok i → alook "g" ((ActrModel.init env).run ops).buffers = some i

/-- When a retrieval buffer is set under the name g, rules use this one, but `goal` is still the goal buffer. -/
theorem C89_refuted : ¬ C89_full := fun h => by
  have := h true [.setRetrieval "g"] 0 (by decide)
  exact absurd this (by decide)

/-- C89: if no buffer of another kind is set under the name g, the buffer that `goal` shows is the one that rules call g, and it is a goal buffer. -/
theorem C89_partial (hv : ∀ v l h, .visualBuffer v l h ∈ ops → "g" ≠ v ∧ "g" ≠ l) (hr : .setRetrieval "g" ∉ ops) (hg : ((ActrModel.init env).run ops).goal = .ok i) :
    StandsFor ((ActrModel.init env).run ops) "g" i .goal := by
  have hall : ∀ n, .setGoal n ∈ ops → n = "g" := fun n hn => by
    by_contra hne
    rw [C89_goals hn hne] at hg; cases hg
  have hres : ¬ Reserved "g" := by simp [Reserved]
  have hcl : ∀ {l : List ModelOp}, (∀ op ∈ l, op ∈ ops) → (∀ n, .setGoal n ∉ l) → ∀ op ∈ l, ¬ Claims "g" op := fun {l} hsub hno op ho hc => by
    have hm := hsub op ho
    cases hc with
    | goal => exact hno _ ho
    | retrieval => exact hr hm
    | visual l h => exact (hv _ _ _ hm).1 rfl
    | location v h => exact (hv _ _ _ hm).2 rfl
  by_cases hex : ∃ n, .setGoal n ∈ ops
  · have hspl : ∀ {l : List ModelOp}, (∃ n, .setGoal n ∈ l) → ∃ before n after, l = before ++ .setGoal n :: after ∧ ∀ k, .setGoal k ∉ after := fun {l} => by
      induction l with
      | nil => rintro ⟨n, hn⟩; cases hn
      | cons o r ih =>
        intro hx
        by_cases hr : ∃ n, .setGoal n ∈ r
        · obtain ⟨b, n, a, rfl, h2⟩ := ih hr
          exact ⟨o :: b, n, a, rfl, h2⟩
        · obtain ⟨n, hn⟩ := hx
          rcases List.mem_cons.1 hn with rfl | hn
          · exact ⟨[], n, r, rfl, fun k hk => hr ⟨k, hk⟩⟩
          · exact absurd ⟨n, hn⟩ hr
    obtain ⟨b, n, a, rfl, h2⟩ := hspl hex
    obtain rfl := hall n (by simp)
    rw [C89_goal hall (LastGoal.set "g" h2)] at hg
    cases hg
    exact (C89_named hres (fun v l x hx => hv v l x (by simp [hx])) (hcl (fun op ho => by simp [ho]) h2)).1
  · have hno : ∀ n, .setGoal n ∉ ops := fun n hn => hex ⟨n, hn⟩
    rw [C89_goal hall (LastGoal.initial hno)] at hg
    cases hg
    exact run_stands hres (by simp [ActrModel.init]) (hcl (fun _ h => h) hno) ⟨rfl, Option.none, rfl⟩

example : StandsFor ((ActrModel.init true).run [.setRetrieval "r", .setGoal "g", .visualBuffer "v" "w" Option.none, .simulation fun _ => true]) "g" 3 .goal :=
  C89_partial (by
    intro v l h hm
    simp only [List.mem_cons, reduceCtorEq, false_or, ModelOp.visualBuffer.injEq, List.not_mem_nil, or_false] at hm
    obtain ⟨rfl, rfl, -⟩ := hm
    decide) (by simp) (by decide)

end Verif.Props
