import Verif.Lemmas.React
import Verif.Spec.Requests

/-! # Requests for modules -/
namespace Verif
open Verif.Spec

/-! ## Requests -/

/-- A request for the module with this name. -/
def PItem.isFor (n : String) : PItem → Bool
  | .gen m _ _ => decide (m = n)
  | .procedural => false

/-- The number of requests for a module in a list of processes. -/
def orders (n : String) (l : List PItem) : ℕ := l.countP (·.isFor n)

theorem orders_append (n : String) (a b : List PItem) : orders n (a ++ b) = orders n a + orders n b := List.countP_append

theorem orders_remove (n : String) : ∀ l : List PItem, orders n (removeProcedural l) = orders n l
  | [] => rfl
  | .procedural :: r => by simp [removeProcedural, orders, PItem.isFor]
  | .gen m i d :: r => by
    have := orders_remove n r
    unfold orders at this ⊢
    simp only [removeProcedural, List.countP_cons, this]

theorem orders_take {n : String} : ∀ {l : List PItem} {i : ℕ} {d : Desc} {rest : List PItem}, takeFor n l = .ok (some ((i, d), rest)) →
    orders n l = orders n rest + 1 ∧ ∀ m, m ≠ n → orders m rest = orders m l
  | [], i, d, rest, h => by cases h
  | .procedural :: r, i, d, rest, h => by
    unfold takeFor at h
    split at h
    · cases h
    · cases ht : takeFor n r with
      | error x => rw [ht] at h; cases h
      | ok o =>
        rw [ht] at h
        rcases o with _ | ⟨⟨j, d'⟩, rest'⟩
        · cases h
        · have ih := orders_take ht
          have h := Except.ok.inj h
          simp only [Option.map_some, Option.some.injEq, Prod.mk.injEq] at h
          obtain ⟨-, rfl⟩ := h
          unfold orders at ih ⊢
          simpa [PItem.isFor] using ih
  | .gen k j d' :: r, i, d, rest, h => by
    unfold takeFor at h
    split at h
    · rename_i hk
      have h := Except.ok.inj h
      simp only [Option.some.injEq, Prod.mk.injEq] at h
      obtain ⟨-, rfl⟩ := h
      subst hk
      unfold orders
      refine ⟨by simp [PItem.isFor], fun m hm => ?_⟩
      rw [List.countP_cons_of_neg (by simpa [PItem.isFor] using Ne.symm hm)]
    · rename_i hk
      cases ht : takeFor n r with
      | error x => rw [ht] at h; cases h
      | ok o =>
        rw [ht] at h
        rcases o with _ | ⟨⟨j', d''⟩, rest'⟩
        · cases h
        · obtain ⟨h1, h2⟩ := orders_take ht
          have h := Except.ok.inj h
          simp only [Option.map_some, Option.some.injEq, Prod.mk.injEq] at h
          obtain ⟨-, rfl⟩ := h
          unfold orders at h1 h2 ⊢
          simp only [List.countP_cons]
          exact ⟨by omega, fun m hm => by rw [h2 m hm]⟩

theorem orders_none {n : String} : ∀ {l : List PItem}, takeFor n l = .ok Option.none → orders n l = 0
  | [], _ => rfl
  | .procedural :: r, h => by
    unfold takeFor at h
    split at h
    · cases h
    · cases ht : takeFor n r with
      | error x => rw [ht] at h; cases h
      | ok o =>
        rcases o with _ | x
        · have := orders_none ht
          unfold orders at this ⊢
          simpa [PItem.isFor] using this
        · rw [ht] at h; cases h
  | .gen k j d' :: r, h => by
    unfold takeFor at h
    split at h
    · cases h
    · rename_i hk
      cases ht : takeFor n r with
      | error x => rw [ht] at h; cases h
      | ok o =>
        rcases o with _ | x
        · have := orders_none ht
          unfold orders at this ⊢
          rw [List.countP_cons_of_neg (by simpa [PItem.isFor] using hk)]; exact this
        · rw [ht] at h; cases h

/-! ## Generators only add requests -/

theorem orders_requests (n : String) : ∀ l : List PItem, orders n l = (requestsFor n l).length
  | [] => rfl
  | .procedural :: r => by
    have := orders_requests n r
    unfold orders at this ⊢
    simpa [PItem.isFor, requestsFor] using this
  | .gen m i d :: r => by
    have := orders_requests n r
    unfold orders at this ⊢
    by_cases h : m = n
    · rw [List.countP_cons_of_pos (by simpa [PItem.isFor] using h), this]; simp [requestsFor, h]
    · rw [List.countP_cons_of_neg (by simpa [PItem.isFor] using h), this]; simp [requestsFor, h]

theorem requestsFor_append (n : String) : ∀ a b : List PItem, requestsFor n (a ++ b) = requestsFor n a ++ requestsFor n b
  | [], _ => rfl
  | .procedural :: r, b => requestsFor_append n r b
  | .gen m i d :: r, b => by
    have := requestsFor_append n r b
    by_cases h : m = n <;> simp [requestsFor, h, this]

theorem requestsFor_remove (n : String) : ∀ l : List PItem, requestsFor n (removeProcedural l) = requestsFor n l
  | [] => rfl
  | .procedural :: r => by simp [removeProcedural, requestsFor]
  | .gen m i d :: r => by
    have := requestsFor_remove n r
    by_cases h : m = n <;> simp [removeProcedural, requestsFor, h, this]

/-- No request disappears, and new ones come last. -/
def Gains (w w' : Mach) : Prop := ∀ n, requestsFor n w.procs <+: requestsFor n w'.procs

theorem gains_refl (w : Mach) : Gains w w := fun _ => List.prefix_rfl
theorem gains_orders {w w' : Mach} (h : Gains w w') (n : String) : orders n w.procs ≤ orders n w'.procs := by
  rw [orders_requests, orders_requests]; exact (h n).length_le
theorem gains_trans (a b c : Mach) (h1 : Gains a b) (h2 : Gains b c) : Gains a c := fun n => (h1 n).trans (h2 n)
theorem gains_procs {w w' : Mach} (h : w'.procs = w.procs) : Gains w w' := fun n => by rw [h]

theorem gains_run (C : Cfg) (d : Desc) (w : Mach) : (d.run C w).Moves Gains w := moves_mono (fun _ _ h => gains_procs h.procs) ((confined_run C d).moves w)

theorem gains_env (upper : String → String) (a : StimArg) (b : TrigArg) (c : EnvTimes) (t : ℚ) (w : Mach) :
    (envProcess (fun env (w : Mach) => { w with env := some env }) envOf upper a b c t w).Moves Gains w := by
  have h : ∀ l i time w, (envLoop (fun env (w : Mach) => { w with env := some env }) envOf i time l w).Moves Gains w := by
    intro l
    induction l with
    | nil => intro i time w; exact gains_refl w
    | cons s r ih =>
      intro i time w
      simp only [envLoop]
      split
      · exact gains_refl w
      · split
        · exact gains_refl w
        · exact ⟨gains_procs rfl, fun w' => ih _ _ w'⟩
  unfold envProcess
  dsimp only
  split
  · exact gains_refl w
  · exact ⟨gains_procs rfl, fun w' => h _ _ _ w'⟩

theorem gains_queue (w : Mach) (n : String) (d : Desc) : Gains w (w.queue n d) := fun m => by
  show _ <+: requestsFor m (w.procs ++ _)
  rw [requestsFor_append]; exact List.prefix_append _ _

theorem gains_harvest (t : ℚ) : ∀ l w, Gains w (harvestAll t l w)
  | [], w => gains_refl w
  | n :: r, w => by
    unfold harvestAll
    refine gains_trans _ _ _ ?_ (gains_harvest t r _)
    split
    · exact gains_queue w n _
    · exact gains_refl w

theorem gains_updateLoop (C : Cfg) (t : ℚ) : ∀ l temp w, (updateLoop C t l temp w).Moves Gains w
  | [], temp, w => gains_refl w
  | (k, v) :: r, temp, w => by
    unfold updateLoop
    refine moves_bind gains_trans (moves_act ?_) fun _ w => ?_
    · split <;> exact gains_refl _
    refine moves_bind gains_trans (moves_get gains_refl _ w) fun bv w => ?_
    refine moves_bind gains_trans (moves_set (gains_procs (confined_setState (n := k.name)).procs)) fun _ w => ?_
    have hrest := fun w => gains_updateLoop C t r (temp.popVar k.name) w
    dsimp only
    split
    · exact moves_bind gains_trans (moves_set (gains_queue w _ _)) fun _ w => hrest w
    · exact moves_bind gains_trans (moves_mono (fun _ _ h => gains_procs h.procs) ((confined_immediate C k v bv t).moves w)) fun _ w => hrest w

theorem gains_rhs (C : Cfg) (n : String) (rule : CRule) (t : ℚ) (w : Mach) : (genRhs C n rule t w).Moves Gains w := by
  unfold genRhs
  refine moves_bind gains_trans (moves_lift gains_refl _ w) fun rhs w => ?_
  refine moves_bind gains_trans ?_ fun _ w => moves_set (gains_procs ?_)
  · unfold genUpdate
    refine moves_bind gains_trans (moves_get gains_refl _ w) fun temp w => ?_
    refine moves_bind gains_trans (moves_lift gains_refl _ w) fun sorted w => ?_
    refine moves_bind gains_trans (gains_updateLoop C t _ _ w) fun left w => moves_set ?_
    split
    · exact gains_harvest t _ w
    · exact gains_refl w
  · split
    · split <;> rfl
    · rfl

theorem procs_compileIn (C : Cfg) (w : Mach) : (compileIn C w).1.procs = w.procs := by
  unfold compileIn
  split
  · dsimp only
    split <;> rfl
  · rfl

theorem gains_fire (C : Cfg) (n : String) (rule : CRule) (t : ℚ) (w : Mach) : (genFire C n rule t w).Moves Gains w := by
  unfold genFire
  refine moves_bind gains_trans (moves_set (gains_procs ?_)) fun _ w => ?_
  · unfold rewardStep
    split
    · split <;> rfl
    · rfl
  refine moves_bind gains_trans (moves_act (gains_procs (procs_compileIn C w))) fun comp w => ?_
  refine moves_bind gains_trans (moves_set (gains_procs rfl)) fun _ w => ?_
  have hrest : ∀ w, ((do .set (fun w => { w with curSlots := w.noSlots }); .event t procName (.fired n); genRhs C n rule t : GenM Unit) w).Moves Gains w := fun w =>
    moves_bind gains_trans (moves_set (gains_procs rfl)) fun _ w => moves_bind gains_trans (moves_event gains_refl _ _ _ w) fun _ w => gains_rhs C n rule t w
  dsimp only
  rcases comp with _ | ⟨m, re⟩
  · exact hrest w
  · exact moves_bind gains_trans (moves_event gains_refl _ _ _ w) fun _ w => hrest w

theorem gains_procedural (C : Cfg) (t : ℚ) (w : Mach) : (genProcedural C t w).Moves Gains w := by
  unfold genProcedural
  refine moves_bind gains_trans (moves_set fun m => ?_) fun _ w => ?_
  · show _ <+: requestsFor m (w.procs ++ _)
    rw [requestsFor_append]; exact List.prefix_append _ _
  refine moves_bind gains_trans (moves_event gains_refl _ _ _ w) fun _ w => ?_
  refine moves_bind gains_trans (moves_act (gains_procs ?_)) fun sel w => ?_
  · unfold selectIn
    dsimp only
    split
    · rfl
    · rfl
    · split <;> rfl
  have hlast : ∀ w, (GenM.yield .procs w).Moves Gains w := fun w => moves_yield gains_refl _ w
  dsimp only
  rcases sel with _ | ⟨n, rule⟩
  · refine moves_bind gains_trans (moves_set fun m => ?_) fun _ w => moves_bind gains_trans (moves_event gains_refl _ _ _ w) fun _ w => hlast w
    show _ <+: requestsFor m (removeProcedural w.procs)
    rw [requestsFor_remove]
  · refine moves_bind gains_trans ?_ fun _ w => hlast w
    unfold genSelected
    refine moves_bind gains_trans (moves_set (gains_procs rfl)) fun _ w => ?_
    refine moves_bind gains_trans (moves_event gains_refl _ _ _ w) fun _ w => ?_
    refine moves_bind gains_trans (moves_event gains_refl _ _ _ w) fun _ w => ?_
    unfold genTest
    refine moves_bind gains_trans (moves_lift gains_refl _ w) fun lhs w => ?_
    refine moves_bind gains_trans (moves_act (gains_procs rfl)) fun m w => ?_
    cases m with
    | none => exact moves_event gains_refl _ _ _ w
    | some bv => exact moves_bind gains_trans (moves_set (gains_procs rfl)) fun _ w => gains_fire C n rule _ w

end Verif
