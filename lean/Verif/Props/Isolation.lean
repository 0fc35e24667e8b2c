import Verif.Lemmas.Confined
import Verif.Lemmas.ExMachine
import Verif.Props.Update
/-! # Property C53: processes of modules work for one buffer only -/
namespace Verif.Props
open Verif Verif.Spec

/-- C53, buffers: throughout the run of a process every other buffer stays as it was, unless others change it. -/
theorem C53_buffers (C : Cfg) (d : Desc) (w : Mach) (m : String) (hm : m ≠ worksFor d) (l : List (Mach × YV)) (e : GEnd Mach Unit)
    (hr : Runs (Alone m) (d.run C w) l e) :
    (∀ x ∈ l, x.1.buf m = w.buf m) ∧ (∀ w', e = .ret w' () → w'.buf m = w.buf m) ∧ ∀ w' x, e = .raise w' x → w'.buf m = w.buf m := by
  have h := moves_mono (R' := Alone m) (fun _ _ h => h.others m hm) ((confined_run C d).moves w)
  obtain ⟨h1, h2, h3⟩ := runs_moves (R := Alone m) (fun _ _ _ a b => Eq.trans b a) (fun _ _ h => h) hr h
  exact ⟨h1, fun w' => h2 w' (), h3⟩

/-- C53, rules: throughout the run of a process the rules, their utilities and uses, the bindings and the list of processes stay as
they were, and no buffer is created, removed or replaced by one of another class. -/
theorem C53_rules (C : Cfg) (d : Desc) (w : Mach) (l : List (Mach × YV)) (e : GEnd Mach Unit)
    (hr : Runs (fun a b => Private a b ∧ Calm a b) (d.run C w) l e) :
    (∀ x ∈ l, Private w x.1 ∧ Calm w x.1) ∧ (∀ w', e = .ret w' () → Private w w' ∧ Calm w w') ∧ ∀ w' x, e = .raise w' x → Private w w' ∧ Calm w w' := by
  have h := moves_mono (R' := fun a b => Private a b ∧ Calm a b)
    (fun _ _ h => ⟨⟨h.shape, h.bv, h.rules, h.ordered, h.used, h.usedName, h.lastRule, h.compile⟩, calm_of_confined h⟩) ((confined_run C d).moves w)
  obtain ⟨h1, h2, h3⟩ := runs_moves (R := fun a b => Private a b ∧ Calm a b)
    (fun _ _ _ a b => ⟨private_trans a.1 b.1, calm_trans _ _ _ a.2 b.2⟩) (fun _ _ h => h) hr h
  exact ⟨h1, fun w' => h2 w' (), h3⟩

/-- A model with a full retrieval buffer and an empty goal. -/
def exIsolated : Mach := exArrives (exMach exCompReg (exCycBufs []))

/-- C53, an instance: clearing the goal, with another buffer that is full. -/
example (H : PyHash) : ∃ l e, Runs (Alone "retrieval") ((Desc.clear "g" BV.init 0).run (exCfg (exPy H)) exIsolated) l e ∧
    ((exIsolated.buf "retrieval").map (fun b => b.data.length)) = some 1 ∧ actsOf l = [some .cleared] :=
  ⟨_, _, runs_solo (Rel := Alone "retrieval") (fun _ => rfl) _, rfl, rfl⟩

end Verif.Props
