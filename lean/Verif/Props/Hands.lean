import Verif.Props.Interaction
import Verif.Props.Credit
/-! # Models without hands (property C47) -/
namespace Verif.Props
open Verif Verif.Spec

/-- C47, partially, for models without motor buffers: in all states of all simulations, whatever the environment waits for, a process of a
module that reports an event goes on, and the environment is left alone. -/
theorem C47_hands_partial {C : Cfg} {w : Mach} {args : Option EnvArgs} {t0 : ℚ} {s : Sim} (hn : (w.bufs.map Prod.fst).Nodup) (h0 : w.bufs ≠ []) (hi : w.interaction = [])
    (hp : ∀ n i d, .gen n i d ∈ w.procs → Suits (kindsOf w) d) (hm : ∀ q ∈ w.bufs, q.2.cls ≠ .motor) (h : Reachable C w args t0 s)
    (name : String) (e : Verif.Ev) (k : Mach → Out Mach YV Unit) (v : SVal) :
    ∃ s1, localResume name e k (.ok v) s = localRun name (k s1.w) s1 ∧ s1.envActivate = s.envActivate :=
  C47_partial s name e k v fun _ _ _ _ _ _ => by simp [(C94_keys hn h0 hi hp hm h).1]

/-- C47, an instance: a model in which `manual` is a goal, with an environment that waits for a key. -/
example (name : String) (e : Verif.Ev) (k : Mach → Out Mach YV Unit) (v : SVal) {s : Sim} (h : Reachable exC exNoHands exEnvArgs 0 s) :
    ∃ s1, localResume name e k (.ok v) s = localRun name (k s1.w) s1 ∧ s1.envActivate = s.envActivate :=
  C47_hands_partial (by decide) (by simp [exNoHands]) rfl (fun n i d hm => by cases hm) (fun q hq => by rw [List.mem_singleton.1 hq]; simp [exBuf]) h name e k v

end Verif.Props
