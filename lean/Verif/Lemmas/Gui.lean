import Verif.Lemmas.Errors
/-! The clock at the beginning. -/
namespace Verif

theorem init_clock (w : Mach) (args : Option EnvArgs) (t : ℚ) : (Sim.init w args t).now = round4 t := by
  have h : Candidly (do
      let _ ← process .procNew
      initExtra (w.bufs.map Prod.fst)
      if w.env.isSome then do
        let _ ← process .envNew
        pure ()
      else pure () : SimM Unit) := by
    refine candidly_bind candidly_process fun _ => candidly_bind (candidly_initExtra _) fun _ => ?_
    split
    · exact candidly_bind candidly_process fun _ => candidly_pure
    · exact candidly_pure
  have h1 : (Sim.blank w args t).now = round4 t := rfl
  exact ((h (Sim.blank w args t)).now : (Sim.init w args t).now = _).trans h1

end Verif
