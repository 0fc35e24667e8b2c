import Verif.Model.Procedural
/-! # A small machine for examples -/
namespace Verif

/-- The parameters of the examples: nothing random, no compilation. -/
noncomputable def exRP : RParams :=
  { subsymbolic := false, partialMatching := false, penalty := 1, bll := false, decay := 1 / 2, optimized := false, weights := [], S := 0,
    restricted := false, only := true, noise := 0, threshold := 0, F := 1, f := 1,
    ruleFiring := 1 / 20, sims := [] }

/-- A configuration. -/
noncomputable def exCfg (P : Py) : Cfg :=
  { P := P, upper := fun s => String.ofList (s.toList.map Char.toUpper), pyInt := fun _ => Option.none, pyFloat := fun _ => Option.none, rp := exRP,
    up := ⟨false, 0, false, 1 / 5⟩, ruleFiring := 1 / 20, strict := true, compilation := false, autoVisual := false, emmaOn := false,
    fl := fun _ => 1 / 20, draws := fun _ _ => 0, udraws := fun _ _ => 0, emma := fun _ _ _ _ => .error .runtime,
    autoDelay := fun _ _ => 1 / 20, foveal := 50, exec := fun _ b => (b, .ok ()) }

/-- A buffer at rest. -/
def exBuf (cls : BufClass) : Buf :=
  { cls := cls, data := [], dm := Option.none, state := .free, preparation := .free, processor := .free, execution := .free,
    autoattending := .free, delay := 0, finst := 0, recent := [], seen := [], activation := Option.none, lastKey := (Option.none, 0),
    lastMvt := 0, attend := true, focus := (0, 0) }

/-- A model with the given buffers and nothing else. -/
def exMach (reg : Reg) (bufs : List (String × Buf)) : Mach :=
  { reg := reg, mems := [], dms := [], bufs := bufs, rules := [], ordered := [], used := [], bv := BV.init, usedName := Option.none,
    extraTests := [], lastRule := Option.none, lastSlots := [], curSlots := [], compile := Option.none, procs := [], interaction := [],
    motorPrepared := false, env := Option.none, tick := 0, nextId := 0 }

end Verif
