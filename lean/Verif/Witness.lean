import Verif.Lattice

/-!
# A concrete interpretation and state, used for witnesses and non-vacuity examples
-/

namespace Caesar

/-- Every domain sort has exactly one element. -/
@[reducible] def unitDoms : Doms := ⟨fun _ => Unit, fun _ => ⟨()⟩⟩

/-- All functions return the default value; `a / 0 = a`, `a % 0 = a`. -/
@[reducible] def unitInterp : @Interp unitDoms :=
  letI := unitDoms
  ⟨fun {t} _ _ => t.default, id, id, id, id⟩

/-- The state in which all variables have their default value (`0`, `false`, ...). -/
def zeroEnv : @Env unitDoms := fun v => @Ty.default unitDoms v.ty

end Caesar
