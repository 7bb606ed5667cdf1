import Verif.Spec.Window

/-!
# Documents one after the other
-/

namespace SegEval.Spec

/-- Two documents joined: there is a boundary between them. -/
def joined (p q : List Bool) : List Bool := p ++ true :: q

end SegEval.Spec
