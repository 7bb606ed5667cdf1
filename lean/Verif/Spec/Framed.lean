import Verif.Spec.Locality

/-!
# A document between two stretches
-/

namespace SegEval.Spec

open SegEval

/-- The string `s` with `g` before and `g'` after it. -/
def framed (g g' s : BString) : BString := g ++ (s ++ g')

end SegEval.Spec
