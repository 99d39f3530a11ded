import Verif.Spec.Bottcher
import Mathlib.Analysis.Complex.Basic

/-!
# The Mandelbrot set
-/

namespace Mandelbrot

namespace Spec

/-- The Mandelbrot set: the parameters `c` for which the iterates `c, c^2 + c, ...` (`Spec.mandel`) stay bounded.
This is the set `M` of /repo/README.md line 7. -/
def mandelbrotSet : Set ℂ := {c | ∃ R : ℝ, ∀ n, ‖mandel c n‖ ≤ R}

end Spec

end Mandelbrot
