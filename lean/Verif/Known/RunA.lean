import Verif.Known.Table

/-!
# The kernel checks the first rows of the table (C68)
-/

namespace Mandelbrot.Known

/-- The rows with `k ≤ 13`, to about 600 digits. -/
theorem run_first : run 2080 13 (2 ^ 2130) (areas.take 14) = true := by decide +kernel

end Mandelbrot.Known
