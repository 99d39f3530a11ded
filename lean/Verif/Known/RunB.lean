import Verif.Known.RunA

/-!
# The kernel checks the last rows of the table (C68)
-/

namespace Mandelbrot.Known

/-- The rows with `k ≥ 14`, to 20 digits. -/
theorem run_last : run 172 16 (2 ^ 244) (areas.drop 14) = true := by decide +kernel

end Mandelbrot.Known
