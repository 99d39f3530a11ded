/-!
# Computing the series with certified error, for checking the table in /repo/known.cc

Nothing here models code of /repo: these are the checking functions of C68, run by Lean's kernel.  A polynomial with integer coefficients
`c_0 … c_(n-1)` (each standing for `c_j / 2^p`) is packed into one natural number, coefficient `j` in the slot of bits
`[s j, s (j + 1))`.  Two forms are used: the *stored* form has the slots `c_j + beta` (no negative slots), the *residue* form is
`Σ c_j 2^(s j)` modulo `2^(s n)`.  Products of polynomials modulo `z^n` are then products of residues.
-/

namespace Mandelbrot.Known

/-- Bits of a slot. -/
def slot (p : Nat) : Nat := 2 * p + 36

/-- One slot further. -/
def base (p : Nat) : Nat := 2 ^ slot p

/-- One in each of `n` slots. -/
def ones (p n : Nat) : Nat := (base p ^ n - 1) / (base p - 1)

/-- The offset of stored slots. -/
def beta (p : Nat) : Nat := 2 ^ (p + 34)

/-- The stored form of the polynomial of residue `x`, its coefficients divided by `2^p` and rounded down. -/
def rnd (p n x : Nat) : Nat :=
  (((x &&& (base p ^ n - 1)) + 2 ^ (2 * p + 34) * ones p n) >>> p) &&& ((2 ^ (p + 35) - 1) * ones p n)

/-- The residue, with `n'` slots, of a stored polynomial with `n` slots. -/
def un (p n n' y : Nat) : Nat := y + (base p ^ n' - beta p * ones p n)

/-- `q^2 + z^(2^(i+1)-1) f`, stored. -/
def stepQ (p n i q f : Nat) : Nat := rnd p n (q * q + f <<< (slot p * (2 ^ (i + 1) - 1) + p))

/-- `2 q d + z^(2^(i+1)-1)`, stored. -/
def stepD (p n i q d : Nat) : Nat := rnd p n (2 * (q * d) + 1 <<< (slot p * (2 ^ (i + 1) - 1) + 2 * p))

/-! ## Finding the series: nothing is proved about these three -/

/-- The residue of `Q_j` from that of `f` (untrusted). -/
def chainQ (p n f : Nat) : Nat → Nat → Nat → Nat
  | 0, _, q => q
  | j + 1, i, q => chainQ p n f j (i + 1) (un p n n (stepQ p n i q f))

/-- The residue of the derivative of `Q_j` (untrusted). -/
def chainD (p n f : Nat) : Nat → Nat → Nat → Nat → Nat
  | 0, _, _, d => d
  | j + 1, i, q, d => chainD p n f j (i + 1) (un p n n (stepQ p n i q f)) (un p n n (stepD p n i q d))

/-- The reciprocal of `d` with `2^j` terms, stored (untrusted). -/
def inv (p k d : Nat) : Nat → Nat
  | 0 => 2 ^ (p - k) + beta p
  | j + 1 =>
    let n := 2 ^ (j + 1)
    let x := un p (2 ^ j) n (inv p k d j)
    let e := un p n n (rnd p n (d * x))
    rnd p n (x * (4 * base p ^ n + 2 ^ (p + 1) - e))

/-- The series with `2^k` terms by Newton's method, stored (untrusted). -/
def newton (p : Nat) : Nat → Nat
  | 0 => 2 ^ p + beta p
  | k + 1 =>
    let n := 2 ^ (k + 1)
    let f := un p (2 ^ k) n (newton p k)
    let q := chainQ p n f (k + 1) 0 f
    let d := chainD p (2 ^ k) f (k + 1) 0 f (2 ^ p)
    let x := un p (2 ^ k) n (inv p (k + 1) d k)
    let c := un p n n (rnd p n ((q + base p ^ n - 2 ^ p) * x))
    rnd p n ((f + 4 * base p ^ n - c) <<< p)

/-! ## Checking it -/

/-- The sum of the slots of `y`. -/
def total (p y : Nat) : Nat := y % (base p - 1)

/-- The sum of the absolute values of the coefficients of a stored polynomial. -/
def norm (p n y : Nat) : Nat :=
  2 * total p (y &&& (((y >>> (p + 34)) &&& ones p n) * (2 ^ (p + 34) - 1))) + n * beta p - total p y

/-- Product of two bounds with `2 p` binary places, rounded up. -/
def mulUp (p a b : Nat) : Nat := (a * b) / 2 ^ (2 * p) + 1

/-- The bound on the error at the next level. -/
def stepW (p n h nq nd w : Nat) : Nat :=
  let a := mulUp p (2 ^ p * nd) h + w
  mulUp p (2 ^ (p + 1) * nq) w + mulUp p a a + n * 2 ^ p + mulUp p (n * 2 ^ p) h

/-- `y` is the stored form of some polynomial. -/
def wf (p n y : Nat) : Bool := Nat.beq (y &&& ((2 ^ (p + 35) - 1) * ones p n)) y

/-- The last part of the check: `y` is the stored `Q_k`, `d` the stored derivative, `x` the claimed reciprocal of the derivative. -/
def finish (p n h w y d x : Nat) : Bool :=
  let nx := norm p n x
  let e := norm p n (rnd p n (un p n n x * un p n n d + (base p ^ n - 2 ^ (2 * p)))) + n
  wf p n x && Nat.ble (nx * norm p n d + 2 ^ (2 * p)) (2 ^ (2 * p + 34) - 1) && Nat.ble (e + 1) (2 ^ p)
    && Nat.ble (nx * (2 ^ p * (norm p n y - 2 ^ p) + w) + e * h) (2 ^ p * h)

/-- The check from level `i`, with `j` levels to come: `y` and `d` are the stored `Q_i` and its derivative, `w` the error bound. -/
def levels (p n k h f : Nat) : Nat → Nat → Nat → Nat → Nat → Bool
  | 0, _, y, d, w => finish p n h w y d (inv p k (un p n n d) k)
  | j + 1, i, y, d, w =>
    let nq := norm p n y
    let nd := norm p n d
    Nat.ble (nq * nq + 2 ^ p * norm p n f) (2 ^ (2 * p + 34) - 1)
      && Nat.ble (2 * (nq * nd) + 2 ^ (2 * p)) (2 ^ (2 * p + 34) - 1)
      && levels p n k h f j (i + 1) (stepQ p n i (un p n n y) (un p n n f)) (stepD p n i (un p n n y) (un p n n d))
          (stepW p n h nq nd w)

/-- One in the first of `n` slots, stored. -/
def unit (p n : Nat) : Nat := 2 ^ p + beta p * ones p n

/-- The check of the stored series `f` with `2^k` terms: if it passes, the absolute errors of the terms add up to at most `h / 4^p`. -/
def check (p k h f : Nat) : Bool :=
  Nat.ble k p && wf p (2 ^ k) f && Nat.beq (f % base p) (2 ^ p + beta p) && levels p (2 ^ k) k h f k 0 f (unit p (2 ^ k)) 0

/-- `Σ (i - 1) c_i^2` over the `2^l` slots of `y`, which are those numbered from `off`. -/
def wsum (p : Nat) : Nat → Nat → Nat → Nat
  | 0, off, y => (off - 1) * ((y - beta p) * (y - beta p) + (beta p - y) * (beta p - y))
  | l + 1, off, y => wsum p l off (y &&& (base p ^ 2 ^ l - 1)) + wsum p l (off + 2 ^ l) (y >>> (slot p * 2 ^ l))

/-- `Σ_(i < 2^k) (i - 1) c_i^2` of a stored polynomial. -/
def gsum (p y : Nat) : Nat → Nat
  | 0 => 0
  | k + 1 => gsum p y k + wsum p k (2 ^ k) ((y >>> (slot p * 2 ^ k)) &&& (base p ^ 2 ^ k - 1))

/-- `Σ_(j < m) floor(2^c / ((4 j + a) x^(4 j + a)))`. -/
def atanPart (x c a : Nat) : Nat → Nat
  | 0 => 0
  | j + 1 => atanPart x c a j + 2 ^ c / ((4 * j + a) * x ^ (4 * j + a))

/-- A lower bound of `2^c pi` with `m` pairs of terms of each series in Machin's formula (the last summand pays for the rest). -/
def piLo (c m : Nat) : Nat :=
  16 * atanPart 5 c 1 m + 4 * atanPart 239 c 3 m - 16 * (atanPart 5 c 3 m + m) - 4 * (atanPart 239 c 1 m + m) - (2 ^ (c + 6) / 25 ^ (2 * m) + 1)

/-- An upper bound of `2^c pi`. -/
def piHi (c m : Nat) : Nat :=
  16 * (atanPart 5 c 1 m + m) + 4 * (atanPart 239 c 3 m + m) + (2 ^ (c + 6) / 25 ^ (2 * m) + 1) - 16 * atanPart 5 c 3 m - 4 * atanPart 239 c 1 m

/-- The ball `(v ± r) / 10^a` and `10^b` encloses the area estimate from `2^k` terms of the series, as far as the stored series `f` with
`n` terms, checked with error `h`, can tell. -/
def fits (p n h f k v a r b : Nat) : Bool :=
  let lo := piLo p (p / 9 + 1)
  let hi := piHi p (p / 9 + 1)
  let err := n * mulUp p h (2 ^ (p + 1) * norm p n f + h)
  let g := gsum p f k
  Nat.ble (v * 10 ^ b * 2 ^ (3 * p)) (lo * (2 ^ (2 * p) - g - err) * 10 ^ (a + b) + r * 10 ^ a * 2 ^ (3 * p))
    && Nat.ble (g + err) (2 ^ (2 * p))
    && Nat.ble (hi * (2 ^ (2 * p) - g + err) * 10 ^ (a + b)) ((v * 10 ^ b + r * 10 ^ a) * 2 ^ (3 * p))

end Mandelbrot.Known
