import Verif.Series.Model
import Verif.Loops.Model

/-!
# Text files of series (/repo/series.cc 99-194)

A file is the list of its characters.  Numbers are written by `fmt` (`safe` of /repo/format.h 16 and
/repo/expansion.cc 62-74) and read by `parse` (`stod` or the string constructors).
-/

namespace Mandelbrot.IO

abbrev Str := List Char

/-- `isspace` in the "C" locale.  (For bytes above 127 the argument `v[0]` of type `char` is negative; glibc's table
covers that and says no.) -/
def isSpace (c : Char) : Bool := c = ' ' || c = '\t' || c = '\n' || c = '\x0b' || c = '\x0c' || c = '\r'

/-- /repo/series.cc 138-141 `trim`. -/
def trim (s : Str) : Str := s.dropWhile isSpace

/-- The lines successive calls of `std::getline` deliver; what follows the last newline is a line if not empty. -/
def getlines : Str → List Str
  | [] => []
  | c :: s =>
    if c = '\n' then [] :: getlines s
    else match getlines s with
      | [] => [[c]]
      | l :: ls => (c :: l) :: ls

/-- Value of a decimal digit. -/
def digitVal (c : Char) : Option ℕ := if '0'.toNat ≤ c.toNat ∧ c.toNat ≤ '9'.toNat then some (c.toNat - '0'.toNat) else none

/-- Value of the longest prefix of digits. -/
def digitsVal : ℕ → Str → ℕ
  | acc, [] => acc
  | acc, c :: s => match digitVal c with
    | some d => digitsVal (10 * acc + d) s
    | none => acc

/-- `std::stol`: white space, a sign, at least one digit; anything may follow; throws if there is no digit or the value
does not fit. -/
def stol (s : Str) : Res ℤ :=
  let s := trim s
  let neg := s.head? = some '-'
  let s := if s.head? = some '-' ∨ s.head? = some '+' then s.tail else s
  match s with
  | [] => .error .exception
  | c :: _ =>
    if (digitVal c).isSome then
      let i : ℤ := if neg then -(digitsVal 0 s : ℤ) else digitsVal 0 s
      if -2 ^ 63 ≤ i ∧ i < 2 ^ 63 then .ok i else .error .exception
    else .error .exception

/-- /repo/series.cc 142-148 `number`. -/
def number (n : Str) : Res ℤ :=
  match stol n with
  | .ok i => if i ≥ 0 then .ok i else .error .exception
  | .error _ => .error .exception

/-- Local variables of `read_series`. -/
structure Rd (K : Type) where
  known : ℤ
  nonzero : ℤ
  terms : ℤ
  comments : List Str
  x : Ser K

/-- /repo/series.cc 150-152. -/
def Rd.init {K : Type} (junk : ℕ → K) : Rd K := ⟨-1, -1, -1, [], Ser.new 0 junk⟩

def kw (s : String) : Str := s.toList

/-- /repo/series.cc 160-175: the counts after a comment `v` (without the `#`, left-trimmed). -/
def readCounts (v : Str) (known nonzero : ℤ) : Res (ℤ × ℤ) :=
  if (kw "known =").isPrefixOf v then do
    slowAssert (known < 0)
    let k ← number (v.drop 7)
    return (k, nonzero)
  else if (kw "nonzero =").isPrefixOf v then do
    slowAssert (nonzero < 0)
    let k ← number (v.drop 9)
    return (known, k)
  else if (kw "terms =").isPrefixOf v then do
    slowAssert (known < 0 ∧ nonzero < 0)
    let k ← number (v.drop 7)
    return (k, k)
  else return (known, nonzero)

/-- /repo/series.cc 155-190, one line. -/
def readLine {K : Type} (parse : Str → Res K) (J : Junk K) (st : Rd K) (line : Str) : Res (Rd K) :=
  let v := trim line
  match v with
  | [] => .ok st
  | c :: v' =>
    if c = '#' then do
      let v := trim v'
      let comments := st.comments ++ [v]
      let (known, nonzero) ← readCounts v st.known st.nonzero
      if known ≥ 0 ∧ nonzero ≥ 0 then do
        slowAssert (known ≥ nonzero)
        let x ← (Ser.new nonzero (J [comments.length])).setCounts known nonzero
        return ⟨known, nonzero, 0, comments, x⟩
      else return ⟨known, nonzero, st.terms, comments, st.x⟩
    else do
      slowAssert (st.terms ≥ 0 ∧ st.terms < st.nonzero)
      let a ← parse v
      return { st with
        terms := st.terms + 1
        x := { st.x with data := Function.update st.x.data st.terms.toNat a } }

/-- The loop over the lines. -/
def readLines {K : Type} (parse : Str → Res K) (J : Junk K) : List Str → Rd K → Res (Rd K)
  | [], st => .ok st
  | l :: ls, st => do
    let st ← readLine parse J st l
    readLines parse J ls st

/-- /repo/series.cc 131-194 `read_series` on the host.  A file that cannot be opened reads as an empty one. -/
def readSeries {K : Type} (parse : Str → Res K) (J : Junk K) (file : Str) : Res (List Str × Ser K) := do
  let st ← readLines parse J (getlines file) (Rd.init (J []))
  slowAssert (st.terms = st.nonzero)
  return (st.comments, st.x)

/-! ## Writing -/

/-- Decimal digits. -/
def showNat (n : ℕ) : Str :=
  if n < 10 then [Char.ofNat (48 + n)] else showNat (n / 10) ++ [Char.ofNat (48 + n % 10)]

/-- `%d`. -/
def showInt (i : ℤ) : Str := if i < 0 then '-' :: showNat i.natAbs else showNat i.natAbs

/-- A comment line (/repo/series.cc 117-118). -/
def commentLine (c : Str) : Str := kw "# " ++ c ++ ['\n']

/-- /repo/series.cc 110-118: the comment lines; `time` is the string of 99-104. -/
def headerText (comments : List Str) (known nonzero : ℤ) (time : Str) : Str :=
  (comments ++ [kw "known = " ++ showInt known, kw "nonzero = " ++ showInt nonzero, time]).flatMap commentLine

/-- `r` is the result of some complete execution of `map_reduce(y, reduce, map, n)` (/repo/loops.h 68-101) with some
number of threads. -/
def MapReduced {Y : Type} (reduce : Y → Y → Y) (map : ℤ → Y) (n : ℤ) (y r : Y) : Prop :=
  ∃ (threads : ℕ) (s : MRState Y), 0 < threads ∧ MRState.Steps reduce map n threads MRState.init (.ok s) ∧
    (∀ t < threads, s.pc t = .done) ∧ r = s.finish reduce y

/-- /repo/series.cc 122-128: what the loop over batches appends from `start` on.  There is no `r` if the loop does not
end. -/
inductive Batches {K : Type} (fmt : K → Str) (data : ℕ → K) (nonzero batch : ℤ) : ℤ → Str → Prop
  | stop {start : ℤ} : ¬start < nonzero → Batches fmt data nonzero batch start []
  | next {start : ℤ} {s r : Str} : start < nonzero →
    MapReduced (· ++ ·) (fun i => fmt (data (start + i).toNat) ++ ['\n']) (min batch (relu (nonzero - start))) [] s →
    Batches fmt data nonzero batch (start + batch) r → Batches fmt data nonzero batch start (s ++ r)

/-- /repo/series.cc 106-129 `write_series`: a possible content of the file after the call.  Failures of the stream are
not noticed by the code; the file is then a prefix of such a content. -/
def WriteSeries {K : Type} (fmt : K → Str) (comments : List Str) (time : Str) (x : Ser K) (batch : ℤ) (file : Str) : Prop :=
  ∃ r, Batches fmt x.data x.nonzero batch 0 r ∧ file = headerText comments x.known x.nonzero time ++ r

end Mandelbrot.IO
