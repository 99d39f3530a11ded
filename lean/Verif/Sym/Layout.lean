import Verif.Basic
import Mathlib.Data.List.Basic
import Mathlib.Logic.Function.Basic

/-!
# Model of how the generator writes its files (/repo/codelets.cc 54-107, 126, 269, 309, 408, 746, 836-850)

The output file and the indentation are global variables, changed by constructors and put back by destructors, which also run when an
exception passes.
-/

namespace Mandelbrot.Sym.Layout

/-- A line of text without its newline. -/
abbrev Line := List Char

/-- A path. -/
abbrev Path := List Char

/-- The global variables (/repo/codelets.cc 55-56) and the files.  `out` is the path of the open file. -/
structure St where
  out : Option Path
  indent : ℕ
  files : Path → Option (List Line)

/-- How a piece of code ends: it returns, throws, or calls `terminate` because a destructor threw. -/
inductive Out
  | done
  | threw
  | terminated
  deriving DecidableEq

/-- /repo/codelets.cc 68, 74: writing to the open file.  `W p` says that `p` could be opened; if not, the stream is in a failed state
and drops what is written without a word. -/
def put (W : Path → Bool) (p : Path) (s : Line) (f : Path → Option (List Line)) : Path → Option (List Line) :=
  if W p then Function.update f p (some ((f p).getD [] ++ [s])) else f

/-- /repo/codelets.cc 65-69 `line()`; `debug` is false. -/
def line0 (W : Path → Bool) (st : St) : St × Out :=
  match st.out with
  | none => (st, .threw)
  | some p => ({ st with files := put W p [] st.files }, .done)

/-- /repo/codelets.cc 70-76 `line(x)`: `%*s` of the empty text is as many spaces as the indentation. -/
def line (W : Path → Bool) (s : Line) (st : St) : St × Out :=
  match st.out with
  | none => (st, .threw)
  | some p => ({ st with files := put W p (List.replicate st.indent ' ' ++ s) st.files }, .done)

/-- What the functions of the generator do, as far as the layout is concerned. -/
inductive Doc
  /-- nothing -/
  | skip
  /-- one thing after the other -/
  | seq (a b : Doc)
  /-- `line(s)` -/
  | text (s : Line)
  /-- `line()` -/
  | blank
  /-- an exception is thrown here -/
  | fail
  /-- a `Scope` with the rest of its C++ block -/
  | scope (close opening : Line) (body : Doc)
  /-- a `Blank` with the rest of its C++ block -/
  | spaced (body : Doc)
  /-- a `Block` with the rest of its C++ block: its counts are those of a finished or of an interrupted computation -/
  | block (whole part : Line) (body : Doc)

/-- A destructor that writes a line, run after its C++ block has ended with `o`; destructors do not let exceptions out. -/
def destroy (o : Out) (r : St × Out) : St × Out :=
  match r.2 with
  | .done => (r.1, o)
  | _ => (r.1, .terminated)

/-- Execution: /repo/codelets.cc 59-63 `Indent`, 78-87 `Scope`, 89 `Blank`, 126 `~Block`. -/
def exec (W : Path → Bool) : Doc → St → St × Out
  | .skip, st => (st, .done)
  | .seq a b, st =>
    match exec W a st with
    | (st, .done) => exec W b st
    | r => r
  | .text s, st => line W s st
  | .blank, st => line0 W st
  | .fail, st => (st, .threw)
  | .scope close opening body, st =>
    match line W opening st with
    | (st, .done) =>
      let outer := st.indent
      match exec W body { st with indent := st.indent + 2 } with
      | (st, .terminated) => (st, .terminated)
      | (st, o) => destroy o (line W close { st with indent := outer })
    | r => r
  | .spaced body, st =>
    match exec W body st with
    | (st, .terminated) => (st, .terminated)
    | (st, o) => destroy o (line0 W st)
  | .block whole part body, st =>
    match exec W body st with
    | (st, .terminated) => (st, .terminated)
    | (st, o) => destroy o (line W (if o = .done then whole else part) st)

/-- /repo/codelets.cc 95. -/
def slashes : Line := "// ".toList

/-- /repo/codelets.cc 96. -/
def autogenerated : Line := "// Autogenerated by codelets.cc".toList

/-- /repo/codelets.cc 97. -/
def pragmaOnce : Line := "#pragma once".toList

/-- /repo/codelets.cc 100. -/
def incOpen : Line := "#include \"".toList

/-- /repo/codelets.cc 100. -/
def incClose : Line := "\"".toList

/-- /repo/codelets.cc 101. -/
def namespaceOpen : Line := "namespace mandelbrot {".toList

/-- /repo/codelets.cc 105. -/
def namespaceClose : Line := "}  // namespace mandelbrot".toList

/-- The lines of the constructor of `Header` after the file is open (/repo/codelets.cc 95-102). -/
def headerLines (comment : Line) (includes : List Line) : Doc :=
  .seq (.text (slashes ++ comment))
    (.seq (.text autogenerated)
      (.seq (.text pragmaOnce)
        (.seq .blank
          (.seq (includes.foldr (fun i d => .seq (.text (incOpen ++ i ++ incClose)) d) .skip)
            (.seq (.text namespaceOpen) .blank)))))

/-- /repo/codelets.cc 91-107 `Header` with the rest of its C++ block.  Opening a file empties it. -/
def withHeader (W : Path → Bool) (p : Path) (comment : Line) (includes : List Line) (body : Doc) (st : St) : St × Out :=
  match st.out with
  | some _ => (st, .threw)
  | none =>
    let st := { st with out := some p, files := if W p then Function.update st.files p (some []) else st.files }
    match exec W (headerLines comment includes) st with
    | (st, .done) =>
      match exec W body st with
      | (st, .terminated) => (st, .terminated)
      | (st, o) =>
        match destroy o (line W namespaceClose st) with
        | (st, .terminated) => (st, .terminated)
        | (st, o) => ({ st with out := none }, o)
    | r => r

/-- The four generators. -/
inductive Kind
  | expansion
  | mul
  | series
  | butterflies
  deriving DecidableEq

/-- The first arguments of `Header` (/repo/codelets.cc 269, 309, 408, 746). -/
def Kind.comment : Kind → Line
  | .expansion => "Expansion arithmetic codelets".toList
  | .mul => "Multiplication and squaring base cases".toList
  | .series => "Series function base cases".toList
  | .butterflies => "Fourier transform base cases".toList

/-- The includes of `Header` (/repo/codelets.cc 269, 309, 408, 746). -/
def Kind.includes : Kind → List Line
  | .expansion => []
  | _ => ["loops.h".toList]

/-- /repo/codelets.cc 840-844: which generator a path is for; `none` is the call of `die`. -/
def kindOf (p : Path) : Option Kind :=
  if "gen-expansion.h".toList <:+ p then some .expansion
  else if "gen-mul-bases.h".toList <:+ p then some .mul
  else if "gen-series-bases.h".toList <:+ p then some .series
  else if "gen-butterflies.h".toList <:+ p then some .butterflies
  else none

/-- How the process ends. -/
inductive Exit
  | success
  | failure
  | abort
  deriving DecidableEq

/-- /repo/codelets.cc 836-850 `main`.  Every path comes with what the generators would do at that time (signatures are random). -/
def main (W : Path → Bool) : List (Path × (Kind → Doc)) → St → St × Exit
  | [], st => (st, .success)
  | (p, body) :: ps, st =>
    match kindOf p with
    | none => (st, .failure)
    | some k =>
      match withHeader W p k.comment k.includes (body k) st with
      | (st, .done) => main W ps st
      | (st, .threw) => (st, .failure)
      | (st, .terminated) => (st, .abort)

end Mandelbrot.Sym.Layout
