import Verif.IO.Print

/-!
# Model of errors that end a program: /repo/debug.h 8-17, /repo/debug.cc 11-29, `die(e.what())` in the programs, /repo/format.h 9-10

`die(e.what())` passes a `const char*`, for which the template of /repo/debug.h 9-11 is the better overload, so the message is the format string
of `tfm::format` without arguments.  tinyformat is a library that is not in /repo (/repo/meson.build 56-58 downloads it): a format string is
copied up to a `%`, `%%` stands for one `%`, and a conversion without an argument is `TINYFORMAT_ERROR`, which is `assert(0 && ...)`.
`BREAK_ON_ASSERT` is not set.
-/

namespace Verif.Print

/-- The function `printFormatStringLiteral` of tinyformat: the text that is written, and the part of the format string where it stops. -/
def literal : Str → Str × Str
  | [] => ([], [])
  | [c] => if c = '%' then ([], [c]) else ([c], [])
  | c :: d :: r =>
    if c = '%' then
      if d = '%' then ('%' :: (literal r).1, (literal r).2) else ([], c :: d :: r)
    else (c :: (literal (d :: r)).1, (literal (d :: r)).2)

/-- `tfm::format(fmt)` for a `const char*`; `none` is the end by `abort`.  `ndebug` says whether `assert` is off; the default of
/repo/meson.build 1-7 is on. -/
def format0 (ndebug : Bool) (fmt : Str) : Option Str :=
  if (literal fmt).2 = [] ∨ ndebug = true then some (literal fmt).1 else none

/-- `tfm::format` with arguments that are strings, for format strings with the conversion `%s` only.  Like `format0` at the end; too few
conversions are an error, too. -/
def formatS (ndebug : Bool) : Str → List Str → Option Str
  | fmt, [] => format0 ndebug fmt
  | fmt, a :: as =>
    match (literal fmt).2 with
    | '%' :: 's' :: r => (formatS ndebug r as).map fun t => (literal fmt).1 ++ a ++ t
    | _ => if ndebug = true then some (literal fmt).1 else none

/-- /repo/debug.cc 13-14: the text of the exception for a failed assertion.  `line` is already in decimal; the conversions are those of
`%s:%d:%s: %s, condition = %s`, all of which have arguments. -/
def assertionText (file line function message condition : Str) : Str :=
  file ++ ':' :: line ++ ':' :: function ++ ':' :: ' ' :: (if message.length ≠ 0 then message else "Assertion failed".toList) ++
    ", condition = ".toList ++ condition

/-- `die(e.what())`: /repo/mandelbrot.cc 98, /repo/logo.cc 228, /repo/series-exp.cc 40, /repo/series-to-npy.cc 29, /repo/tests.cc 128, by
/repo/debug.h 9-11. -/
def dieWhat (ndebug : Bool) (what : Str) (w : World) : Option World := (format0 ndebug (cstr what)).map fun t => die t w

/-- `die("%s (%s)", e.what(), typeid(e).name())`: /repo/codelets.cc 847. -/
def dieNamed (ndebug : Bool) (what name : Str) (w : World) : Option World :=
  (formatS ndebug ['%', 's', ' ', '(', '%', 's', ')'] [cstr what, cstr name]).map fun t => die t w

end Verif.Print
