import Verif.Cpp.Basic

/-!
Input streams of the C++ standard library over a string (`std::stringstream`, `std::fstream` opened for reading),
printing of integers, and FLINT's reading of integers.  Strings are lists of characters; the locale is "C" and
characters are bytes, as for files written by this program.
-/

namespace Hycu

/-- `isspace` in the "C" locale. -/
def isSpace (c : Char) : Bool :=
  c = ' ' || c = '\t' || c = '\n' || c = '\x0b' || c = '\x0c' || c = '\r'

/-- Decimal digits. -/
def isDigit (c : Char) : Bool := 48 ≤ c.toNat && c.toNat ≤ 57

/-- The value of a string of digits. -/
def digitsVal (l : List Char) : Nat := l.foldl (fun a c => 10 * a + (c.toNat - 48)) 0

/-- The character of a digit. -/
def digitChar (n : Nat) : Char := Char.ofNat (48 + n)

/-- Decimal digits of `n`, most significant first; `fuel > n` is enough. -/
def showAux : Nat → Nat → List Char
  | 0, _ => []
  | fuel + 1, n => if n < 10 then [digitChar n] else showAux fuel (n / 10) ++ [digitChar (n % 10)]

/-- `stream << n` for unsigned integers. -/
def showNat (n : Nat) : List Char := showAux (n + 1) n

/-- `stream << z` for signed integers, and `fmpz_get_str`. -/
def showInt (z : Int) : List Char := if z < 0 then '-' :: showNat z.natAbs else showNat z.natAbs

/-- State of an input stream: the characters not yet read, `eofbit` and `failbit`. -/
structure IStream where
  rest : List Char
  eof : Bool
  fail : Bool
deriving DecidableEq

namespace IStream

/-- A stream over a string. -/
def ofList (l : List Char) : IStream := ⟨l, false, false⟩

/-- `good()`. -/
def good (s : IStream) : Bool := !s.eof && !s.fail

/-- An optional sign: whether it is a minus, and the characters after it. -/
def sign : List Char → Bool × List Char
  | '-' :: l => (true, l)
  | '+' :: l => (false, l)
  | l => (false, l)

/-- `int` nearest to `z`. -/
def clamp (z : Int) : Int :=
  if z < -2147483648 then -2147483648 else if z > 2147483647 then 2147483647 else z

/-- `stream >> n` for `int n`, `v` being the value of `n` before (`none`: not initialised).  A stream that is
not good only gets `failbit`, and so does one with nothing but white space left; `n` is then unchanged.  Without
digits `n` becomes 0, out of range it becomes the nearest `int`, both with `failbit`.  If the number
extends to the end of the characters, `eofbit` is set. -/
def readInt (s : IStream) (v : Option Int) : IStream × Option Int :=
  if !s.good then ({ s with fail := true }, v)
  else match s.rest.dropWhile isSpace with
    | [] => (⟨[], true, true⟩, v)
    | c :: l =>
      let sl := sign (c :: l)
      let ds := sl.2.takeWhile isDigit
      let after := sl.2.dropWhile isDigit
      if ds.isEmpty then (⟨after, after.isEmpty, true⟩, some 0)
      else
        let z : Int := if sl.1 then -(digitsVal ds : Int) else digitsVal ds
        (⟨after, after.isEmpty, decide (clamp z ≠ z)⟩, some (clamp z))

/-- `stream.peek()`: `none` stands for end of file. -/
def peek (s : IStream) : IStream × Option Char :=
  if !s.good then ({ s with fail := true }, none)
  else match s.rest with
    | [] => ({ s with eof := true }, none)
    | c :: _ => (s, some c)

/-- `stream.ignore(1)`. -/
def ignore (s : IStream) : IStream :=
  if !s.good then { s with fail := true }
  else match s.rest with
    | [] => { s with eof := true }
    | _ :: l => { s with rest := l }

/-- `getline(stream, str, delim)`, `old` being the string before: a stream that is not good only gets `failbit`;
otherwise the characters up to the delimiter are read and the delimiter is dropped.  Without delimiter `eofbit` is
set, and `failbit` if there was no character at all. -/
def getline (s : IStream) (delim : Char) (old : List Char) : IStream × List Char :=
  if !s.good then ({ s with fail := true }, old)
  else match s.rest.dropWhile (· ≠ delim) with
    | [] => (⟨[], true, s.rest.isEmpty⟩, s.rest)
    | _ :: l => ({ s with rest := l }, s.rest.takeWhile (· ≠ delim))

end IStream

/-- The digits of a number as GMP reads them after the sign: the first character must be a digit, white space in
between is skipped, anything else is an error (`none`). -/
def gmpDigits (t : List Char) : Option Nat :=
  match t with
  | [] => none
  | c :: _ =>
    if isDigit c then
      let u := t.filter fun c => !isSpace c
      if u.all isDigit then some (digitsVal u) else none
    else none

/-- `fmpz_init; fmpz_set_str(f, str, 10)`, where the string ends at the first NUL: on a malformed string the value
remains 0. -/
def fmpzOfString (s : List Char) : Int :=
  match (s.takeWhile (· ≠ '\x00')).dropWhile isSpace with
  | '-' :: t => match gmpDigits t with
    | some n => -(n : Int)
    | none => 0
  | t => match gmpDigits t with
    | some n => n
    | none => 0

end Hycu
