import Verif.Model.Files

/-!
Model of configuration nodes: `ConfigNode::verify` and `serialize` (src/config/config_node.hh), the conversion from
and to YAML (src/config/config_node.cc), and the serialization of tuples (src/utils/serialization_tuple.hh).
-/

namespace Hycu

/-- `ConfigNode` (src/config/config_node.hh l.39-51).  Paths are strings: on POSIX systems `generic_string` and the
constructor from a string do not change anything. -/
structure ConfigNode where
  prime : Nat
  primeExponent : Nat
  genus : Nat
  withMarkedPoint : Bool
  countExponent : Nat
  resultPath : List Char
  packageSize : Nat
deriving DecidableEq

/-- The part of the file system that matters here: which paths are directories, and their entries. -/
abbrev FileSystem := List Char → Option Dir

/-- Replace the content of a directory. -/
def FileSystem.set (fs : FileSystem) (p : List Char) (d : Dir) : FileSystem :=
  fun q => if q = p then some d else fs q

namespace ConfigNode

/-- `verify` (src/config/config_node.hh l.54-61).  `create` is the outcome of `create_directories`, if it is called:
the directory is there afterwards, or the function returns false (`ok false`), or it throws (`abort`). -/
def verify (c : ConfigNode) (fs : FileSystem) (create : Res Bool) : Res (FileSystem × Bool) :=
  if c.prime ≠ 0 ∧ c.primeExponent ≠ 0 ∧ c.genus ≠ 0 ∧ c.countExponent ≠ 0 then
    if (fs c.resultPath).isSome then .ok (fs, c.packageSize ≠ 0)
    else do
      let created ← create
      if created then pure (fs.set c.resultPath [], c.packageSize ≠ 0) else pure (fs, false)
  else .ok (fs, false)

/-- `prepend_output_path` (src/config/config_node.hh l.63-66): `operator/` of paths puts a separator in between
unless there is one (an absolute right hand side, for which boost only appends, starts with one). -/
def prependOutputPath (c : ConfigNode) (output : List Char) : ConfigNode :=
  if c.resultPath = [] then { c with resultPath := output }
  else if output = [] ∨ c.resultPath.head? = some '/' ∨ output.getLast? = some '/' then
    { c with resultPath := output ++ c.resultPath }
  else { c with resultPath := output ++ '/' :: c.resultPath }

end ConfigNode

/-! ### YAML -/

/-- A value in a YAML map: a scalar with its text, or something else (null, a sequence, a map), for which all
conversions fail. -/
inductive YamlValue where
  | scalar (text : List Char)
  | other
deriving DecidableEq

/-- A YAML map with scalar keys. -/
abbrev YamlMap := List (List Char × YamlValue)

namespace Yaml

/-- `node[key]`, `none` for an undefined node. -/
def get (n : YamlMap) (key : List Char) : Option YamlValue :=
  match n with
  | [] => none
  | e :: n => if e.1 = key then some e.2 else get n key

/-- `node[key] = value`. -/
def put (n : YamlMap) (key : List Char) (v : YamlValue) : YamlMap :=
  match n with
  | [] => [(key, v)]
  | e :: n => if e.1 = key then (key, v) :: n else e :: put n key v

/-- Value of a digit in the bases 8, 10 and 16. -/
def digit (c : Char) : Option Nat :=
  if 48 ≤ c.toNat ∧ c.toNat ≤ 57 then some (c.toNat - 48)
  else if 97 ≤ c.toNat ∧ c.toNat ≤ 102 then some (c.toNat - 87)
  else if 65 ≤ c.toNat ∧ c.toNat ≤ 70 then some (c.toNat - 55)
  else none

/-- Digits of a base. -/
def isDigitOf (base : Nat) (c : Char) : Bool :=
  match digit c with
  | some d => d < base
  | none => false

/-- The value of digits in a base. -/
def valueOf (base : Nat) (l : List Char) : Nat := l.foldl (fun a c => base * a + (digit c).getD 0) 0

/-- Base and remaining characters: yaml-cpp reads integers without a fixed base, so that a leading `0x` means
hexadecimal and a leading `0` octal. -/
def base : List Char → Nat × List Char
  | '0' :: 'x' :: l => (16, l)
  | '0' :: 'X' :: l => (16, l)
  | '0' :: l => (8, '0' :: l)
  | l => (10, l)

/-- `as<int>()` for the text of a scalar; `none` if it throws: there are no digits, or other characters than white
space after them, or the number is out of range. -/
def intOfText (text : List Char) : Option Int :=
  let sl := IStream.sign (text.dropWhile isSpace)
  let bl := base sl.2
  let ds := bl.2.takeWhile (isDigitOf bl.1)
  let z : Int := if sl.1 then -(valueOf bl.1 ds : Int) else valueOf bl.1 ds
  if ds ≠ [] ∧ (bl.2.dropWhile (isDigitOf bl.1)).all isSpace ∧ -2147483648 ≤ z ∧ z < 2147483648 then some z
  else none

/-- The words that yaml-cpp takes for truth values, in lower case. -/
def boolWords : List (List Char × Bool) :=
  [("y".toList, true), ("n".toList, false), ("yes".toList, true), ("no".toList, false), ("true".toList, true),
    ("false".toList, false), ("on".toList, true), ("off".toList, false)]

/-- Lower case of a letter. -/
def lower (c : Char) : Char := if 65 ≤ c.toNat ∧ c.toNat ≤ 90 then Char.ofNat (c.toNat + 32) else c

/-- All letters are lower case, or all are upper case, or all but the first are lower case. -/
def flexibleCase (l : List Char) : Bool :=
  l.all (fun c => lower c = c) || l.all (fun c => lower c ≠ c) ||
    (l.head?.any (fun c => lower c ≠ c) && l.tail.all fun c => lower c = c)

/-- The truth value of a word. -/
def wordValue (l : List Char) : List (List Char × Bool) → Option Bool
  | [] => none
  | e :: ws => if e.1 = l then some e.2 else wordValue l ws

/-- `as<bool>()` for the text of a scalar; `none` if it throws. -/
def boolOfText (text : List Char) : Option Bool :=
  if flexibleCase text then wordValue (text.map lower) boolWords else none

/-- `node[key].as<T>()`: an exception, modelled by `abort`, if the node is undefined or cannot be converted. -/
def as {α : Type} (conv : List Char → Option α) (v : Option YamlValue) : Res α :=
  match v with
  | some (.scalar text) => match conv text with
    | some a => .ok a
    | none => .abort
  | _ => .abort

/-- Conversion from `int` to `unsigned int`. -/
def toUnsigned (z : Int) : Nat := (z % 4294967296).toNat

/-- `as<int>()` assigned to an `unsigned int`. -/
def asUnsigned (v : Option YamlValue) : Res Nat := do
  let z ← as intOfText v
  pure (toUnsigned z)

/-- `count_exponent` in `decode` (src/config/config_node.cc l.97-100). -/
def countExponent (n : YamlMap) (genus : Nat) : Res Nat :=
  if (get n "CountExponent".toList).isSome then asUnsigned (get n "CountExponent".toList) else .ok genus

/-- `decode` (src/config/config_node.cc l.78-107); `ok none` stands for the return value false. -/
def decode (n : YamlMap) : Res (Option ConfigNode) :=
  if (get n "Prime".toList).isNone ∨ (get n "PrimeExponent".toList).isNone ∨ (get n "Genus".toList).isNone ∨
      (get n "ResultPath".toList).isNone ∨ (get n "PackageSize".toList).isNone then .ok none
  else do
    let prime ← asUnsigned (get n "Prime".toList)
    let primeExponent ← asUnsigned (get n "PrimeExponent".toList)
    let genus ← asUnsigned (get n "Genus".toList)
    let withMarkedPoint ← as boolOfText (get n "WithMarkedPoint".toList)
    let countExponent ← countExponent n genus
    let resultPath ← as some (get n "ResultPath".toList)
    let packageSize ← asUnsigned (get n "PackageSize".toList)
    pure (some ⟨prime, primeExponent, genus, withMarkedPoint, countExponent, resultPath, packageSize⟩)

/-- `node[key] = n` for an `unsigned int`. -/
def putNat (n : YamlMap) (key : String) (v : Nat) : YamlMap := put n key.toList (.scalar (showNat v))

/-- `node[key] = b` for a `bool`. -/
def putBool (n : YamlMap) (key : String) (b : Bool) : YamlMap :=
  put n key.toList (.scalar (if b then "true".toList else "false".toList))

/-- `encode` (src/config/config_node.cc l.54-76). -/
def encode (c : ConfigNode) : YamlMap :=
  let n : YamlMap := []
  let n := putNat n "Prime" c.prime
  let n := putNat n "PrimeExponent" c.primeExponent
  let n := putNat n "Genus" c.genus
  let n := putBool n "WithMarkedPoint" c.withMarkedPoint
  let n := if c.countExponent ≠ c.genus then putNat n "CountExponent" c.countExponent else n
  let n := put n "ResultPath".toList (.scalar c.resultPath)
  putNat n "PackageSize" c.packageSize

end Yaml

/-! ### Archives -/

/-- A primitive value in an archive. -/
inductive Atom where
  | uint (n : Nat)
  | bool (b : Bool)
  | str (s : List Char)
deriving DecidableEq

/-- An archive: the values in the order in which they were written. -/
abbrev Archive := List Atom

/-- How `ar & x` saves and loads the values of a type; loading is `none` if the archive throws. -/
structure Serial (α : Type) where
  save : α → Archive
  load : Archive → Option (α × Archive)

namespace Serial

/-- `ar & n` for `unsigned int`. -/
def uint : Serial Nat where
  save n := [.uint n]
  load
    | .uint n :: ar => some (n, ar)
    | _ => none

/-- `ar & b` for `bool`. -/
def bool : Serial Bool where
  save b := [.bool b]
  load
    | .bool b :: ar => some (b, ar)
    | _ => none

/-- `ar & s` for `std::string`. -/
def str : Serial (List Char) where
  save s := [.str s]
  load
    | .str s :: ar => some (s, ar)
    | _ => none

/-- Tuples, last entry first: the entry `get<N-1>` and the tuple of the `N-1` entries before it. -/
def Tuple : List (Type) → Type
  | [] => Unit
  | α :: ts => α × Tuple ts

/-- Serialization for each of the types of a list. -/
inductive All : List Type → Type 1
  | nil : All []
  | cons {α : Type} {ts : List Type} (s : Serial α) (l : All ts) : All (α :: ts)

/-- `Serializer<N>::serialize` when saving (src/utils/serialization_tuple.hh l.37-53): `get<N-1>` first, then
`Serializer<N-1>`. -/
def saveTuple : {ts : List Type} → All ts → Tuple ts → Archive
  | [], .nil, _ => []
  | _ :: _, .cons s l, (x, a) => s.save x ++ saveTuple l a

/-- `Serializer<N>::serialize` when loading (src/utils/serialization_tuple.hh l.37-53). -/
def loadTuple : {ts : List Type} → All ts → Archive → Option (Tuple ts × Archive)
  | [], .nil, ar => some ((), ar)
  | _ :: _, .cons s l, ar => do
    let (x, ar) ← s.load ar
    let (a, ar) ← loadTuple l ar
    pure ((x, a), ar)

/-- `serialize` for tuples (src/utils/serialization_tuple.hh l.55-59). -/
def tuple {ts : List Type} (l : All ts) : Serial (Tuple ts) := ⟨saveTuple l, loadTuple l⟩

/-- `serialize` for configurations when saving (src/config/config_node.hh l.75-99). -/
def saveConfig (c : ConfigNode) : Archive :=
  uint.save c.prime ++ uint.save c.primeExponent ++ uint.save c.genus ++ bool.save c.withMarkedPoint ++
    uint.save c.countExponent ++ str.save c.resultPath ++ uint.save c.packageSize

/-- `serialize` for configurations when loading (src/config/config_node.hh l.75-99). -/
def loadConfig (ar : Archive) : Option (ConfigNode × Archive) := do
  let (prime, ar) ← uint.load ar
  let (primeExponent, ar) ← uint.load ar
  let (genus, ar) ← uint.load ar
  let (withMarkedPoint, ar) ← bool.load ar
  let (countExponent, ar) ← uint.load ar
  let (resultPath, ar) ← str.load ar
  let (packageSize, ar) ← uint.load ar
  pure (⟨prime, primeExponent, genus, withMarkedPoint, countExponent, resultPath, packageSize⟩, ar)

/-- Serialization of configurations. -/
def config : Serial ConfigNode := ⟨saveConfig, loadConfig⟩

/-- The items of a vector, one after the other. -/
def loadItems {α : Type} (s : Serial α) : Nat → Archive → Option (List α × Archive)
  | 0, ar => some ([], ar)
  | n + 1, ar => do
    let (x, ar) ← s.load ar
    let (l, ar) ← loadItems s n ar
    pure (x :: l, ar)

/-- `ar & v` for vectors (boost/serialization/vector.hpp, not part of this repository): the number of items, the
version of the items, the items. -/
def vector {α : Type} (s : Serial α) : Serial (List α) where
  save v := .uint v.length :: .uint 0 :: v.flatMap s.save
  load
    | .uint n :: .uint _ :: ar => loadItems s n ar
    | _ => none

end Serial
end Hycu
