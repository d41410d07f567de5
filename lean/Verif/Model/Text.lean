import Verif.Model.Simplicial
import Verif.Model.Field

/-!
# Model of the text formats: include/linalg/abstract_vector.hpp, sparse_vector.hpp, col_matrix.hpp, include/util/simplex.hpp,
include/complex/simplicial_complex.hpp (save and the constructor from a file), include/complex/cell_map.hpp (the same)

A file is the list of its characters; opening a file is assumed to succeed. `int` has 32 bits, `size_t` 64 bits.
-/

namespace BATS
namespace Txt

abbrev Str := List Char

/-! ### The standard library -/

/-- an input stream: the characters not yet read, and the flags `eofbit` and `failbit` -/
structure Stream where
  rest : Str
  eof : Bool
  fail : Bool
  deriving DecidableEq

/-- a stream on a string or on a file that has just been opened -/
def Stream.ofStr (s : Str) : Stream := ⟨s, false, false⟩

/-- the characters before and behind the first delimiter -/
def splitDelim (d : Char) : Str → Option (Str × Str)
  | [] => none
  | c :: cs => if c = d then some ([], cs) else (splitDelim d cs).map (fun p => (c :: p.1, p.2))

/-- `std::getline(is, line, d)`: on a stream that is not good `line` keeps its value; otherwise the characters up to the delimiter; `eofbit` is set if the end is reached without a
delimiter, `failbit` if no character was read -/
def getline (d : Char) (s : Stream) (line : Str) : Stream × Str :=
  if s.eof || s.fail then (⟨s.rest, s.eof, true⟩, line)
  else match splitDelim d s.rest with
    | some p => (⟨p.2, false, false⟩, p.1)
    | none => (⟨[], true, s.rest.isEmpty⟩, s.rest)

/-- `std::isspace` in the C locale -/
def isSpace (c : Char) : Bool := c == ' ' || c == '\t' || c == '\n' || c == '\x0b' || c == '\x0c' || c == '\r'

/-- the value of a decimal digit -/
def digitVal (c : Char) : Option Nat := if '0' ≤ c ∧ c ≤ '9' then some (c.toNat - 48) else none

/-- the number written by the digits at the beginning -/
def scanDigits : Str → Nat → Nat
  | [], n => n
  | c :: cs, n => match digitVal c with
    | some d => scanDigits cs (10 * n + d)
    | none => n

/-- the digits of `std::stoi`: at least one digit, and the value must be an `int` (`std::invalid_argument`, `std::out_of_range`) -/
def stoiDigits (neg : Bool) (u : Str) : Res Int :=
  if (u.head?.bind digitVal).isNone then .error .thrown
  else if neg then (if scanDigits u 0 ≤ 2147483648 then .ok (-(scanDigits u 0 : Int)) else .error .thrown)
  else (if scanDigits u 0 < 2147483648 then .ok (scanDigits u 0 : Int) else .error .thrown)

/-- `std::stoi`: skips white space, takes an optional sign, and ignores everything behind the digits -/
def stoi (s : Str) : Res Int :=
  match s.dropWhile isSpace with
  | '-' :: u => stoiDigits true u
  | '+' :: u => stoiDigits false u
  | u => stoiDigits false u

/-- conversion of an `int` to `size_t` -/
def toSize (i : Int) : Nat := (i % 18446744073709551616).toNat

/-- a decimal digit -/
def digit (d : Nat) : Char := Char.ofNat (48 + d)

/-- the decimal digits of `n`; the first argument bounds their number -/
def showFuel : Nat → Nat → Str
  | 0, _ => []
  | f + 1, n => if n < 10 then [digit n] else showFuel f (n / 10) ++ [digit (n % 10)]

/-- `os << n` for an unsigned integer -/
def showNat (n : Nat) : Str := showFuel (n + 1) n

/-- `os << z` for a signed integer -/
def showInt (z : Int) : Str := if z < 0 then '-' :: showNat z.natAbs else showNat z.natAbs

/-! ### Values -/

/-- `os << x` and the constructor from an `int` for a type of values -/
structure Codec (V : Type) where
  out : V → Str
  ofInt : Int → V

/-- `int` -/
def intCodec : Codec Int := ⟨showInt, id⟩
/-- field.hpp:202-206 and 96: `ModP<int, P>` -/
def modpCodec (P : Nat) : Codec Int := ⟨showInt, ModP.ofInt P⟩
/-- field.hpp:350-354 and 246: `ModP<int, 2>` -/
def mod2Codec : Codec Mod2.Store := ⟨fun a => showInt (Mod2.toInt a), Mod2.ofInt⟩
/-- field.hpp:485-488 and 402: `Rational` -/
def rationalCodec : Codec Rational := ⟨fun x => showInt x.n ++ '/' :: showInt x.d, Rational.ofInt⟩

variable {V : Type}

/-! ### Sparse vectors -/

/-- sparse_vector.hpp:1187-1195 `write(io)` without the end of the line -/
def vecLine (c : Codec V) : List (Nat × V) → Str
  | [] => []
  | p :: ps => showNat p.1 ++ ':' :: (c.out p.2 ++ ',' :: vecLine c ps)

/-- sparse_vector.hpp:1187-1195 `write(io)`, and 1197-1201 `str()` -/
def writeVec (c : Codec V) (v : List (Nat × V)) : Str := vecLine c v ++ ['\n']

/-- abstract_vector.hpp:19-26 `nzpair(str)` -/
def readPair (c : Codec V) (str : Str) : Res (Nat × V) := do
  let r := getline ':' (Stream.ofStr str) []
  let i ← stoi r.2
  let q := getline '\n' r.1 r.2
  let v ← stoi q.2
  pure (toSize i, c.ofInt v)

/-- sparse_vector.hpp:182-187: the loop over the tokens -/
def readVecLoop (c : Codec V) : Nat → Stream → Str → Res (List (Nat × V))
  | 0, _, _ => .error .diverge
  | fuel + 1, s, tok =>
    if (getline ',' s tok).1.fail then .ok []
    else if (getline ',' s tok).2.isEmpty then readVecLoop c fuel (getline ',' s tok).1 (getline ',' s tok).2
    else do
      let p ← readPair c (getline ',' s tok).2
      let ps ← readVecLoop c fuel (getline ',' s tok).1 (getline ',' s tok).2
      .ok (p :: ps)

/-- sparse_vector.hpp:179-188 `SparseVector(line)` -/
def readVec (c : Codec V) (line : Str) : Res (List (Nat × V)) := readVecLoop c (line.length + 2) (Stream.ofStr line) []

/-! ### Matrices -/

/-- col_matrix.hpp:1024-1031 `write(io)` -/
def writeMat (c : Codec V) (M : CMat V) : Str :=
  "ColumnMatrix\n".toList ++ (showNat M.nrow ++ ',' :: (showNat M.cols.length ++ '\n' :: M.cols.flatMap (writeVec c)))

/-- col_matrix.hpp:101-104: the columns -/
def readCols (c : Codec V) : Nat → Stream → Str → Res (List (SVec V) × Stream)
  | 0, s, _ => .ok ([], s)
  | n + 1, s, line => do
    let v ← readVec c (getline '\n' s line).2
    let r ← readCols c n (getline '\n' s line).1 (getline '\n' s line).2
    .ok (v :: r.1, r.2)

/-- col_matrix.hpp:94-100 behind the first line: the dimensions and the columns; a negative number of columns makes `resize` throw -/
def readDims (c : Codec V) (s : Stream) (line : Str) : Res (CMat V × Stream) := do
  let m ← stoi (getline ',' (Stream.ofStr line) []).2
  let n ← stoi (getline '\n' (getline ',' (Stream.ofStr line) []).1 (getline ',' (Stream.ofStr line) []).2).2
  if n < 0 then .error .thrown
  else do
    let r ← readCols c n.toNat s line
    .ok (⟨toSize m, r.1⟩, r.2)

/-- col_matrix.hpp:90-105 `read(io)`, and the constructors 107-119; also returns the rest of the stream -/
def readMat (c : Codec V) (s : Stream) : Res (CMat V × Stream) :=
  readDims c (getline '\n' (getline '\n' s []).1 (getline '\n' s []).2).1 (getline '\n' (getline '\n' s []).1 (getline '\n' s []).2).2

/-! ### Cellular maps -/

/-- cell_map.hpp:104-116 `save(fname)` -/
def writeMap (c : Codec V) (Ms : List (CMat V)) : Str := "CellularMap\n".toList ++ Ms.flatMap (writeMat c)

/-- cell_map.hpp:42-44: `while (!file.eof())` -/
def readMapLoop (c : Codec V) : Nat → Stream → Res (List (CMat V))
  | 0, _ => .error .diverge
  | fuel + 1, s =>
    if s.eof then .ok []
    else do
      let r ← readMat c s
      let Ms ← readMapLoop c fuel r.2
      .ok (r.1 :: Ms)

/-- cell_map.hpp:36-49 `CellularMap(fname)` -/
def readMap (c : Codec V) (file : Str) : Res (List (CMat V)) := readMapLoop c (file.length + 2) (getline '\n' (Stream.ofStr file) []).1

/-! ### Simplicial complexes -/

/-- simplex.hpp:95-101 `write_simplex(io, begin, end)` without the end of the line -/
def simplexLine : List Nat → Str
  | [] => []
  | x :: xs => showNat x ++ ',' :: simplexLine xs

/-- simplex.hpp:95-101 -/
def writeSimplex (s : List Nat) : Str := simplexLine s ++ ['\n']

/-- simplex.hpp:86-92 `write_simplex(io, s)`, the overload for a vector, which writes a blank behind the comma -/
def writeSimplexVec (s : List Nat) : Str := s.flatMap (fun x => showNat x ++ [',', ' ']) ++ ['\n']

/-- simplex.hpp:108-115: the loop over the tokens -/
def readSimplexLoop : Nat → Stream → Str → Res (List Nat)
  | 0, _, _ => .error .diverge
  | fuel + 1, s, tok =>
    if (getline ',' s tok).1.fail then .ok []
    else if (getline ',' s tok).2.isEmpty then readSimplexLoop fuel (getline ',' s tok).1 (getline ',' s tok).2
    else do
      let x ← stoi (getline ',' s tok).2
      let xs ← readSimplexLoop fuel (getline ',' s tok).1 (getline ',' s tok).2
      .ok (toSize x :: xs)

/-- simplex.hpp:103-116 `read_simplex(line, s)` -/
def readSimplex (line : Str) : Res (List Nat) := readSimplexLoop (line.length + 2) (Stream.ofStr line) []

/-- simplicial_complex.hpp:600-602: the simplices `i, i+1, ..` of dimension `dim` -/
def saveRow (X : SCpx) (dim : Nat) : Nat → Nat → Res Str
  | 0, _ => .ok []
  | n + 1, i => do
    let s ← X.getSimplex dim i
    let r ← saveRow X dim n (i + 1)
    .ok (writeSimplex s ++ r)

/-- simplicial_complex.hpp:599-603: the dimensions `dim, dim+1, ..` -/
def saveLoop (X : SCpx) : Nat → Nat → Res Str
  | 0, _ => .ok []
  | k + 1, dim => do
    let n ← X.numCells dim
    let a ← saveRow X dim n 0
    let b ← saveLoop X k (dim + 1)
    .ok (a ++ b)

/-- simplicial_complex.hpp:595-608 `save(fname)` -/
def saveCpx (X : SCpx) : Res Str := do
  let r ← saveLoop X (X.maxdim + 1) 0
  .ok ("SimplicialComplex\n".toList ++ r)

/-- simplicial_complex.hpp:315-318: the loop over the lines -/
def loadLoop : Nat → Stream → Str → SCpx → Res SCpx
  | 0, _, _, _ => .error .diverge
  | fuel + 1, s, line, X =>
    if (getline '\n' s line).1.fail then .ok X
    else do
      let spx ← readSimplex (getline '\n' s line).2
      let r ← X.add spx
      loadLoop fuel (getline '\n' s line).1 (getline '\n' s line).2 r.1

/-- simplicial_complex.hpp:308-323 `SimplicialComplex(fname)` -/
def loadCpx (file : Str) : Res SCpx :=
  loadLoop (file.length + 2) (getline '\n' (Stream.ofStr file) []).1 (getline '\n' (Stream.ofStr file) []).2 (SCpx.init 0)

end Txt
end BATS
