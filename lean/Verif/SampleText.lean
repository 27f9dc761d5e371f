import Verif.Sample

/-!
# Text format of sample profiles: model of `TextSampleReaderWriter::{Write,Append}`

Character-level printer (`absl::FPrintF`/`fprintf`) and scanner (`fscanf`).
-/
namespace Verif.Sample

/-- Digit character used by `%x` / `%u`. -/
def digitChar (d : Nat) : Char := if d < 10 then Char.ofNat (48 + d) else Char.ofNat (87 + d)

/-- `%u` (`b = 10`) / `%x` (`b = 16`) of a value: no leading zeros, no prefix. -/
def printNum (b : Nat) (n : Nat) : List Char :=
  if _h : b < 2 ∨ n < b then [digitChar n]
  else printNum b (n / b) ++ [digitChar (n % b)]
termination_by n
decreasing_by exact Nat.div_lt_self (by omega) (by omega)

/-- Value of a character as a digit in base `b` (`scanf` accepts both letter cases). -/
def digitVal (b : Nat) (c : Char) : Option Nat :=
  let k := c.toNat
  let v := if 48 ≤ k ∧ k ≤ 57 then k - 48
           else if 97 ≤ k ∧ k ≤ 102 then k - 87
           else if 65 ≤ k ∧ k ≤ 70 then k - 55 else b
  if v < b then some v else none

/-- C locale `isspace`. -/
def isWs (c : Char) : Bool := c == ' ' || (9 ≤ c.toNat && c.toNat ≤ 13)

/-- White space directive of `scanf` (and the skipping done by `%u`/`%x`). -/
def skipWs : List Char → List Char
  | [] => []
  | c :: t => if isWs c then skipWs t else c :: t

/-- Maximal run of digits: (number of digits, value, rest). -/
def scanDigits (b : Nat) : Nat → Nat → List Char → Nat × Nat × List Char
  | k, acc, [] => (k, acc, [])
  | k, acc, c :: t =>
    match digitVal b c with
    | some d => scanDigits b (k + 1) (acc * b + d) t
    | none => (k, acc, c :: t)

/-- Optional sign of a `scanf` integer conversion. -/
def takeSign : List Char → Bool × List Char
  | [] => (false, [])
  | c :: t => if c = '-' then (true, t) else if c = '+' then (false, t) else (false, c :: t)

/-- Optional `0x` prefix accepted by `%x`. -/
def skipPrefix (b : Nat) : List Char → List Char
  | c :: d :: t => if b = 16 ∧ c = '0' ∧ (d = 'x' ∨ d = 'X') then t else c :: d :: t
  | s => s

/-- `scanf` conversion `%SCNu64` (`b = 10`) / `%SCNx64` (`b = 16`): optional white space, optional
sign, optional `0x` for hexadecimal, digits.  An out-of-range value is undefined behaviour in C and
is mapped to failure. -/
def scanNum (b : Nat) (s : List Char) : Option (Nat × List Char) :=
  let (neg, s) := takeSign (skipWs s)
  let (k, v, r) := scanDigits b 0 0 (skipPrefix b s)
  if k = 0 ∨ 2 ^ 64 ≤ v then none
  else some (if neg then (2 ^ 64 - v) % 2 ^ 64 else v, r)

/-- Literal character of a `scanf` format. -/
def lit (c : Char) : List Char → Option (List Char)
  | [] => none
  | d :: t => if d = c then some t else none

/-- `"%x-%x:%u\n"` (sample_reader.cc:242). -/
def printRange (p : Pair × Nat) : List Char :=
  printNum 16 (ofLex p.1).1 ++ '-' :: (printNum 16 (ofLex p.1).2 ++ ':' :: (printNum 10 p.2 ++ ['\n']))

/-- `"%x:%u\n"` (sample_reader.cc:246). -/
def printAddr (p : Nat × Nat) : List Char :=
  printNum 16 p.1 ++ ':' :: (printNum 10 p.2 ++ ['\n'])

/-- `"%x->%x:%u\n"` (sample_reader.cc:250). -/
def printBranch (p : Pair × Nat) : List Char :=
  printNum 16 (ofLex p.1).1 ++ '-' :: '>' ::
    (printNum 16 (ofLex p.1).2 ++ ':' :: (printNum 10 p.2 ++ ['\n']))

/-- A section: number of records, then the records (sample_reader.cc:240-251). -/
def printSection {R : Type} (pr : R → List Char) (rs : List R) : List Char :=
  printNum 10 rs.length ++ '\n' :: rs.flatMap pr

/-- `TextSampleReaderWriter::Write` (sample_reader.cc:233-257); the content of the file.
`aux` is `aux_info` (empty when null).  Opening the file cannot fail here. -/
def writeText (m : Maps) (aux : List Char) : List Char :=
  printSection printRange m.range ++ (printSection printAddr m.addr ++
    (printSection printBranch m.branch ++ aux))

/-- `fscanf(fp, "%x-%x:%u\n")` (sample_reader.cc:176). -/
def scanRange (s : List Char) : Option ((Pair × Nat) × List Char) := do
  let (f, s) ← scanNum 16 s
  let s ← lit '-' s
  let (t, s) ← scanNum 16 s
  let s ← lit ':' s
  let (c, s) ← scanNum 10 s
  some ((toLex (f, t), c), skipWs s)

/-- `fscanf(fp, "%x:%u\n")` (sample_reader.cc:193). -/
def scanAddr (s : List Char) : Option ((Nat × Nat) × List Char) := do
  let (a, s) ← scanNum 16 s
  let s ← lit ':' s
  let (c, s) ← scanNum 10 s
  some ((a, c), skipWs s)

/-- `fscanf(fp, "%x->%x:%u\n")` (sample_reader.cc:209). -/
def scanBranch (s : List Char) : Option ((Pair × Nat) × List Char) := do
  let (f, s) ← scanNum 16 s
  let s ← lit '-' s
  let s ← lit '>' s
  let (t, s) ← scanNum 16 s
  let s ← lit ':' s
  let (c, s) ← scanNum 10 s
  some ((toLex (f, t), c), skipWs s)

/-- The record loop of a section (sample_reader.cc:174-183 and the two others), accumulating with
`map[key] += count`. -/
def scanRecords {K : Type} [LinearOrder K]
    (sc : List Char → Option ((K × Nat) × List Char)) :
    Nat → OMap K Nat → List Char → Option (OMap K Nat × List Char)
  | 0, m, s => some (m, s)
  | n + 1, m, s => do
    let (r, s) ← sc s
    scanRecords sc n (OMap.add m r) s

/-- One section: header count and records.  The loop counter is an `int`, so `2^31` or more records
overflow it (undefined behaviour): mapped to failure. -/
def scanSection {K : Type} [LinearOrder K]
    (sc : List Char → Option ((K × Nat) × List Char)) (m : OMap K Nat) (s : List Char) :
    Option (OMap K Nat × List Char) := do
  let (n, s) ← scanNum 10 s
  if 2 ^ 31 ≤ n then none
  else scanRecords sc n m (skipWs s)

/-- `TextSampleReaderWriter::Append` (sample_reader.cc:160-219): `none` is the `false` return. -/
def readText (m : Maps) (s : List Char) : Option Maps := do
  let (r, s) ← scanSection scanRange m.range s
  let (a, s) ← scanSection scanAddr m.addr s
  let (b, _) ← scanSection scanBranch m.branch s
  some ⟨r, a, b⟩

end Verif.Sample
