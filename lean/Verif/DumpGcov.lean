import Verif.AfdoProps
import Verif.SampleProps
import Verif.Sort

/-! # C99: what dump_gcov prints (dump_gcov.cc:24-38, symbol_map.cc:70-101, 641-682, 976-993)

Text is a list of bytes.  Not modelled: demangling (`--demangle_symbol_names` is off by default), names with a zero byte, the
listing for analysis (`DumpForAnalysis`, which no command asks for). -/
namespace Verif.Dump
open Verif Verif.SymbolMap

/-! ## Model -/

/-- A string literal. -/
def asc (s : String) : List UInt8 := s.toList.map fun c => UInt8.ofNat c.toNat

/-- `%u` and `%lu`. -/
def dec (n : Nat) : List UInt8 := (Sample.printNum 10 n).map fun c => UInt8.ofNat c.toNat

/-- `PrintSourceLocation` with `Indentation` (symbol_map.cc:70-87); `start_line` is 0 for symbols read from a file
(symbol_map.cc:348, profile_reader.cc:75, 101).  The line is `GetLineNumberFromOffset`, the discriminator
`GetDiscriminatorFromOffset` (source_info.h:84-91). -/
def locText (indent off : Nat) : List UInt8 :=
  List.replicate indent 32 ++ dec (off / 4294967296 % 65536) ++
    (if off % 4294967296 ≠ 0 then 46 :: dec (off % 4294967296) else []) ++ [58, 32]

/-- `!TargetCountCompare(b, a)` (symbol_map.cc:113-121). -/
def targetLe (a b : Name × Nat) : Bool := if b.2 ≠ a.2 then decide (b.2 < a.2) else decide (b.1 ≤ a.1)

/-- One call target of a location (symbol_map.cc:653-655). -/
def targetText (file : Name) (t : Name × Nat) : List UInt8 := [32, 32] ++ t.1 ++ 58 :: file ++ 58 :: dec t.2

/-- One location (symbol_map.cc:645-657).  The locations are sorted, which the `std::map` they come from is already. -/
def posText (file : Name) (indent : Nat) (p : Nat × PInfo) : List UInt8 :=
  locText indent p.1 ++ dec p.2.count ++ (isort targetLe p.2.targets).flatMap (targetText file) ++ [10]

/-- `!CallsiteLessThan(b, a)` (symbol_map.h:113-119) on the keys of a pair. -/
def callLe {A : Type} (a b : Callsite × A) : Bool :=
  if a.1.1 ≠ b.1.1 then decide (a.1.1 < b.1.1) else decide (a.1.2 ≤ b.1.2)

mutual
/-- `Symbol::DumpBody` (symbol_map.cc:641-671).  The callees are printed in the order of their callsites: here each is printed
first and the texts are sorted by callsite. -/
def dumpBody (file : Name → Name) (indent : Nat) (name : Name) : Sym → List UInt8
  | .mk d cs => d.pos.flatMap (posText (file name) (indent + 2)) ++
      (isort callLe (dumpCalls file (indent + 2) cs)).flatMap Prod.snd
/-- The lines of the inlined calls (symbol_map.cc:664-670), with `Symbol::Dump` of an inlined symbol (symbol_map.cc:679-681). -/
def dumpCalls (file : Name → Name) (indent : Nat) : List (Callsite × Sym) → List (Callsite × List UInt8)
  | [] => []
  | (k, s) :: t => (k, locText indent k.1 ++ (k.2 ++ 58 :: file k.2 ++ asc " total:" ++ dec s.data.total ++ [10]) ++
      dumpBody file indent k.2 s) :: dumpCalls file indent t
end

/-- `Symbol::Dump(0)` (symbol_map.cc:673-682). -/
def dumpTop (file : Name → Name) (stamp : Nat) (name : Name) (s : Sym) : List UInt8 :=
  name ++ 58 :: file name ++ asc " total:" ++ dec s.data.total ++ asc " head:" ++ dec s.data.head ++
    asc " timestamp: " ++ dec stamp ++ [10] ++ dumpBody file 0 name s

/-- `count_names_map` (symbol_map.cc:977-983): the names by the complement of their total count. -/
def countNames (m : OMap Name Sym) : OMap Nat (OMap Name Unit) :=
  m.foldl (fun c x => if x.2.data.total > 0 then
    OMap.upsert (18446744073709551615 - x.2.data.total) (fun o => OMap.set x.1 () (o.getD [])) c else c) []

/-- `SymbolMap::Dump` (symbol_map.cc:976-993).  `file` gives the file name of a symbol: the reader takes it from the entry of the
name in the name table, for functions as for inlined calls (profile_reader.cc:53-55, 61-62, 76, 102). -/
def dump (file : Name → Name) (ts : OMap Name Nat) (m : OMap Name Sym) : List UInt8 :=
  (countNames m).flatMap fun c => c.2.flatMap fun n =>
    match OMap.find? m n.1 with
    | none => []
    | some s => dumpTop file ((OMap.find? ts n.1).getD 0) n.1 s

/-! ## Specification: how the listing is read

Line by line; the words of a line are separated by spaces, and the number of spaces before the first word tells how deep in the
inlined calls the line is. -/

/-- What a line says. -/
inductive Fact
  /-- a function: its file, total count, entry count and time stamp -/
  | fn (name file : Name) (total head stamp : Nat)
  /-- the count of a location and its call targets, in the function `fn` and there in the inlined call at `path` -/
  | count (fn : Name) (path : List Callsite) (loc count : Nat) (targets : List (Name × Nat))
  /-- an inlined call: the file of the callee and its total count -/
  | inst (fn : Name) (path : List Callsite) (file : Name) (total : Nat)
  deriving DecidableEq

/-- Splits at each occurrence of a byte. -/
def cut (c : UInt8) : List UInt8 → List (List UInt8)
  | [] => [[]]
  | a :: t => if a = c then [] :: cut c t else match cut c t with
    | [] => [[a]]
    | h :: r => (a :: h) :: r

/-- A decimal number. -/
def num (l : List UInt8) : Option Nat :=
  if l ≠ [] ∧ l.all (fun c => decide (48 ≤ c.toNat ∧ c.toNat ≤ 57)) = true then
    some (l.foldl (fun a c => 10 * a + (c.toNat - 48)) 0) else none

/-- `line:` or `line.discriminator:`; the location has the line in the upper half. -/
def readLoc (t : List UInt8) : Option Nat :=
  match cut 58 t with
  | [a, []] =>
    match cut 46 a with
    | [l] => (num l).map (· * 4294967296)
    | [l, d] => (num l).bind fun x => (num d).map fun y => x * 4294967296 + y
    | _ => none
  | _ => none

/-- `label:number`. -/
def labelled (label t : List UInt8) : Option Nat :=
  match cut 58 t with
  | [a, b] => if a = label then num b else none
  | _ => none

/-- `name:file:count`. -/
def readTarget (t : List UInt8) : Option (Name × Nat) :=
  match cut 58 t with
  | [n, _, c] => (num c).map fun v => (n, v)
  | _ => none

/-- Reads the words of a line at the given depth; the state is the function and the inlined calls the last line was in. -/
def readWords (st : Name × List Callsite) : Nat → List (List UInt8) → Option ((Name × List Callsite) × Fact)
  | 0, [nf, a, b, c, d] =>
    match cut 58 nf with
    | [n, f] => (labelled (asc "total") a).bind fun t => (labelled (asc "head") b).bind fun h =>
      if c = asc "timestamp:" then (num d).map fun s => ((n, []), .fn n f t h s) else none
    | _ => none
  | depth + 1, loc :: w :: rest =>
    match cut 58 w with
    | [c] => (readLoc loc).bind fun off => (num c).bind fun v =>
      ((rest.filter fun x => !x.isEmpty).mapM readTarget).map fun tg => (st, .count st.1 (st.2.take depth) off v tg)
    | [n, f] =>
      match rest with
      | [a] => (readLoc loc).bind fun off => (labelled (asc "total") a).map fun t =>
        ((st.1, st.2.take depth ++ [(off, n)]), .inst st.1 (st.2.take depth ++ [(off, n)]) f t)
      | _ => none
    | _ => none
  | _, _ => none

/-- Reads a line. -/
def readLine (st : Name × List Callsite) (l : List UInt8) : Option ((Name × List Callsite) × Fact) :=
  readWords st (((cut 32 l).takeWhile (·.isEmpty)).length / 2) ((cut 32 l).dropWhile (·.isEmpty))

/-- Reads the lines. -/
def readLines (st : Name × List Callsite) : List (List UInt8) → Option (List Fact)
  | [] => some []
  | l :: t => (readLine st l).bind fun x => (readLines x.1 t).map (x.2 :: ·)

/-- Reads a listing: every line ends with a newline. -/
def readDump (text : List UInt8) : Option (List Fact) :=
  if (cut 10 text).getLast? = some [] then readLines ([], []) (cut 10 text).dropLast else none

/-- Names the listing can hold: without newlines, spaces and colons. -/
def Clean (n : Name) : Prop := (10 : UInt8) ∉ n ∧ (32 : UInt8) ∉ n ∧ (58 : UInt8) ∉ n

mutual
/-- The names in a symbol can be printed, and the lines have at most 16 bits. -/
def Printable (file : Name → Name) : Sym → Prop
  | .mk d cs => (∀ p ∈ d.pos, p.1 < 281474976710656 ∧ ∀ t ∈ p.2.targets, Clean t.1) ∧ PrintableCalls file cs
def PrintableCalls (file : Name → Name) : List (Callsite × Sym) → Prop
  | [] => True
  | (k, s) :: t => (k.1 < 281474976710656 ∧ Clean k.2 ∧ Clean (file k.2) ∧ Printable file s) ∧ PrintableCalls file t
end

/-- Callsites by location, then by name. -/
def siteLt (a b : Callsite) : Prop := a.1 < b.1 ∨ a.1 = b.1 ∧ a.2 < b.2

/-- The order of the lines: functions by decreasing total count, then by name, with all that belongs to them; in a function or an
inlined call first its locations, in their order, then the calls inlined into it, by location and callee. -/
def Before : Fact → Fact → Prop
  | .fn n _ t _ _, .fn n' _ t' _ _ => t' < t ∨ t = t' ∧ n < n'
  | .count n _ _ _ _, .fn n' _ _ _ _ => n ≠ n'
  | .inst n _ _ _, .fn n' _ _ _ _ => n ≠ n'
  | .count n p o _ _, .count n' p' o' _ _ => n = n' → p = p' → o < o'
  | .inst n p _ _, .count n' p' _ _ _ => n = n' → p.dropLast ≠ p'
  | .count n p _ _ _, .inst n' p' _ _ => n = n' → p ≠ p'
  | .inst n p _ _, .inst n' p' _ _ => n = n' → ∀ q k k', p = q ++ [k] → p' = q ++ [k'] → siteLt k k'
  | .fn _ _ _ _ _, _ => True

/-- The call targets of a location by decreasing count, then in decreasing order of names. -/
def IsTargets (l : List (Name × Nat)) (m : OMap Name Nat) : Prop :=
  l.Perm m ∧ l.Pairwise fun a b => b.2 < a.2 ∨ a.2 = b.2 ∧ b.1 < a.1

/-- The listing says what is in the profile: the functions with samples, the calls inlined into them, and their counts. -/
structure Lists (file : Name → Name) (ts : OMap Name Nat) (m : OMap Name Sym) (fs : List Fact) : Prop where
  fns : ∀ n f t h s, .fn n f t h s ∈ fs ↔ ∃ y, OMap.find? m n = some y ∧ 0 < y.data.total ∧ f = file n ∧ t = y.data.total ∧
    h = y.data.head ∧ s = (OMap.find? ts n).getD 0
  insts : ∀ n path f t, .inst n path f t ∈ fs ↔ ∃ y k d, OMap.find? m n = some y ∧ 0 < y.data.total ∧
    path.getLast? = some k ∧ y.node? path = some d ∧ f = file k.2 ∧ t = d.total
  counts : ∀ n path off c tg, .count n path off c tg ∈ fs ↔ ∃ y d p, OMap.find? m n = some y ∧ 0 < y.data.total ∧
    y.node? path = some d ∧ OMap.find? d.pos off = some p ∧ c = p.count ∧ IsTargets tg p.targets
  order : fs.Pairwise Before

end Verif.Dump
