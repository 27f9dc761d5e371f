import Verif.DumpGcovFile

/-!
# C100: the source files of functions

`Symbol::info.dir_name`/`file_name` from the source stacks of the samples (symbol_map.cc:535-563), through `Symbol::Merge`
(symbol_map.cc:142-163) and the reader (profile_reader.cc:51-106), to the file table of a profile (profile_writer.h:116-241,
profile_writer.cc:155-232).  A symbol is the tree `FSym` of the source files of a `Sym` (C01), with the same callsites in the same
order (`Matches`).  Not modelled: symbols whose function name is the null pointer.
-/
namespace Verif.FileNames
open Verif Verif.SymbolMap Verif.Afdo

/-! ## Model -/

/-- `dir_name` and `file_name` of a `SourceInfo` (source_info.h:101-102). -/
structure Src where
  dir : Name
  file : Name
deriving DecidableEq

/-- The sources of a `Symbol` and of the calls inlined into it (symbol_map.h:232-249). -/
inductive FSym where
  | mk (src : Src) (calls : List (Callsite × FSym))

/-- `symbol->info`. -/
def FSym.src : FSym → Src | .mk s _ => s

/-- `symbol->callsites`. -/
def FSym.calls : FSym → List (Callsite × FSym) | .mk _ c => c

/-- A `Symbol` without sources (symbol_map.h:145-176, symbol_map.cc:347-349). -/
def FSym.new : FSym := .mk ⟨[], []⟩ []

/-- A frame of a source stack with its source. -/
abbrev FFrame := Frame × Src

/-- The loop of `TraverseInlineStack` (symbol_map.cc:546-562) on the reversed stack (outermost frame first). -/
def FSym.along (conv : Bool) : List FFrame → FSym → FSym
  | f :: g :: t, .mk s cs =>
    if conv && f.1.invalid then .mk s cs
    else .mk s (modifyAt cs (f.1.off, g.1.func) fun o => FSym.along conv (g :: t) (o.getD (.mk g.2 [])))
  | [_], i => i
  | [], i => i

/-- The source of the function itself (symbol_map.cc:541-545). -/
def fillSrc (s outer : Src) : Src := if s.file = [] ∧ outer.file ≠ [] then outer else s

/-- `TraverseInlineStack` (symbol_map.cc:535-563) for the sources; `stack`: innermost frame first. -/
def FSym.traverse (conv : Bool) (i : FSym) (stack : List FFrame) : FSym :=
  match stack.getLast? with
  | none => i
  | some f => FSym.along conv stack.reverse (.mk (fillSrc i.src f.2) i.calls)

mutual
/-- `Symbol::Merge` (symbol_map.cc:142-163) for the sources. -/
def FSym.merge (this : FSym) : FSym → FSym
  | .mk s cs => .mk (if this.src.file = [] then s else this.src) (mergeF this.calls cs)
/-- The callsite loop (symbol_map.cc:152-162). -/
def mergeF (acc : List (Callsite × FSym)) : List (Callsite × FSym) → List (Callsite × FSym)
  | [] => acc
  | (k, s) :: t => mergeF (modifyAt acc k fun o => FSym.merge (o.getD FSym.new) s) t
end

/-- `std::filesystem::path(dir) / file` on POSIX systems, for a nonempty `dir`. -/
def join (dir file : Name) : Name :=
  if file.head? = some 47 then file else if dir.getLast? = some 47 then dir ++ file else dir ++ 47 :: file

/-- The file name that is stored (profile_writer.h:214-221). -/
def Src.path (s : Src) : Name := if s.dir ≠ [] then join s.dir s.file else s.file

/-- `FileIndexMap` (profile_writer.h:155-162). -/
structure FileMap where
  files : List Name
  names : OMap Name Nat
  index : OMap Name Nat

/-- `FileIndexMap::AddFileName` (profile_writer.h:182-193). -/
def FileMap.add (m : FileMap) (sym file : Name) : FileMap :=
  match OMap.find? m.index file with
  | some i => { m with names := OMap.set sym i m.names }
  | none => ⟨m.files ++ [file], OMap.set sym m.files.length m.names, OMap.set file m.files.length m.index⟩

/-- `FileIndexMap::GetFileIndex` (profile_writer.h:165-170); `none`: -1. -/
def FileMap.get (m : FileMap) (sym : Name) : Option Nat := OMap.find? m.names sym

mutual
/-- The symbols that `SymbolTraverser::Traverse` visits (profile_writer.h:139-147), in order, with the names of their functions. -/
def visits (n : Name) : FSym → List (Name × Src)
  | .mk s cs => (n, s) :: visitsCalls cs
/-- The callsites in the order of the hash table. -/
def visitsCalls : List (Callsite × FSym) → List (Name × Src)
  | [] => []
  | (k, i) :: t => visits k.2 i ++ visitsCalls t
end

/-- `StringTableUpdater::Update` for the file names (profile_writer.h:124-132, 205-222, profile_writer.cc:163-164).  `syms`: the
symbols to emit, in order, with their `info.func_name`: the name under which the symbol was created (symbol_map.cc:343-357), also where
it is emitted under another name (aliases). -/
def fileMap (syms : List (Name × FSym)) : FileMap :=
  (syms.flatMap fun p => visits p.1 p.2).foldl (fun m v => m.add v.1 v.2.path) ⟨[], [], []⟩

/-- The reader sets the file of a function (profile_reader.cc:61-62). -/
def FSym.setFile (f : Name) : FSym → FSym
  | .mk s cs => .mk { s with file := f } cs

/-! ## Specification -/

/-- The inlined call that is reached by a path of callsites. -/
def FSym.at? : FSym → List Callsite → Option FSym
  | i, [] => some i
  | i, k :: p =>
    match lookup i.calls k with
    | none => none
    | some c => c.at? p

/-- The source of an inlined call. -/
def FSym.srcAt (i : FSym) (path : List Callsite) : Option Src := (i.at? path).map FSym.src

mutual
/-- The same callsites in the same order. -/
def Matches : Sym → FSym → Prop
  | .mk _ cs, .mk _ is => MatchesCalls cs is
/-- The same callsites in the same order. -/
def MatchesCalls : List (Callsite × Sym) → List (Callsite × FSym) → Prop
  | [], [] => True
  | (k, s) :: t, (k', i) :: t' => k = k' ∧ Matches s i ∧ MatchesCalls t t'
  | _, _ => False
end

/-- The name of the function at a path of callsites in function `n`. -/
def nameAt (n : Name) (path : List Callsite) : Name := (path.getLast?.map Prod.snd).getD n

/-- Function `m` of source `s` is in the profile: itself, under the name it was created with, or inlined. -/
def Occurs (syms : List (Name × FSym)) (m : Name) (s : Src) : Prop :=
  ∃ p ∈ syms, ∃ path, p.2.srcAt path = some s ∧ nameAt p.1 path = m

/-- The callsite keys are distinct, as in a hash table. -/
def Keys (i : FSym) : Prop := ∀ path u, i.at? path = some u → (u.calls.map Prod.fst).Nodup

/-- The frame of a stack at which a source stack reaches a path: the stack passes through it, by calls with known lines when
converting. -/
def reach (conv : Bool) (path : List Callsite) (stack : List FFrame) : Option Src :=
  if path <+: walk conv (stack.reverse.map Prod.fst) then (stack.reverse[path.length]?).map Prod.snd else none

end Verif.FileNames
