import Verif.AddSource
import Verif.Threshold
import Verif.AddSourceProps

/-!
# LLVM sample profiles: the conversion in `llvm_profile_writer.cc` and `llvm_profile_reader.cc`

LLVM's `FunctionSamples` (a dependency; its source is not in /repo) is taken to be: head samples, total samples, body samples (a map from
line location to a count and call targets) and call-site samples (a map from line location and callee to `FunctionSamples`); its `add…`
functions saturate at 2^64-1 and report an overflow. It is represented by the type `Sym`: a `LineLocation` is the number
`line * 2^32 + discriminator` (which orders locations as LLVM does), `numInst` is 0, and the head samples of inlined callees are 0.
The file formats themselves, name tables, MD5 names, symbol lists and FS discriminators are not modelled.
-/
namespace Verif.SymbolMap

/-- `llvm::sampleprof::FunctionSamples` (see above). -/
abbrev FSamples := Sym

/-- `LineLocation(GetLineNumberFromOffset(offset), GetDiscriminatorFromOffset(offset))` (llvm_profile_writer.cc:103-104, 133-134). -/
def lineLoc (off : Nat) : Nat := off / 2 ^ 32 % 2 ^ 16 * 2 ^ 32 + off % 2 ^ 32

/-- A counter update; an overflow is `LOG(FATAL)` (llvm_profile_writer.cc:83-91, 124-128, 136-139, 148-157). -/
def addChecked (a b : Nat) : Option Nat := if a + b < 2 ^ 64 then some (a + b) else none

/-- `addCalledTargetSamples` for the targets of a location (llvm_profile_writer.cc:145-158). -/
def addTargets (t : OMap Name Nat) (xs : List (Name × Nat)) : Option (OMap Name Nat) :=
  xs.foldlM (fun t x => (addChecked (OMap.get0 t x.1) x.2).map fun n => OMap.set x.1 n t) t

/-- The loop over `pos_counts` in `LLVMProfileBuilder::Visit` (llvm_profile_writer.cc:131-159). -/
def addBody (body : PosMap) (xs : List (Nat × PInfo)) : Option PosMap :=
  xs.foldlM (fun b x =>
    (addChecked (PosMap.countAt b (lineLoc x.1)) x.2.count).bind fun n =>
    (addTargets ((OMap.find? b (lineLoc x.1)).getD PInfo.zero).targets x.2.targets).map fun t =>
      OMap.set (lineLoc x.1) ⟨n, 0, t⟩ b) body

mutual
/-- `Traverse` (profile_writer.h:139-147) with `LLVMProfileBuilder::Visit` (llvm_profile_writer.cc:117-160): `node` is added to the samples
`fs`; `top` is `level_ == 1`. -/
def writeSym (top : Bool) (fs : FSamples) : Sym → Option FSamples
  | .mk d cs =>
    (if top then some fs.data.total else addChecked fs.data.total d.total).bind fun n =>
    (addBody fs.data.pos d.pos).bind fun body =>
    (writeCalls fs.calls cs).map fun calls => .mk ⟨n, fs.data.head, body⟩ calls
/-- The call sites: `VisitCallsite` (llvm_profile_writer.cc:98-115) and `Traverse`. -/
def writeCalls (acc : List (Callsite × FSamples)) : List (Callsite × Sym) → Option (List (Callsite × FSamples))
  | [] => some acc
  | (k, c) :: t =>
    (writeSym false ((lookup acc (lineLoc k.1, k.2)).getD Sym.new) c).bind fun fs =>
      writeCalls (modifyAt acc (lineLoc k.1, k.2) fun _ => fs) t
end

/-- `VisitTopSymbol` (llvm_profile_writer.cc:78-96) and `Traverse` of one function. -/
def writeTop (fs : FSamples) (s : Sym) : Option FSamples :=
  (addChecked fs.data.head s.data.head).bind fun h =>
  (addChecked fs.data.total s.data.total).bind fun n =>
    writeSym true (.mk ⟨n, h, fs.data.pos⟩ fs.calls) s

/-- `LLVMProfileBuilder::ConvertProfiles` (llvm_profile_writer.cc:73-76), i.e. `SymbolTraverser::Start` (profile_writer.h:122-130):
`none` is an abort. -/
def writeProfiles (threshold : Nat) (m : SymMap) : Option (OMap Name FSamples) :=
  (m.filter fun x => Threshold.shouldEmit threshold x.2.data.total).foldlM
    (fun out x => (writeTop ((OMap.find? out x.1).getD Sym.new) x.2).map fun fs => OMap.set x.1 fs out) []

/-! ### Reading -/

/-- `SourceInfo(func_name, "", "", 0, LineOffset, Discriminator)` (llvm_profile_reader.cc:91-92, 105-106). -/
def locFrame (func : Name) (loc : Nat) : Frame := ⟨func, 0, BitVec.ofNat 32 (loc / 2 ^ 32), BitVec.ofNat 32 loc⟩

/-- `AddIndirectCallTarget` for all targets of a location (llvm_profile_reader.cc:98-102). -/
def readTargets (pol : Policy) (top : Name) (stack : List Frame) (m : SymMap) (xs : List (Name × Nat)) : Option SymMap :=
  xs.foldlM (fun m t => (addIndirectCallTarget pol m top stack t.1 t.2 .afdoProfile).map Prod.fst) m

/-- The loop over the body samples (llvm_profile_reader.cc:90-103). -/
def readBody (pol : Policy) (top : Name) (stack : List Frame) (name : Name) (m : SymMap) (xs : List (Nat × PInfo)) : Option SymMap :=
  xs.foldlM (fun m x =>
    (addSourceCount m top (locFrame name x.1 :: stack) x.2.count 1 1 false .afdoProfile).bind fun m =>
      readTargets pol top (locFrame name x.1 :: stack) m x.2.targets) m

mutual
/-- `ReadFromFunctionSamples` (llvm_profile_reader.cc:76-113), body and call sites, for `fs` called `name` in the stack `stack` of the
top-level function `top`. -/
def readFS (pol : Policy) (top : Name) (stack : List Frame) (name : Name) (m : SymMap) : FSamples → Option SymMap
  | .mk d cs => (readBody pol top stack name m d.pos).bind fun m => readCalls pol top stack name m cs
/-- The loop over the call-site samples (llvm_profile_reader.cc:104-113). -/
def readCalls (pol : Policy) (top : Name) (stack : List Frame) (name : Name) (m : SymMap) : List (Callsite × FSamples) → Option SymMap
  | [] => some m
  | (k, c) :: t => (readFS pol top (locFrame name k.1 :: stack) k.2 m c).bind fun m => readCalls pol top stack name m t
end

/-- `AddSymbol` without aliases (symbol_map.cc:343-357). -/
def addSymbol (m : SymMap) (name : Name) : SymMap := OMap.emplace name Sym.new m

/-- `ReadFromFunctionSamples` for a top-level function which is not skipped (llvm_profile_reader.cc:76-126). -/
def readTop (pol : Policy) (m : SymMap) (name : Name) (fs : FSamples) : Option SymMap :=
  (addSymbolEntryCount (addSymbol m name) name fs.data.head 0).bind fun m =>
  (readFS pol name [] name m fs).bind fun m =>
    if (m.get name).data.total = 0 then addSymbolEntryCount m name 0 fs.data.total else some m

/-- `SpecialSyms` (llvm_profile_reader.h:34-48): the lists of name prefixes. -/
structure Special where
  stripAll : List Name
  keepSole : List Name
  keepCold : List Name

/-- `shouldMergeProfileForSym` (llvm_profile_reader.cc:131-165): the map, the skip set and the answer. A null `special_syms_` is `none`. -/
def shouldMerge (sp : Option Special) (m : SymMap) (skip : List Name) (name : Name) : Option (SymMap × List Name × Bool) :=
  match sp with
  | none => some (m, skip, true)
  | some sp =>
    if skip.contains name then some (m, skip, false)
    else if sp.stripAll.any (fun p => p.isPrefixOf name) then some (m, skip, false)
    else if sp.keepSole.any (fun p => p.isPrefixOf name) then
      match OMap.find? m name with
      | none => some (m, skip, true)
      -- RemoveSymbol (symbol_map.cc:1478-1485)
      | some s => some (OMap.set name (.mk ⟨0, 0, s.data.pos⟩ s.calls) m, name :: skip, false)
    else if sp.keepCold.any (fun p => p.isPrefixOf name) then
      match OMap.find? m name with
      | none => (addSymbolEntryCount (addSymbol m name) name 0 (10 + 1)).map fun m => (m, name :: skip, false)
      | some _ => some (m, skip, false)
    else some (m, skip, true)

/-- One top-level profile (llvm_profile_reader.cc:66-69, 80). -/
def readOne (pol : Policy) (sp : Option Special) (st : SymMap × List Name) (x : Name × FSamples) : Option (SymMap × List Name) :=
  (shouldMerge sp st.1 st.2 x.1).bind fun r =>
    if r.2.2 then (readTop pol r.1 x.1 x.2).map fun m => (m, r.2.1) else some (r.1, r.2.1)

/-- `ReadFromFile` (llvm_profile_reader.cc:66-69) for all profiles of a file, in any order, or of several files one after the other
(profile_merger.cc:202-224). -/
def readProfiles (pol : Policy) (sp : Option Special) (m : SymMap) (xs : List (Name × FSamples)) : Option (SymMap × List Name) :=
  xs.foldlM (readOne pol sp) (m, [])

end Verif.SymbolMap
