import Verif.Attribution
import Verif.AddrLookup
import Verif.Sample

/-!
# Turning samples into a profile: model of `Profile` (profile.cc:35-276), `InstructionMap`
(instruction_map.cc:17-43, instruction_map.h:49-52)

Not modelled here: aliases of symbols (they are in `Verif.Alias`), timestamps (`Verif.Stamp`), the `llc_misses` mode, `global_addr_count_map_`, the
LBR entry check (it only logs) and 64-bit wrap-around of counts.  Addresses are below 2^64.
-/
namespace Verif.Compute
open Verif Verif.SymbolMap Verif.AddrLookup Verif.Sample

/-- What the profile is computed from besides the samples. -/
structure Bin where
  /-- `address_symbol_map_` (symbol_map.h:619). -/
  syms : AddrMap
  /-- `get_static_vaddr` (symbol_map.h:331-340). -/
  vaddr : Nat → Nat
  /-- `Addr2line::GetInlineStack`, innermost frame first. -/
  stack : Nat → List Frame
  /-- `SourceInfo::DuplicationFactor` (source_info.h:56-64) of the innermost frame at an address. -/
  dup : Nat → Nat

/-- `--use_lbr`, `--use_discriminator_multiply_factor` and the suffix elision policy. -/
structure Cfg where
  lbr : Bool
  mul : Bool
  pol : Policy

/-- `Profile::ProfileMaps` (profile.h:48-63). -/
structure FnMaps where
  start : Nat
  stop : Nat
  maps : Maps

/-- `symbol_profile_maps_` (profile.h:64): a hash map; its iteration order is a separate argument of
`computeRaw`. -/
abbrev Prof := OMap Name FnMaps

/-- `GetProfileMaps` (profile.cc:35-51) followed by an update of the maps it returns. -/
def touch (b : Bin) (P : Prof) (addr : Nat) (f : Maps → Maps) : Prof :=
  match symbolInfo b.syms addr with
  | none => P
  | some (name, start, stop) =>
    OMap.upsert name (fun o =>
      { (o.getD ⟨start, stop, Maps.empty⟩) with
          maps := f (o.getD ⟨start, stop, Maps.empty⟩).maps }) P

/-- The address loop of `AggregatePerFunctionProfile` (profile.cc:54-61). -/
def aggAddr (b : Bin) (P : Prof) (xs : List (Nat × Nat)) : Prof :=
  xs.foldl (fun P x => touch b P (b.vaddr x.1)
    (fun m => { m with addr := OMap.add m.addr (b.vaddr x.1, x.2) })) P

/-- The range loop (profile.cc:88-109). -/
def aggRange (b : Bin) (P : Prof) (xs : List (Pair × Nat)) : Prof :=
  xs.foldl (fun P x => touch b P (b.vaddr (ofLex x.1).1)
    (fun m => { m with
        range := OMap.add m.range (toLex (b.vaddr (ofLex x.1).1, b.vaddr (ofLex x.1).2), x.2) })) P

/-- The branch loop (profile.cc:110-129). -/
def aggBranch (b : Bin) (P : Prof) (xs : List (Pair × Nat)) : Prof :=
  xs.foldl (fun P x => touch b P (b.vaddr (ofLex x.1).1)
    (fun m => { m with
        branch := OMap.add m.branch (toLex (b.vaddr (ofLex x.1).1, b.vaddr (ofLex x.1).2), x.2) })) P

/-- `BuildNameAddressMap` (symbol_map.h:588-592). -/
def nameAddrs (syms : AddrMap) : OMap Name Nat :=
  syms.foldl (fun m e => OMap.set e.2.1 e.1 m) []

/-- One iteration of the last loop of `AggregatePerFunctionProfile` (profile.cc:133-135); `none`: the
`CHECK` fails. -/
def aggName (b : Bin) (P : Prof) (na : Name × Nat) : Option Prof :=
  match symbolInfo b.syms na.2 with
  | none => none
  | some _ => some (touch b P na.2 id)

/-- `AggregatePerFunctionProfile` (profile.cc:53-136). -/
def aggregate (b : Bin) (S : Maps) : Option Prof :=
  (nameAddrs b.syms).foldlM (aggName b) (aggBranch b (aggRange b (aggAddr b [] S.addr) S.range) S.branch)

/-- `GetAggregatedCount` (profile.cc:138-151). -/
def FnMaps.agg (x : FnMaps) : Nat := x.maps.totalCountFrom 0

/-- `symbol_counts` (profile.cc:244-248) at the base name of `name`. -/
def baseCount (pol : Policy) (order : List (Name × FnMaps)) (name : Name) : Nat :=
  ((order.filter (fun p => originalName pol p.1 = originalName pol name)).map (fun p => p.2.agg)).sum

/-- `InstructionMap::lookup` (instruction_map.h:49-52) succeeds. -/
def FnMaps.has (x : FnMaps) (a : Nat) : Bool := decide (x.start ≤ a) && decide (a < x.stop)

/-- The addresses visited by the loop over one range (profile.cc:173-176). -/
def walkRange (x : FnMaps) (stop a : Nat) : List Nat :=
  if x.has a = true ∧ a ≤ stop then a :: walkRange x stop (a + 1) else []
termination_by x.stop - a
decreasing_by
  rename_i h
  simp only [FnMaps.has, Bool.and_eq_true, decide_eq_true_eq] at h
  omega

/-- `*map_ptr` (profile.cc:165-181): the count of each address. -/
def weights (lbr : Bool) (x : FnMaps) : OMap Nat Nat :=
  if lbr then
    x.maps.range.foldl (fun m r => (walkRange x (ofLex r.1).2 (ofLex r.1).1).foldl
      (fun m a => OMap.add m (a, r.2)) m) []
  else x.maps.addr

/-- `BuildPerFunctionInstructionMap` (instruction_map.cc:17-43), the effect on the profile. -/
def buildInst (b : Bin) (name : Name) (x : FnMaps) (m : SymMap) : Option SymMap :=
  (List.range' x.start (x.stop - x.start)).foldlM
    (fun m a => addSourceCount m name (b.stack a) 0 1 1 false .perfData) m

/-- One iteration of the second loop of `ProcessPerFunctionProfile` (profile.cc:183-195). -/
def weightStep (b : Bin) (c : Cfg) (name : Name) (x : FnMaps) (m : SymMap) (e : Nat × Nat) :
    Option SymMap :=
  if x.has e.1 then
    match b.stack e.1 with
    | [] => some m
    | f :: t => addSourceCount m name (f :: t) e.2 0 (b.dup e.1) c.mul .perfData
  else some m

/-- One iteration of the branch loop (profile.cc:197-212). -/
def branchStep (b : Bin) (c : Cfg) (name : Name) (x : FnMaps) (m : SymMap) (e : Pair × Nat) :
    Option SymMap :=
  if x.has (ofLex e.1).1 then
    match nameByStart b.syms (ofLex e.1).2 with
    | none => some m
    | some callee =>
      if (OMap.find? m callee).isSome then
        (addSymbolEntryCount m callee e.2 0).bind (fun m =>
          (addIndirectCallTarget c.pol m name (b.stack (ofLex e.1).1) callee e.2 .perfData).map
            Prod.fst)
      else some m
  else some m

/-- `ProcessPerFunctionProfile` (profile.cc:153-217). -/
def process (b : Bin) (c : Cfg) (m : SymMap) (p : Name × FnMaps) : Option SymMap :=
  (buildInst b p.1 p.2 m).bind (fun m =>
    if c.lbr = true ∧ p.2.maps.range.isEmpty = true then some m
    else ((weights c.lbr p.2).foldlM (weightStep b c p.1 p.2) m).bind (fun m =>
      p.2.maps.branch.foldlM (branchStep b c p.1 p.2) m))

/-- The functions written (profile.cc:255-260, 264-267). -/
def emitted (c : Cfg) (threshold : Nat) (order : List (Name × FnMaps)) : List (Name × FnMaps) :=
  order.filter (fun p => decide (baseCount c.pol order p.1 > threshold))

/-- The default mode of `ComputeProfile` (profile.cc:219-222, 240-269) up to
`ElideSuffixesAndMerge`, visiting the functions in the given order. -/
def computeOrder (b : Bin) (c : Cfg) (threshold : Nat) (order : List (Name × FnMaps)) :
    Option SymMap :=
  (emitted c threshold order).foldlM (process b c)
    ((emitted c threshold order).foldl (fun m p => OMap.emplace p.1 Sym.new m) [])

end Verif.Compute
