# Formal model of google/autofdo in Lean 4 — design

## Layout

`lean/Verif/*.lean`, flat. For a component `X`: `X.lean` holds the executable model (each definition cites the file and
lines in `/repo` that it models, and says what it simplifies), sometimes with its theorems; `XProps.lean` (and `XLemmas`,
…) hold the specification, the theorems named in `MANIFEST.json` and, beside them, `example`s that show a concrete
non-trivial case meeting the hypotheses. A section headed *Specification* in a file is what a reader has to agree with:
theorem statements use the model's entry points (the functions of the API), data types, and these specifications.

`MANIFEST.json` is generated by `tools/mkmanifest.py` from `tools/claims.py`; `AXIOMS.txt` by `tools/axioms.sh`.

## Conventions

* Counts and addresses are `Nat` unless the property is about overflow or truncation; then `BitVec n`, `% 2^n`, or an
  explicit 64-bit wrapping addition is used, and said so. 64-bit overflow of sample counts, and `int` overflow of the
  weights, sizes and frequencies of Propeller, are *not* modelled unless stated.
* `std::map` / `absl::btree_map` = strictly sorted association list (`Verif.OMap`): iteration is in key order as in C++.
  Hash maps whose iteration order can be observed are lists in an arbitrary order, and the theorems quantify over it.
* `std::sort` is a stable insertion sort (`Verif.Sort`); where the code uses an unstable sort with ties, either the theorem
  holds for any sorted permutation or the comparator is shown to be total on the data.
* `CHECK`/`LOG(FATAL)`/`std::terminate`/exceptions/undefined behaviour are a distinct outcome (`none` or an error), never
  silently totalised. Loops that are not structurally recursive get fuel; theorems say that the fuel is enough.
* `double`/`float` are exact rationals where nothing else is said.  `RoundFloat` has the rounding of IEEE 754 (nearest, ties to even;
  proved to be the nearest number of 24 or 53 bits, `Fl.rnd_nearest`, `rnd_float`, `rne_even`), without bounds on the exponent; `OverlapFloat` (C45), `StatusFloat` (C37)
  and `FloatUses` (C17, C18, C72) redo the arithmetic of these properties with every operation rounded.  The scores of the code layout (C34) stay exact.
* Pointer structures (chains, bundles, clusters, SCC nodes) are heaps indexed by numbers.
* Where the code violates the property, the negation is proved on a concrete witness (`…_violated`), and a `…_partial`
  theorem states the region where the property holds.
* A claim is `proved` if the theorem covers the whole English statement of `properties.jsonl` (with the idealisations
  above), `partial` otherwise; the note says what is missing or false.

## Modules and technique per property

| id | modules | how it is proved |
|----|---------|------------------|
| — | OMap, Bytes, Sort | libraries: sorted association lists, byte strings, stable sort |
| C01–C03 | Sample, SampleText, SampleProps | character-level printer and `fscanf` scanner, induction over entries and digits; accumulation pointwise; permutation invariance by map extensionality |
| C04 | Lbr, LbrProps | invariant per recorded item and exact specification of the recorded list |
| C05, C06 | Gcov, GcovLemmas, GcovProps | byte-level round trip by induction on values; the buffered reader refines the flat byte stream |
| C07–C09, C46 | Afdo, AfdoLemmas, AfdoRead, AfdoFile, AfdoTable, AfdoProps, AfdoWitness, AfdoMerge | recursive writer and reader over the word stream; the read events of a written tree, mutual structural induction |
| C10 | SourceOffset, SourceOffsetProps | bit-vector extensionality |
| C11 | Sym, SymLemmas, MergeProps | symbol trees observed by inline path and location; mutual induction |
| C12 | Elide, ElideProps | string lemmas; conservation by fold induction |
| C13, C14 | Throttle, ThrottleProps | sorting lemmas |
| C15, C16 | AddSource, AddSourceProps, Attribution | induction over the inline stack; histories of updates in closed form |
| C17 | Scc, SccProps, SccTopo, SccIncl | Tarjan with the index passed by value: soundness invariant of the DFS; collapsing; Kahn's algorithm; counts by well-founded recursion on reachability |
| C18 | Threshold | arithmetic |
| C19, C20 | AddrLookup | `upper_bound` over sorted maps |
| C21 | Summary | loop invariant |
| C22, C23 | PerfMMap | invariant over the event fold, wrapping arithmetic |
| C24 | PerfAgg | sums over samples |
| C25 | Mapper | binary search specification from a well laid-out binary |
| C26 | InferFT | induction on paths of handles |
| C27 | CfgBuild, CfgBuildProps | state-machine invariant over branch and fallthrough records |
| C28 | ForcedPath | graph argument on partial injections; cycle cutting |
| C29 | Chain, ChainNodes, ChainInit | invariant over merges of a heap of chains and bundles |
| C30 | ChainEdges, ChainEdgesMove, ChainEdgesInv, ChainEdgesInit, ChainScore, ChainScoreProps, ChainGain | recorded edges and scores equal those of the layout after any merge; distances before and after a merge |
| C31, C50, C51 | ChainBuild, ChainBuildProps, ChainBest | invariants of the whole builder loop; order of assemblies is total, both queues give its maximum |
| C32 | Cluster, ClusterProps | partition invariant; independence of hash orders |
| C33 | Layout, LayoutAll, Writer | fold invariants through `OrderAll` |
| C34 | Scorer, ScorerLink | rational inequalities; 32-bit products |
| C35 | Percentile | rank in a sorted list |
| C36, C37 | Lazy, Status | state machines over call sequences, trees of jobs |
| C38 | RangeMap | refinement to a partial function address → value |
| C39, C40 | ByteReader, Ranges | round trips; DWARF range-list semantics as a separate interpreter |
| C41, C42 | SpePid, SpeRanges, SpeFreq | history refinement; loop invariants |
| C43, C47 | FileProvider | state machine over calls and an adversarial file reader |
| C44 | Flatten, FlattenProps | structural induction; additive observation of all inline instances |
| C45 | Overlap | rational inequalities |
| C48, C49 | MapperSelect, MMapSelector | filters over sorted and hashed collections |
| C53 | Compute, ComputeAgg, ComputeOps, ComputeProps, ComputeMain | the computation is a history of updates (Attribution); sums over map entries rewritten as sums over addresses |
| C54 | Hybrid, HybridProps | the recursion as a list of additions to places; the place of an instance is an inductive relation |
| C55 | Nested, NestedProps, NestedMain, NestedTotals, NestedEx | symbols are places in the map; effects of each step on places (Eff); additive observations; totals in Z/2^64 |
| C56, C57 | LlvmProf, LlvmRead, LlvmProps, LlvmSpecial | reading is a history of updates (Attribution); writing a structural map; LLVM's `FunctionSamples` assumed as in its header |
| C58 | DwarfLine, DwarfLineSpec, DwarfLineUnit, DwarfLine5, DwarfLineEx | the state machine of the DWARF standard as a separate interpreter over unbounded integers; simulation with the 64/32-bit registers; relational encodings |
| C59 | LineMap, LineMapUnit, LineMapEx | the map as the last report per address (representation invariant); sequences as specification |
| C60 | Prune, PruneExact | invariants of the three rules; exact characterisation for one-range functions |
| C61 | InlineLookup, RangeEntries, InlineStack, MergeRanges, InlineStackEx | the kept subprograms of an address form a chain; the range map holds the innermost one; reference chains as an inductive relation (the endless loop is a partial fixpoint) |
| C62 | DwarfInfo, DwarfInfoSpec, DwarfInfoUnit, DwarfInfoEx | .debug_info reader over an arbitrary handler (a record of functions on a state); encodings as inductive relations between trees and bytes; induction on the tree |
| C63 | InlineHandler, InlineHandlerSpec, InlineHandlerFn, InlineHandlerWalk, InlineHandlerLink, InlineHandlerUnit, InlineHandlerSec, InlineHandlerMain, InlineHandlerEx | the symbolizer's handler for .debug_info as an instance of the C62 reader; each attribute acts on its own field; the tree walk appends exactly the described subprograms; composed with C59 and C61 from bytes to inline stacks |
| C64 | RngLists | tables of range lists decoded with their offsets; lists by number and by offset with the list reader of C40 |
| C65 | Addr2Line | the symbolizer's Prepare and GetInlineStack on the sections of a binary: composition of C40, C58, C59, C61, C62, C63, C64 |
| C66 | Elf, ElfProps, ElfMore | headers as records with byte encodings; `IsElf`: a relation between bytes and section and segment lists, any sizes; loops over section numbers as `find?` |
| C67 | ElfSym, ElfSymProps, ElfMore | symbol tables as a relation; the visit as filter and map; the map by the first symbol per address (find after fold) |
| C68 | ElfSeg, ElfEx | invariant of the loop over segments; notes as a list of records with padding; composed with C20 |
| C69 | ElideAlias, Alias | the map of pointers simulates the map without aliases (names of one function are linked); elision on linked classes |
| C70 | Pipeline | composition of C01, C12, C18, C53, C65 to C69 from the bytes of the file to the symbol map |
| C71 | WorkingSet | the histogram's multiset is that of all instructions; invariant of the bucket loop on the instructions, hottest first |
| C72 | SymList | breadth-first collection by its functional induction; partial sums of the sizes, biggest first |
| C73 | Diff | invariant of the groups by count; rows characterised by membership |
| C74 | Propeller | composition: GraphOk (what the layout needs of the graph) from the specification of edge creation, `orderAll_ok` per section, `readCc_ccText` |
| C75 | Prefetch | scanner inverts the printer; the loop refines a per-function fold (`symOf`) through `Sim` of C69, whose result is described by induction on the hints |
| C76 | Merger, MergerGcov | the readers refine a fold of `loadTop` per function (C07, C46), with the shape (`Good`) and the sizes of the merged map as invariants, from which the output fits the format and reads back |
| C77 | MergerLlvm | composition of C57, C55, C13, C14 and the writer of C56; that locations stay below 2^48 is an invariant of reading, flattening and both limits; a write succeeds iff the counters fit |
| C78 | PerfRead, PerfReadProps | the cached decisions are consistent with the specification (invariant over the events); one file and merged files: exactly the selected samples; several files on one reader: only if no pointer is reused |
| C79 | Stamp | fold invariant: the first nonzero time in address order; invariant of the elision loop with stamps; the claim itself is refuted by witnesses |
| C80 | SpeSimple | fold over the records with an invariant on keys and totals; the ranges through C42; the total count and second mappings are refuted by witnesses |
| C81 | Dwp, DwpProps | the odd step makes the probing sequence visit all slots (coprimality); tables built by insertion satisfy the probing invariant; reading back the encoded index by fixed-width round trips (C39) |
| C82 | MapperSyms | the fold over the symbols keeps, per address, the usable symbols with the size of the first one (invariant on prefixes); the rest follows by reading off |
| C83 | Sampled | loop invariant: the result is the set of last functions before the addresses seen, the skip bound is the end of one of them; file order = memory order gives monotone translation |
| C84 | Validate | the walk visits a permutation of the locations of the tree; binary32 rounding modelled on natural numbers with a proved relative error of 2^-24 |
| C85 | Validate | both loops keep the minimum so far; induction on the size of the tree; determinism by induction on the specification |
| C86 | SpeReader | counters of the aggregation as sums over the records; sums over a map with translated keys; composition with C42 and C51 |
| C87 | BinContent | the parser accepts exactly the encodings (both directions by induction on the length); first-wins map; case analysis of the reader |
| C88 | CfgOps | inductive set of reachable graphs and an invariant (rank of a clone = number of earlier ones; lists = positions of matching edges); copying replayed node by node and edge by edge |
| C89 | PropCli | splitting and joining inverse by induction; the checks of `main` against an unordered list of usage errors; two witnesses where the command line does not do what was asked |
| C90 | PropFiles | loop over the outcomes of the provider = fold over the usable recordings (induction); counters as sums over all entries; classes by counting in sorted maps |
| C91 | PropRun | composition of C89, C90, C82, C48, C26, C74, C33 and C52; the counters of the aggregators are brought to the form of C74 |
| C92 | CfgProto | closed form of the reader's state after any list of edges (induction), equivalence of its checks with a property of the file; round trip through it |
| C93 | LlvmLine | induction over the chain of inlined functions; the unit map as the last unit with the same low 32 bits |
| C94 | CreateGcov | composition of C07, C08, C12, C53, C70, C75, C78, C79 and C80 |
| C95 | CreateLlvm | composition of C12, C53, C56, C72, C75, C86, C89, C91, C93 and C94 |
| C96 | SampleMerger | composition of C01, C02, C78, C80 and C94; invariant of the loop over the profiles |
| C97 | TwoLevel | invariant relating the renumbered rows to the stacks of the unit; induction over the contexts and over the calls |
| C98 | TwoLevelProg, TwoLevelUnit, TwoLevelEx | simulation of the two state machines with unbounded registers; header decoding; composition with C97 |
| C99 | DumpGcov, DumpGcovProps, DumpGcovMain, DumpGcovFile, DumpGcovEx | a line reader as specification; structural induction on symbols; sorted duplicate-free lists are unique; composition with C07 |
| C100 | FileNames, FileNamesProps, FileNamesMain, FileNamesEx | invariant of the file map over the visits; induction on the source stack and on the samples; structural induction on symbols; composition with C99 |
| C101 | CfgStats, CfgStatsProps | invariant of the counters beside that of C27 over the requests; exact sums of the two loops over CFGs |
| C102 | Scale, ScaleProps | rounding of the product by the float lemmas of RoundFloat; induction on inlined calls and on the table of names |
| C103 | Cleanup, CleanupUsed | invariant of the worklist (found subprograms are needed, finished ones have their references found); measure 2·unmarked + worklist; references of kept subprograms are kept, so the loops of C61 give the same; invariant of the callbacks of C63 |
| C104 | BundleMap | running sums: base + size of a function at most the base of any later one; indices injective and inside; induction over the operations against the per-block history |
| C105 | SplitDwarf | case analysis of one unit, induction over the units; the range lists in force are those of the last split file read that has some; three witnesses |
| C106 | CommaFormat | induction over the groups: value of the groups, three digits each; stream state as a record |
| C107 | Registry | transition system of threads with the mutex; invariant: what was sent is the sequential execution of the calls in the order in which they got the mutex |
| C108 | RunProgress | a run as the list of its updates, for each set of failing steps a prefix of one list; values by the rounded progress of C37 |
| C109 | ChainStats | the builder of C31 with its counters: same result; each counted merge removes one chain |
| C52 | WriterText | line-level parser as specification of the format |

## Trusted base

* Lean 4.33.0's kernel (and, for reading the sources, its elaborator). No axioms are added; every theorem of the manifest
  depends at most on `propext`, `Classical.choice`, `Quot.sound`: `AXIOMS.txt` lists them per theorem. Concrete cases are
  evaluated with `decide`/`decide +kernel`/`rfl`, in the kernel.
* The faithfulness of the hand-written model to the cited lines: the code is not executed here.
* The idealisations listed under *Conventions* and in the header and comments of each module.

### Modelled code

sample_reader.{h,cc} (text format, accumulation, branch stacks), gcov.cc, profile_writer.{h,cc} and profile_reader.cc
(AFDO format, string table, lengths, summary), source_info.h (packing), symbol_map.{h,cc} (merge, elision, throttling,
target trimming, inline-stack attribution, call graph and inclusive counts, thresholds, address lookup, flattening,
overlap, hybrid profiles, nesting limit, working sets, symbol list, comparison), profile_symbol_list.cc, llvm_profile_{reader,writer}.cc (conversion, special symbols), profile.cc and instruction_map.{h,cc} (default mode), perfdata_reader.cc, lbr_branch_aggregator and frequencies_branch_aggregator (aggregation, fallthrough
inference), llvm_propeller_perf_*_aggregator.cc (totals), llvm_propeller_binary_address_mapper (lookup, selection),
llvm_propeller_program_cfg(_builder), llvm_propeller_cfg (edges, frequencies, forced edges), llvm_propeller_node_chain*,
llvm_propeller_node_chain_builder, llvm_propeller_node_chain_assembly*, llvm_propeller_chain_cluster_builder,
llvm_propeller_code_layout(_scorer), llvm_propeller_profile_computer (`ComputeProfile`), llvm_propeller_profile_writer (both files), lazy_evaluator.h, status_provider,
llvm_propeller_file_perf_data_provider, spe_tid_pid_provider, simple_spe_sample_reader.cc and
branch_frequencies_autofdo_sample.cc (ranges), util/symbolize: bytereader, dwarf3ranges, nonoverlapping_range_map, the line number part of dwarf2reader, functioninfo (line handler), legacy_addr2line
(preparation, lookup, inline stacks), addr2line_inlinestack (handler of entries, pruning, lookup, references, range lists), elf_reader
(headers, sections, segments, symbols, notes).

The prefetch mode (`Prefetch`): profile_creator.cc:53-129, 223-268 and symbol_map.cc:1461-1475; `fscanf` as in C01, with the overflow of
the buffer of `%s`.

`profile_merger` on AFDO files (`Merger`, `MergerGcov`): profile_merger.cc:144-187, with the reader and writer of C07, the threshold of C18,
the summary of C21 and the working sets of C71; the version flag as each reader overwrites it (profile_reader.cc:163-164).

`profile_merger --is_llvm` (`MergerLlvm`): profile_merger.cc:113-141, 188-311, from the profiles LLVM's reader delivers to those given to its
writer (assumptions as for C56); RemoveSymsMatchingRegex (symbol_map.cc:1490-1497) with the match as an arbitrary predicate. The encodings, FS
discriminators and a failure to open the output are not modelled.

`PerfDataSampleReader` (`PerfRead`): sample_reader.cc:35-103, 269-360 from the parsed events (quipper) on: choice of the binary by build id
or name, the cache of decisions, sample times and the kernel flag; the padding of the build id and MergeSample in profile_creator.cc.

Time stamps (`Stamp`): profile.cc:63-70, 161, symbol_map.cc:528-531 and the elision loop 314-341 with the stamps of its symbols.

`SimpleSpeDataSampleReader` (`SpeSimple`): simple_spe_sample_reader.cc:14-233 from the decoded records (the decoder of Arm SPE packets is an
input) on, with the synthesis of ranges of C42.

Packages of split debug information (`Dwp`): `DwpReader` (dwarf2reader.cc:1078-1258) on the bytes of `.debug_cu_index`; the sections of the
package are given by offset and size (version 2) or ELF section number (version 1). Opening .dwp and .dwo files: C105.

Symbols of the binary address mapper (`MapperSyms`): `ReadSymbolTable`, `GetSymbolInfoMap`, `ReadBbAddrMap` (llvm_propeller_binary_address_mapper.cc:51-148);
the symbols and the decoded map are inputs (LLVM's object library).

Sampled functions (`Sampled`): `GetSampledSymbolStartAddressSizeMap` (symbol_map.cc:1161-1192), `GetSampledAddresses` (sample_reader.cc:105-117).

Validation (`Validate`): `SymbolMap::Validate` (symbol_map.cc:1198-1265) with exact binary32 arithmetic; `Symbol::EntryCount` (716-738).



Reader of Arm SPE recordings (`SpeReader`): `PerfSpeDataSampleReader` (spe_sample_reader.cc:50-247) on top of `MMapSelector`, `PerfMMap`, `PerfAgg`, `SpeFreq`, `AddrLookup`. Not modelled: decoding of SPE packets, the disassembler.

Content of a binary for propeller (`BinContent`): llvm_propeller_binary_content.cc. Not modelled: LLVM's decoding of ELF and notes, the DWARF context.

Operations on one control flow graph (`CfgOps`): llvm_propeller_cfg.h:172-191, 301-324, 393-468, llvm_propeller_cfg.cc:24-70, 99-159, 181-210. Not modelled: the dot output.

Command line of `create_llvm_prof` (`PropCli`): create_llvm_prof.cc:29-290, llvm_propeller_options_builder.cc (the setters used), llvm_propeller_profile_generator.cc:105-140, 188-227, llvm_propeller_profile_computer.cc:42-62, 84-91, llvm_propeller_perf_branch_frequencies_aggregator.cc:23-36. Not modelled: parsing of flags, status providers.

Collection over several recordings (`PropFiles`): llvm_propeller_perf_lbr_aggregator.cc:27-114, llvm_propeller_perf_branch_frequencies_aggregator.cc:39-76, mini_disassembler.cc:91-121, perfdata_reader.cc:457-467. The instruction decoder and the parser of recordings are inputs.

The whole propeller command (`PropRun`): llvm_propeller_profile_generator.cc:142-227, llvm_propeller_profile_computer.cc:62-163, lbr_branch_aggregator.cc:35-62, frequencies_branch_aggregator.cc:25-90, llvm_propeller_profile_writer.cc:108-260 (without verbose output and dump), llvm_propeller_profile_writer.h:33-57. The orders of hash maps and the two quotients of `CreateEdges` are inputs. After a failed check while writing both files are empty in the model.

Control flow graphs in a file (`CfgProto`): llvm_propeller_program_cfg_proto_builder.cc:43-94, llvm_propeller_mock_program_cfg_builder.cc:31-118, llvm_propeller_cfg.cc:42-70, llvm_propeller_cfg.h:311-323. The text format of protocol buffers is not modelled; a release build is assumed (no `DCHECK`).

Symbolizing through LLVM (`LlvmLine`): addr2line.cc:51-140, addr2line.h:67, 94-96, addr2cu.cc:23-59. What LLVM's DWARF library reports is the input.

The whole `create_gcov` (`CreateGcov`): create_gcov.cc:27-51, profile_creator.cc:118-222, without LLVM. `std::regex_search` and the tables of file names are parameters.

The whole `create_llvm_prof` (`CreateLlvm`): create_llvm_prof.cc:197-290, profile_creator.cc:118-222, llvm_profile_writer.cc:34-63 and 170-206, source_info.h:38-64. LLVM's debug information (as in C93), its two functions for discriminators, its writer (what it is given is the output) and the names kept in symbols are parameters.

The whole `sample_merger` (`SampleMerger`): sample_merger.cc:26-41, profile_creator.cc:159-213 and 274-299. Counts modulo 2^64. The files are given by what the readers of C94 see in them; the output device takes a given number of characters.

Two-level line tables (`TwoLevel`): functioninfo.h:51-190, functioninfo.cc:54-185. Row numbers below 2^31. The callbacks come in the order of the reader; the client's walk through `GetLogical` and `GetSubprogInfo` is the one described in functioninfo.h:66-74.

Two-level units from bytes (`TwoLevelProg`, `TwoLevelUnit`): dwarf2reader.cc:1288-1299, 1462-1858, 1861-2077 and 2079-2175 for version 0xf006, on top of the model of C58; legacy_addr2line.cc:161-181. Not covered by the theorem: `DW_LNE_define_file` in these programs, units of other versions in the same section (C58), malformed units.

Listing (`DumpGcov`): symbol_map.cc:70-101, 113-121, 641-682, 976-993, dump_gcov.cc:24-38, over the symbol map of C07.  Not modelled: demangling of names (off by default), names with a zero byte, `DumpForAnalysis`.  The file name of a symbol is a function of its name, as it is in what the reader builds.

Source files (`FileNames`): profile_writer.h:116-241 (FileIndexMap, SymbolTraverser, StringTableUpdater), profile_writer.cc:155-164, symbol_map.cc:142-163 and 535-563 for `dir_name`/`file_name`, profile_reader.cc:51-106; a tree of sources beside the tree of counts of C01, proved to keep the same callsites (`matches_traverse`, `matches_merge`).  The join of paths is that of `std::filesystem::path` on POSIX.  Not modelled: symbols without a function name, `PopulateSymbolRetainingHotInlineStacks` for sources.

CFG statistics (`CfgStats`): llvm_propeller_statistics.h:86-132, llvm_propeller_program_cfg_builder.cc:46-106 and 152-194 with their counters, llvm_propeller_cfg.cc:200-209, over the graph of C27.  Counters are unbounded.  Not modelled: the text of the report (llvm_propeller_statistics.cc) and the statistics of the layout, the disassembly and the profile.

Scaling (`Scale`): symbol_map.cc:698-711 and 1267-1278, over the table of names and symbols of C12 (names may share a symbol).  The product is a `double` (RoundFloat), `roundl` rounds halves up.  Counts are unbounded; a scaled count of 2^64 or more is undefined in the code.  Ratios that are negative are not modelled.

Discarding (`Cleanup`): util/symbolize/addr2line_inlinestack.cc:131-186 over the maps of C61; the flags `used_` are a function of the offset, pointers in the worklist are offsets.  `CleanupUsed`: the invariant that subprograms in the insert order are used, for the handler of C63 (188-243, 264-500).  The opening of the package or `.dwo` file: C105.

Positions of blocks (`BundleMap`): llvm_propeller_node_chain.h:339-408, llvm_propeller_node_chain.cc:33-76, 269-278.  The chain model of C29-C32, C50 keeps the positions in a map from blocks; this module shows that the code's flat table is such a map.  Bundle pointers are numbers, `int` is unbounded (the number of blocks is assumed below 2^31).

Split debug information (`SplitDwarf`): dwarf2reader.cc:590-599, 885-893, 958-1055 and the loop of legacy_addr2line.cc:140-160, as the sequence of the units that are read, with the range lists in force; files are described by what the code asks about them (ELF or not, result of the lookup of C81, sections present, identifier).  What the reading of a unit does is C62/C63, the end of a split unit C103.

Comma formatting (`CommaFormat`): llvm_propeller_formatting.cc:13-35; the stream is its text, fill character, width and the flags for adjustment and base (`showpos` and locales are taken to be off).

Registry of status consumers (`Registry`): status_consumer_registry.cc 15-29; the mutex is a holder, the loops go element by element, consumers are names. Not modelled: what consumers do with a message, the polls of `StatusProvider`.

Progress of a propeller run (`RunProgress`): llvm_propeller_profile_generator.cc 41-100, 142-186, llvm_propeller_profile_computer.cc 64-79, 126-163, status_provider.cc 8-29. The steps are given by whether they succeed. Not modelled: looks in the middle of an update (`progress_` and the vector of parts are not synchronized, a data race), failed checks while writing, which end the process.

Statistics of the chain builder (`ChainStats`): llvm_propeller_statistics.h 20-48, llvm_propeller_node_chain_builder.cc 191-257, 446-467. The kinds of initial chains are counted in the state after `InitNodeChains` instead of at each addition; the merge orders are a list. Not modelled: the scores in the statistics.

### Not modelled

Third-party code: LLVM's libraries (its sample profile encodings, ELF and DWARF readers, discriminator functions), the parser of
perf files (quipper), the decoders of instructions and of Arm SPE packets, `std::regex`, protobuf encodings, flag parsing.  Of the
project's own code: decompression of sections, dot output of graphs, the texts of statistics and telemetry, logging and formatting of
names, the debug dumps of profiles.
Files that could not be opened, out-of-memory and I/O errors are only modelled where a property is about them (C43, C47).

## Where the code disagrees with what a user would expect

Each is a theorem `…_violated` on a concrete witness unless marked (read only).

* C04: a bogus range also drops the branch count of its entry; a wrong-path entry's source is used as a range end.
* C07: the writer rewrites names that end in `D4Ev`, `C4Ev`, …, so two functions can collapse into one.
* C09: from version 3 on, the length word of the function section is 2 words per function too small.
* C10: lines, discriminators ≥ 2^16 overlap other fields.
* C12: under `selected`, only one occurrence of a suffix is removed.
* C15: an invalid enclosing frame gets the innermost location. C16, C46: indirect-call targets are overwritten, not added.
* C53: two functions with the same name share one address range, the samples of the other are lost.
* C54: calls moved out still count in the caller's total; their entry counts are not estimated.
* C55: with a function inlined into itself the totals do not add up after flattening.
* C56: merged call targets are those of the last profile; totals can depend on the order; lines ≥ 2^16 collide when written.
* C17: `StrongConnect` passes its index by value: 4 mutually recursive functions make the tool stop ("Found a Loop").
* C18: `ignore_thresholds` is stored and never read; fractions above 1 are not monotone.
* C20: overlapping segments; C22: mappings that end at 2^64; C23: differently relocated segments.
* C24: total in an `int`; runs that end at an unknown address.
* C27: the kind of an edge depends on hash order; a repeated branch with an initial program fails a `CHECK`.
* C30: chains from the configuration keep their edges unsorted and the predicted gain is then wrong.
* C31: if the entry block is in the middle of a forced path it is not first; C32: and then clustering fails a `CHECK`.
* C34: 32-bit wrap of the products. C37: jobs out of order. C38: reversed and partially overlapping ranges.
* C40: DWARF 5 absolute entries get the base added. C41: out-of-order histories. C42: unaligned ranges.
* C47: a read error loses the files read before. C49: hash order of mixed build-id names.
* C58: the line reader ignores header_length and max_ops, reads past a unit without end_sequence; version 5 numbering is off by
  one and MD5 columns are not read; (read only) `.debug_line_str` is passed as `.debug_str` by the inline-stack handler, opcodes
  13–15 of two-level tables have a fixed arity, the length of `DW_FORM_addrx` is uninitialised.
* C59: the end of a sequence erases the first row of an adjacent sequence read before; DWARF 5 rows get wrong file names.
* C60: a split function that is dropped later has already displaced another one; nested functions outside their parent are dropped.
* C61: overlapping or reversed ranges of inlined calls stop the program; a missing call file is a null dereference; circular
  references never end; a named function without a line can lose its name to its abstract origin.
* C62: abbreviation codes with gaps stop the reader; `DW_FORM_implicit_const` −1 is taken as unsigned; `addrx`/`addrx1`-`4` and
  several DWARF 5 forms are misread or stop the program; `data16` is not reported; children without a terminator go unnoticed; a
  64-bit string-offsets table changes the offset size of a 32-bit unit. (read only) the inline-stack handler dereferences
  `end()` when `.debug_str` exists and `.debug_line_str` does not.
* C63: references other than `ref4`/`ref_addr`, call lines as `udata`, `data8` or `sdata` and unit ranges as `rnglistx` stop the
  program; a signed declaration line is ignored; a unit without compilation directory takes over that of an earlier unit; a
  function with code nested in a function without code is lost.
* C64: a table of range lists at the end of the section that has no lists fails a `CHECK`; a range list by number in a unit whose
  table has no offsets is read at the base; offsets of the 64-bit format are cut to 32 bits.
* C65: a range list of DWARF 5 given by offset takes addresses by number from the start of `.debug_addr` (a default argument);
  `.debug_str_offsets` is not among the sections loaded; `DW_AT_ranges` of a unit overwrites the base of its range lists.
* C66: an empty section at a page boundary is fatal; a file with segments but no section headers is a null dereference; compressed
  `.zdebug_*` sections do not count as debugging sections.
* C67: the filter for `@plt` compares from four bytes before the end of the name: it reads before the string table, or drops a function
  whose short name is stored as the end of another; offsets into a symbol table are 32 bits.
* C68: a build id of more than 20 bytes is ignored.
* C69: a name of two functions, or an alias with a suffix, mixes the samples of two functions.
* C71: after suffixes are elided the instructions of renamed functions are counted twice in the working sets; merging averages the
  numbers of instructions pairwise, so the order of the inputs matters, and wraps around from 2^31.
* C72: a function whose suffix is elided is in the profile and in the list of symbols not in the profile.
* C73: a function without samples in the first profile can be missing from the comparison although it is hot in the second.
* `ConvertPrefetchHints`: all hints of a function are lost if its first hint has no debug information; two instructions on one source
  line, 257 hints for one instruction, types with dots and split functions lose or change hints; `%s` overflows `prefetch_type[5]`;
  a missing or malformed file is not an error (`Prefetch.first_hint_violated`, ...).
* `profile_merger`: merging in stages loses functions below the threshold of a stage; the counts of indirect-call targets are those of the
  last input; `--gcov_version` has no effect, the output has the version of the last input, and loses timestamps and summary if that is old
  (`Merger.staged_merge_loses`, `merge_targets_violated`, `merge_version_violated`).
* `profile_merger --is_llvm`: a function removed because it is in several profiles is written, with a total near 2^64, if the nesting level is
  limited too; the limit of inlined callees lowers totals after the threshold was computed, so that the only function of a profile can be lost
  (`MergerLlvm.removed_function_written`, `limited_function_lost`).
* C78: decisions of `MatchBinary` are cached by the address of a `DSOInfo` of the parser of the file; the cache survives the parser, so that after
  a second `Append` another binary can be taken for the profiled one (`PerfRead.append_stale_cache_violated`).
* C79: the stamp of a function is the time of its lowest sampled address, not of its earliest sample; a function whose suffix is elided is
  written with the stamp 0 (`Stamp.stamp_earliest_violated`, `stamp_suffix_violated`).
* C80: the total count of the simple SPE reader is the number of records plus the covered bytes; only the first mapping of the binary counts
  (`SpeSimple.total_count_violated`, `second_mapping_violated`).
* C81: the lookup of a missing unit in a package without a free slot does not end (`Dwp.full_violated`); packages of DWARF 5 are not read.
* C82: an alias whose size differs from that of the first symbol at the address is dropped; a first symbol in no section stops the program (part of `MapperSyms.names_spec`).
* C83: a sampled address between two functions puts the one before in the map (`Sampled.gap_violated`); if the segments are in another order in memory than in the file, a sampled function may be missing (`Sampled.order_violated`).
* C84: the sum of the total counts wraps around (`Validate.wrap_violated`).
* C85: with two functions inlined at the first position the entry count depends on the order of a hash map (`Validate.order_violated`).
* C86: a branch record in a mapping of the binary but outside of its loadable segments stops the program (`SpeReader.ex_stop_violated`).
* C87: the type of a note is not checked, so in a kernel image another note of the owner GNU can be taken for the build id (`BinContent.note_type_violated`); the size of the text section of a module is cut to 32 bits (`BinContent.text_size_violated`); that `.text` is the first executable section, as the comment demands, is not checked (`BinContent.first_exec_violated`).
* C88: updating an edge where one of another kind exists stops the program, although the comment promises a new edge (`CfgOps.kinds_violated`); a copy forgets the recorded clone paths (`CfgOps.copy_paths_violated`); the constructor accepts clones before later blocks, which can then not be found (`CfgOps.order_violated`).
* C89: `--profiler=perf_spe` is ignored for names given on the command line, the recording is read as LBR (`PropCli.spe_type_violated`); `--ignore_build_id` has no effect on the command line, because the name of the profiled binary is always set, to the empty name by default (`PropCli.ignore_build_id_violated`).
* C90: a code section that ends at the top of the address space is not found by the disassembler (`PropFiles.section_end_violated`); statistics that already count a recording hide that none was found (`PropFiles.stats_reused_violated`; the callers in the repository pass fresh ones).
* C91: an output file that cannot be opened is not noticed: exit 0 and no file (`PropRun.unwritable_violated`); an unknown version of the encoding is found only after the layout and crashes (`PropRun.version_violated`).
* C92: `can_fallthrough` is read from `is_landing_pad` (`CfgProto.fallthrough_violated`); calls are not written (`CfgProto.calls_violated`); block ids that are not indexes are written but cannot be read (`CfgProto.ids_violated`); clones cannot be written (`CfgProto.clones_violated`).
* (read only) `BuildFromCfgProtoPath` keeps references to the section names of a message that is destroyed when it returns (names of functions are saved, llvm_propeller_mock_program_cfg_builder.cc:83 against :94).
* C93: with DWARF 5 the directory of a file is wrong by one (`LlvmLine.dir_violated`); unit offsets are cut to 32 bits, so from 4 GiB of debug information on addresses are looked up in the wrong unit (`LlvmLine.offset_violated`).
* C94: the name of the binary is put into an expression unquoted, so `a.out` also selects the samples of `aXout` (`CreateGcov.dot_violated`); `.unstripped` is cut off in directories, too (`CreateGcov.unstripped_violated`).
* C95: with the profiler `prefetch` a profile that cannot be opened gives status 0 and an empty profile (`CreateLlvm.missing_hints_violated`).
* C96: a full device gives status 0 and a cut output, the old counts being lost (`SampleMerger.full_disk_violated`); counts that sum up to 2^64 are written as 0 (`SampleMerger.overflow_violated`).
* C97: a row that is its own context makes the reader recurse without end, a context that does not exist is logged and then read out of bounds, and a subprogram of an unknown file is logged and makes the next one fail a `CHECK` (`TwoLevel.cycle_violated`, `missing_context_violated`, `bad_subprogram_violated`).
* C98: a call inlined into a row that does not exist yet makes the reader recurse without end (`TwoLevelUnit.forward_context_violated`); the end of a sequence is dropped when the row number it carries does not exist, so addresses behind the code keep the last stack (`TwoLevelUnit.end_lost_violated`).
* C99: names with colons (C++ names with --demangle_symbol_names) make different profiles have one listing (`Dump.colon_violated`); lines of more than 16 bits are printed modulo 65536 (`Dump.line_violated`); a function with an entry count but no samples is not listed (`Dump.empty_unlisted`).
* C45: rounding makes the overlap of a profile with itself larger or smaller than 1 (`Overlap.above_one_violated`, `below_one_violated`), and with 2^25 equal functions it is at most 1/2 (`stagnation_violated`).
* C37: a composite with one job at 53% reports 52% (`Progress.rounding_violated`).
* C72: sizes above 2^53, as in a damaged symbol table, lead to a read out of bounds (`FloatUses.size_violated`).
* C17: the single sample of a function called 41 times is lost to its only caller (`FloatUses.cost_violated`).
* C100: functions of the same name in different files (static functions) have one file stored, that of the one last in hash order (`FileNames.static_violated`); a symbol emitted under two names has a file only for the name it was created with (`FileNames.alias_violated`); an inlined call whose first sample has no file name never gets one (`FileNames.first_empty_violated`); merging with a later profile without file names loses those of functions (`FileNames.reread_violated`).
* C101: branches of different kinds between the same blocks make the weights by kind differ from those of the edges (`CfgStats.kinds_violated`; the statistics count them as mixed).
* C102: a function with two names is scaled twice and counts twice in the total sum (`Scale.alias_violated`); the total of a scaled function need not be the sum of its scaled counts (`Scale.sum_violated`); counts of 2^53 and more can change when scaled by 1 (`Scale.large_violated`).
* C103: a reference that leaves the map of the split unit (for example to another unit) is an access past the end of the map (`Cleanup.reference_violated`).
* C104: with a single function the index ignores the function, so a block of another function silently shares an entry; with several the lookup throws (`BundleMap.foreign_violated`).  The builder only looks up blocks of its own functions as long as taken branches stay in their function (`Enclosed`, C50).
* C105: the range lists of a `.dwo` file stay in force after it has been read and its bytes are gone, for the rest of the binary (`SplitDwarf.own_ranges_violated`: use after free); a relative name of a split file is not taken relative to the compilation directory (`SplitDwarf.relative_violated`); a split ELF file without `.debug_info.dwo` ends the program (`SplitDwarf.no_info_fails`).
* C106: with a width set, zero bytes are written before the number and the width applies again afterwards (`CommaFormat.width_violated`); on a left-adjusting stream 1005 is written as 1,500 (`CommaFormat.left_violated`).
* C107: a consumer registered after a Start gets that run's Stop alone (`Registry.late_reach_violated`), and with two runs at once the first to end stops the consumers of the other (`Registry.late_violated`).
* C108: consumers are told of a run before its phases are added; one that looks then sees 100 and done, and 0 afterwards (`RunProgress.early_violated`).
* (read only) `CFGNode::addr_` is an `int`: addresses from 2^31 are truncated; gcov_open returns 0 on failure while callers
  compare with −1; an overlong LEB128 (> 10 bytes) is undefined behaviour; `profile_merger`'s `verifyProperFlags` returns early.
