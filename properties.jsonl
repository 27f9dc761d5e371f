{"id": "C01", "title": "Text sample profile round trip", "statement": "Writing a sample profile (range counts, address counts, branch counts) in the text format and reading the resulting text back yields exactly the same three count maps, with nothing dropped, duplicated or reordered into another section.", "quantifier": "every finite range-count, address-count and branch-count map over 64-bit addresses and counts", "why_tests_cant": "the text grammar relies on entry counts and hexadecimal/decimal scanning of unbounded maps; tests only try a few literal profiles", "anchors": ["sample_reader.cc:TextSampleReaderWriter::Write", "sample_reader.cc:TextSampleReaderWriter::Append"]}
{"id": "C02", "title": "Sample profile accumulation is order independent and additive", "statement": "Merging any list of sample profiles gives for every address, range and branch the sum of the counts of the inputs, independently of the order and grouping in which the profiles are merged.", "quantifier": "every list of sample profiles and every permutation of it", "why_tests_cant": "order independence quantifies over all permutations of unboundedly many inputs", "anchors": ["sample_reader.cc:TextSampleReaderWriter::Merge", "sample_reader.cc:FileSampleReader::Read", "sample_merger.cc:main"]}
{"id": "C03", "title": "Total sample count is the count-weighted number of covered bytes", "statement": "After reading a profile, the reported total count equals the sum over ranges of count times (end - begin + 1), or the sum of the address counts if there are no ranges; it is monotone in the counts.", "quantifier": "every set of ranges and addresses with arbitrary counts", "why_tests_cant": "requires a sum over an arbitrary map and a case split no finite test covers", "anchors": ["sample_reader.cc:SampleReader::ReadAndSetTotalCount"]}
{"id": "C04", "title": "Branch-stack conversion only records plausible ranges", "statement": "Converting a branch stack to counts records exactly one branch count per stack entry that is not on a mispredicted/wrong path, and records a straight-line range only between the target of one branch and the source of the next one, never with end before begin and never longer than the 1 MiB limit.", "quantifier": "every branch stack (any length, any addresses, any speculation flags)", "why_tests_cant": "the property must hold for each adjacent pair in an arbitrary stack", "anchors": ["sample_reader.cc:PerfDataSampleReader::Append"]}
{"id": "C05", "title": "gcov primitive round trip", "statement": "Any sequence of 32-bit words, 64-bit counters and strings written with the gcov writer is returned unchanged, in order, by the gcov reader in the same format version, and the reader consumes exactly the bytes the writer produced.", "quantifier": "every sequence of values, every string without NUL and within the reader's limit, both string encodings (format versions 1 and >=2)", "why_tests_cant": "length/padding/terminator arithmetic is only sampled by tests; an off-by-one shows at particular residues", "anchors": ["gcov.cc:gcov_write_unsigned", "gcov.cc:gcov_write_counter", "gcov.cc:gcov_write_string", "gcov.cc:gcov_read_unsigned", "gcov.cc:gcov_read_counter", "gcov.cc:gcov_read_string"]}
{"id": "C06", "title": "Buffered gcov reading equals reading the byte stream", "statement": "Reading through the refillable buffer returns the same values as reading directly from the file's bytes, for any sequence of reads; past end of file every read yields zero.", "quantifier": "every file content, every sequence of read requests and every buffer fill level", "why_tests_cant": "buffer-boundary bugs appear only at particular alignments between records and the buffer", "anchors": ["gcov.cc:gcov_read_words", "gcov.cc:gcov_read_bytes"]}
{"id": "C07", "title": "AFDO profile write/read round trip", "statement": "Writing a set of symbols with nested inlined callsites and indirect-call targets to an AFDO gcov profile and reading it back yields the same symbols: same names, entry counts, per-location counts, call targets and inline structure.", "quantifier": "every finite profile tree (any depth and width) whose values fit the on-disk fields", "why_tests_cant": "structural recursion over arbitrary trees; unit tests only cover a fixed tree", "anchors": ["profile_writer.cc:SourceProfileWriter", "profile_reader.cc:AutoFDOProfileReader::ReadFromFile", "profile_reader.cc:ReadSymbolProfile"]}
{"id": "C08", "title": "String table is a faithful dictionary", "statement": "In the emitted profile the string table lists each referenced name once, in increasing order with the empty name at index 0; each name written as an index decodes to that same name.", "quantifier": "every set of names appearing in a profile", "why_tests_cant": "injectivity and completeness over arbitrary name sets", "anchors": ["profile_writer.cc:StringTableUpdater", "profile_writer.cc:StringIndexMap", "profile_reader.cc:ReadNameTable"]}
{"id": "C09", "title": "Section lengths match the bytes written", "statement": "The length word written in front of the function-profile section equals the number of 32-bit words that follow it in that section.", "quantifier": "every profile tree and every supported format version", "why_tests_cant": "length is computed by a second traversal that must agree with the writer on all trees", "anchors": ["profile_writer.cc:SourceProfileLengther", "profile_writer.cc:SourceProfileWriter"]}
{"id": "C10", "title": "Location packing is lossless within its documented field widths", "statement": "Packing a (line offset, discriminator) pair into a location key and unpacking it returns the pair, distinct pairs get distinct keys, and the compressed 32-bit form stored in profiles is decoded back to the same pair whenever both fit in 16 bits.", "quantifier": "all 2^32 x 2^32 line/discriminator pairs", "why_tests_cant": "2^64 inputs", "anchors": ["source_info.h:SourceInfo::GenerateOffset", "source_info.h:SourceInfo::GenerateCompressedOffset", "profile_reader.cc:ReadSymbolProfile"]}
{"id": "C11", "title": "Merging symbol profiles conserves and commutes on counts", "statement": "Merging one symbol profile into another adds total counts, entry counts, per-location counts and instruction counts and recursively merges callsites; the counts of the result do not depend on the order of merging.", "quantifier": "every pair/triple of profile trees", "why_tests_cant": "recursive structure with unbounded depth; commutativity quantifies over all trees", "anchors": ["symbol_map.cc:Symbol::Merge", "symbol_map.h:ProfileInfo::operator+="]}
{"id": "C12", "title": "Suffix elision never invents a name and conserves samples", "statement": "Removing compiler suffixes from function names returns a prefix-derived base name; merging all symbols with the same base name conserves the total number of samples, and every resulting symbol is keyed by a base name.", "quantifier": "every function name and every symbol map", "why_tests_cant": "names are arbitrary strings; conservation is over arbitrary maps", "anchors": ["symbol_map.cc:SymbolMap::GetOriginalName", "symbol_map.cc:SymbolMap::ElideSuffixesAndMerge"]}
{"id": "C13", "title": "Inline-instance throttling keeps the hottest instances", "statement": "Limiting inline instances keeps, at each source location, at most N inlined callees, and every dropped callee has a total count not larger than each one kept; the function's total count decreases by exactly the number reported as removed, which is the sample count of everything removed below it (never below zero); a negative limit changes nothing.", "quantifier": "every profile tree and every N", "why_tests_cant": "needs all locations of arbitrary trees; ties and equal sizes are rarely tested", "anchors": ["symbol_map.cc:SymbolMap::throttleInlineInstancesAtSameLocation"]}
{"id": "C14", "title": "Call-target trimming keeps the top targets", "statement": "Trimming call targets leaves at each location at most N targets, and each one kept has a count at least that of each one dropped (ties broken by name); untouched locations keep all their targets.", "quantifier": "every target map and every N", "why_tests_cant": "ordering property over arbitrary multisets of counts", "anchors": ["symbol_map.cc:SymbolMap::TrimCallTargets", "symbol_map.cc:GetSortedTargetCountPairs"]}
{"id": "C15", "title": "Sample attribution along an inline stack", "statement": "Attributing a sample to an inline stack adds the sample to the total of every enclosing function on the stack, and changes the location count only in the innermost function: it becomes the maximum (perf data) or the sum (profile input) of what it was and the new count.", "quantifier": "every profile state, every inline stack and every count", "why_tests_cant": "history dependent: quantifies over all prior attribution sequences", "anchors": ["symbol_map.cc:SymbolMap::TraverseInlineStack", "symbol_map.cc:SymbolMap::AddSourceCount"]}
{"id": "C16", "title": "Indirect-call target counts accumulate across inputs", "statement": "Recording the same indirect-call target at the same location several times yields the sum of the recorded counts.", "quantifier": "every sequence of target records", "why_tests_cant": "quantifies over histories of calls", "anchors": ["symbol_map.cc:SymbolMap::AddIndirectCallTarget"]}
{"id": "C17", "title": "Inclusive total counts can be computed for any call graph", "statement": "Computing inclusive counts over the sampled call graph groups functions exactly by mutual reachability and terminates successfully for every call graph, including cyclic ones.", "quantifier": "every directed call graph and visiting order", "why_tests_cant": "a wrong SCC algorithm fails only on particular graph shapes", "anchors": ["symbol_map.cc:CallGraph::StrongConnect", "symbol_map.cc:CallGraph::TopoVisit", "symbol_map.cc:SymbolMap::ComputeTotalCountIncl"]}
{"id": "C18", "title": "Emission threshold", "statement": "A function is emitted iff its total exceeds the sample threshold derived from the total of the profile; raising a function's count never stops it from being emitted, and with thresholds ignored everything sampled is emitted.", "quantifier": "every profile total and every function count", "why_tests_cant": "arithmetic over all 64-bit totals", "anchors": ["symbol_map.cc:SymbolMap::CalculateThresholdFromTotalCount", "symbol_map.h:SymbolMap::ShouldEmit"]}
{"id": "C19", "title": "Address to symbol resolution", "statement": "Looking up an address returns the symbol whose [start, start+size) interval contains it, and reports failure iff no symbol covers the address, for any non-overlapping symbol table.", "quantifier": "every non-overlapping symbol table and every 64-bit address", "why_tests_cant": "boundary behaviour at every start/end address", "anchors": ["symbol_map.cc:SymbolMap::GetSymbolInfoByAddr"]}
{"id": "C20", "title": "Virtual address / file offset translation are inverse", "statement": "Within the loaded executable segments, translating a file offset to a static virtual address and back returns the same offset (and conversely).", "quantifier": "every well-formed list of load segments and every address inside one", "why_tests_cant": "quantifies over segment layouts", "anchors": ["symbol_map.h:SymbolMap::get_static_vaddr", "symbol_map.cc:SymbolMap::GetFileOffsetFromStaticVaddr"]}
{"id": "C21", "title": "Profile summary cutoffs", "statement": "For every cutoff of the detailed summary, the reported minimum count and number of counts describe the smallest prefix of the counts in decreasing order whose sum reaches the cutoff fraction of the total; entries are monotone in the cutoff; total, maximum and number of counts are exact.", "quantifier": "every multiset of counts and every increasing list of cutoffs", "why_tests_cant": "quantifies over all count distributions", "anchors": ["profile_writer.cc:ProfileSummaryComputer::ComputeDetailedSummary"]}
{"id": "C22", "title": "Memory mappings of a process never overlap", "statement": "The set of memory mappings selected for a profile never contains two different overlapping mappings of one process; exact duplicates are kept once; selection fails exactly when nothing matches or two different mappings of one process clash (mappings that stay below the end of the address space).", "quantifier": "every sequence of mmap events", "why_tests_cant": "quantifies over event sequences", "anchors": ["perfdata_reader.cc:SelectMMaps"]}
{"id": "C23", "title": "Runtime to binary address translation", "statement": "A runtime address inside a selected mapping of its process is translated consistently: non-PIE addresses are unchanged, PIE addresses translate to the virtual address of the same file offset (so differences of addresses within one mapping and segment are preserved), kernel addresses by their offset from the kernel mapping; an address in no mapping, or whose file offset is in no segment, translates to the invalid address.", "quantifier": "every set of mappings, segments, pid and address", "why_tests_cant": "address arithmetic over 2^64 addresses and all layouts", "anchors": ["perfdata_reader.cc:PerfDataReader::RuntimeAddressToBinaryAddress"]}
{"id": "C24", "title": "LBR aggregation counts every record once", "statement": "Aggregating branch records counts each branch of each sample of a mapped process exactly once (with unknown addresses mapped to the invalid address), and each straight-line run between consecutive branches exactly once unless its start is unknown or it runs backwards; aggregation of several profiles is additive and order independent; SPE branch records are counted once each, as taken or not taken.", "quantifier": "every sequence of branch stacks", "why_tests_cant": "quantifies over histories", "anchors": ["perfdata_reader.cc:PerfDataReader::AggregateLBR"]}
{"id": "C25", "title": "Basic block lookup by address", "statement": "The basic block found for a branch address is a block covering that address (with the documented choice among empty blocks), and no block is reported exactly when no selected block covers the address.", "quantifier": "every sorted block table (with zero-sized blocks) and every address", "why_tests_cant": "binary search boundaries with empty blocks", "anchors": ["llvm_propeller_binary_address_mapper.cc:BinaryAddressMapper::FindBbHandleIndexUsingBinaryAddress"]}
{"id": "C26", "title": "Inferred fallthroughs are real fallthroughs", "statement": "A fallthrough between two blocks is accepted only when both are in the same function, in order, and every block on the way (excluding the last) can fall through; inferred fallthrough weights are positive.", "quantifier": "every block table and block pair", "why_tests_cant": "quantifies over paths of any length", "anchors": ["llvm_propeller_binary_address_mapper.cc:CanFallThrough", "frequencies_branch_aggregator.cc:InferFallthroughs"]}
{"id": "C27", "title": "CFG edge construction conserves profile weight", "statement": "Building CFG edges from aggregated branches creates at most one edge per (source,sink) pair, registers each edge exactly once at its source and once at its sink, and the edge's weight is the sum of the weights of all records mapped to it.", "quantifier": "every sequence of branch records", "why_tests_cant": "quantifies over histories of edge creations", "anchors": ["llvm_propeller_program_cfg_builder.cc:InternalCreateEdge", "llvm_propeller_cfg.cc:ControlFlowGraph::CreateEdge"]}
{"id": "C28", "title": "Forced fallthrough paths are disjoint and acyclic", "statement": "The forced paths computed for a CFG are node-disjoint, contain no repeated node, have at least two nodes, follow only edges that are both the only hot exit of their source and the only hot entry of their sink, and the computation terminates on every CFG.", "quantifier": "every CFG", "why_tests_cant": "cycle breaking over arbitrary graphs", "anchors": ["llvm_propeller_node_chain_builder.cc:GetForcedEdges", "llvm_propeller_node_chain_builder.cc:BreakCycles", "llvm_propeller_node_chain_builder.cc:GetForcedPaths"]}
{"id": "C29", "title": "Chain merging is a permutation of the basic blocks", "statement": "Whatever sequence of chain merges the layout algorithm performs, each hot block appears in exactly one chain exactly once, chain sizes and frequencies equal the sums over their blocks, every block's recorded offset is the total size of the blocks before it, and the algorithm terminates.", "quantifier": "every initial chain set and every sequence of merges (all five merge orders and split positions)", "why_tests_cant": "quantifies over merge histories", "anchors": ["llvm_propeller_node_chain.cc:NodeChain::MergeWith", "llvm_propeller_node_chain_builder.cc:NodeChainBuilder::MergeChains", "llvm_propeller_node_chain_assembly.cc:ConstructSlices"]}
{"id": "C30", "title": "Predicted merge gain is the true score difference", "statement": "For functions with no initial chains from the configuration, the score gain predicted for a merge of two chains that the builder may carry out (an order without split, or a split order with a nonzero predicted gain) equals the layout score of the merged chain minus the scores of the two chains, i.e. each edge's predicted distance is its distance in the merged layout.", "quantifier": "every pair of chains, every merge order and split position, every edge", "why_tests_cant": "distance arithmetic over all slice combinations, with zero-size blocks", "anchors": ["llvm_propeller_node_chain_assembly.cc:ComputeEdgeScore", "llvm_propeller_node_chain_assembly.cc:FindSliceIndex", "llvm_propeller_node_chain_assembly.cc:ComputeScoreGain"]}
{"id": "C31", "title": "Entry block stays first in intra-procedural layout", "statement": "Without inter-function reordering and without initial chains, after all merges and the final coalescing the function has a single chain and its entry block comes first in it - unless exactly one branch to the entry block was taken, from a block without other taken branches (then the two are glued together and the entry block may come second).", "quantifier": "every CFG whose branches stay inside it, every profile, every option setting, and every merge history", "why_tests_cant": "quantifies over merge histories", "anchors": ["llvm_propeller_node_chain_builder.cc:CoalesceChains", "llvm_propeller_node_chain_assembly.cc:BuildNodeChainAssembly"]}
{"id": "C32", "title": "Chain clustering is a partition", "statement": "Clustering chains places each chain in exactly one cluster, keeps each cluster's size and frequency equal to the sums of its chains, and orders the final clusters by decreasing density with a deterministic tie break.", "quantifier": "every set of chains and every sequence of cluster merges", "why_tests_cant": "quantifies over merge histories", "anchors": ["llvm_propeller_chain_cluster_builder.cc"]}
{"id": "C33", "title": "Emitted layout covers each block once with dense layout indices", "statement": "In the emitted layout each laid-out block appears in exactly one cluster of its own function; layout indices over all clusters are 0..n-1 without gaps or repeats; reading clusters in index order reproduces the global block order; cold indices number the functions 0..m-1 in order of first appearance.", "quantifier": "every global block order", "why_tests_cant": "quantifies over all orders of blocks and functions", "anchors": ["llvm_propeller_code_layout.cc:CodeLayout::OrderAll", "llvm_propeller_profile_writer.cc:PropellerProfileWriter::Write"]}
{"id": "C34", "title": "Edge score is bounded and monotone", "statement": "An edge's layout score is nonnegative, never exceeds its weight times the largest configured weight, is maximal for a fallthrough under the default ordering of weights, and does not increase with distance in a fixed direction.", "quantifier": "every edge, distance and parameter setting with nonnegative weights", "why_tests_cant": "real-valued inequality over all parameters", "anchors": ["llvm_propeller_code_layout_scorer.cc:GetEdgeScore"]}
{"id": "C35", "title": "Hot-node frequency threshold", "statement": "The node frequency threshold for a percentile is the frequency found at that rank of the sorted hot-node frequencies, 0 when there are none, and monotone in the percentile.", "quantifier": "every multiset of node frequencies and percentile 1..100", "why_tests_cant": "rank statistics over arbitrary multisets", "anchors": ["llvm_propeller_program_cfg.cc:ProgramCfg::GetNodeFrequencyThreshold"]}
{"id": "C36", "title": "Lazy evaluation happens at most once", "statement": "A lazily evaluated value is computed at most once whatever the sequence of uses, and each use observes the same result.", "quantifier": "every sequence of uses", "why_tests_cant": "histories of calls", "anchors": ["lazy_evaluator.h:LazyEvaluator"]}
{"id": "C37", "title": "Reported progress is a percentage and completes", "statement": "Progress is always within 0..100, a composite's progress is the weighted mean of its parts, never decreases when parts progress, and a composite is done exactly when all its parts are done.", "quantifier": "every tree of status providers and every history of updates", "why_tests_cant": "histories of updates; rounding", "anchors": ["status_provider.cc:MultiStatusProvider", "status_provider.h:DefaultStatusProvider"]}
{"id": "C38", "title": "Address-range map lookups", "statement": "After any sequence of accepted range insertions the stored ranges do not overlap; looking up an address returns the value of the stored range containing it; inserting a nested range overrides it inside, inserting an enclosing range only fills gaps.", "quantifier": "every sequence of insertions and every address", "why_tests_cant": "histories of insertions", "anchors": ["util/symbolize/nonoverlapping_range_map.h"]}
{"id": "C39", "title": "LEB128 and fixed-width decoding", "statement": "Decoding an unsigned or signed LEB128 encoding of any 64-bit value returns that value and its exact byte length; fixed-width reads invert the corresponding little/big-endian encodings.", "quantifier": "every 64-bit value, both byte orders, also padded encodings", "why_tests_cant": "2^64 values", "anchors": ["util/symbolize/bytereader-inl.h"]}
{"id": "C40", "title": "DWARF range list decoding", "statement": "Decoding a range list returns the address intervals the DWARF standard assigns to it, in order, honouring base-address selection entries and stopping at the end marker.", "quantifier": "every list of range-list entries", "why_tests_cant": "lists of any length and any mix of entry kinds", "anchors": ["util/symbolize/dwarf3ranges.cc"]}
{"id": "C41", "title": "SPE thread-to-process resolution", "statement": "The process reported for a hardware sample is the one most recently associated with its thread at or before the sample's converted timestamp; the time conversion equals the exact rational scaling rounded down and is monotone.", "quantifier": "every event history with nondecreasing timestamps, every timestamp", "why_tests_cant": "histories of events", "anchors": ["spe_tid_pid_provider.cc"]}
{"id": "C42", "title": "Synthesised SPE ranges are well formed", "statement": "For samples at instruction-aligned addresses, ranges synthesised from sampled branches start at a branch target or just after a branch, end at the next branch or at the scan bound, are never empty and never overlap, and have positive weight: the incoming branch weight of their start plus the weight falling through into it (the not-taken count of the preceding branch; in the simple reader a range starting at a target carries only the incoming weight). Every target with positive weight starts a range.", "quantifier": "every set of branch and not-taken counts", "why_tests_cant": "loop over arbitrary address sets", "anchors": ["simple_spe_sample_reader.cc:SynthesizeRanges", "branch_frequencies_autofdo_sample.cc"]}
{"id": "C43", "title": "Every perf file is delivered exactly once, in order", "statement": "Repeatedly asking for the next perf buffer delivers each file exactly once in the given order, then reports the end forever; a read error is reported and does not skip other files.", "quantifier": "every list of files and every pattern of failures", "why_tests_cant": "histories of calls and failures", "anchors": ["llvm_propeller_file_perf_data_provider.cc:GetNext"]}
{"id": "C44", "title": "Flattening adds up all inline instances", "statement": "Converting a nested inline profile into a flat one terminates and gives each function, at every location, the sum over all its inline instances of their counts there (an instance's count at an inlined call being raised to the estimated entry counts of the callees), and as call targets the sum of the recorded targets plus the estimated entry counts of the inlined callees; totals are the sums of the counts. With selective flattening hot functions are kept as they are and only the others are flattened.", "quantifier": "every profile tree", "why_tests_cant": "trees of any depth", "anchors": ["symbol_map.cc:Symbol::EstimateHeadCount", "symbol_map.cc:Symbol::FlatMerge", "symbol_map.cc:Symbol::FlattenCallsite", "symbol_map.cc:SymbolMap::BuildFlatProfile"]}
{"id": "C45", "title": "Profile overlap is a similarity measure", "statement": "The overlap of two profiles lies between 0 and 1, is symmetric, and is 1 for a nonempty profile against itself.", "quantifier": "every pair of profiles", "why_tests_cant": "real-valued inequality over all profiles", "anchors": ["symbol_map.cc:SymbolMap::Overlap"]}
{"id": "C46", "title": "Merging AFDO profiles adds counts", "statement": "Reading a further AFDO profile with force_update into a symbol map that already holds profiles adds, for every function and inline instance, the entry counts, location counts, totals and indirect-call target counts of the file to those in the map, and leaves other functions unchanged.", "quantifier": "every profile file and every prior map", "why_tests_cant": "additivity over arbitrary pairs of trees", "anchors": ["profile_reader.cc:AutoFDOProfileReader::ReadFromFile", "profile_reader.cc:ReadSymbolProfile", "profile_merger.cc"]}
{"id": "C47", "title": "Bulk retrieval of perf files loses nothing", "statement": "Asking for all available perf buffers returns, over all calls until the end is reported, each file exactly once in order, also when a read fails in between and the call is repeated; a further call returns nothing.", "quantifier": "all file lists, all read success/failure schedules, all numbers of calls", "why_tests_cant": "depends on which of arbitrarily many reads fails", "anchors": ["llvm_propeller_file_perf_data_provider.h:GetAllAvailableOrNext"]}
{"id": "C48", "title": "Selected functions are named, distinct and hot", "statement": "The functions selected for a Propeller profile have a symbol, lie in the text section when that filter is on, never share a symbol name with another selected function, and (when hot addresses are given and functions do not overlap) are exactly chosen among the functions that contain a hot address; a function whose names are used by no other function is never dropped by the duplicate-name filter, and of structurally equal copies of a uniq-named function the first is kept.", "quantifier": "every binary, symbol table, set of hot addresses and options", "why_tests_cant": "arbitrary sets of functions, aliases and addresses", "anchors": ["llvm_propeller_binary_address_mapper.cc:CalculateHotFunctions", "llvm_propeller_binary_address_mapper.cc:FilterDuplicateNameFunctions", "llvm_propeller_binary_address_mapper.cc:SelectFunctions"]}
{"id": "C49", "title": "Mapping selection by name or build ID", "statement": "With a user supplied name, exactly the mappings of that absolute path (or with that last path component, or the kernel's three mappings) are selected; without one, exactly the named, non-anonymous files recorded with the binary's build-id bytes; different build ids never match.", "quantifier": "every name, every build-id table and every mapping file name", "why_tests_cant": "quantifies over all names and tables", "anchors": ["perfdata_reader.cc:MMapSelector", "perfdata_reader.cc:GetBuildIdNames", "perfdata_reader.cc:SelectMMaps"]}
{"id": "C50", "title": "Chain building succeeds and stops at a local optimum", "statement": "For functions without configured initial chains whose taken branches stay inside their function, building the chains fails no internal check and terminates; every hot block (with function splitting off: every block) of the functions with edges is in exactly one returned chain; a single function yields at most one chain; and when several functions are laid out together, placing one returned chain directly after another no longer increases the layout score.", "quantifier": "every set of CFGs, edge weights, block sizes, scoring weights and options", "why_tests_cant": "quantifies over all graphs and the whole merge history, including the bookkeeping of the candidate queue", "anchors": ["llvm_propeller_node_chain_builder.cc:NodeChainBuilder::BuildChains", "llvm_propeller_node_chain_builder.cc:NodeChainBuilder::UpdateNodeChainAssembly", "llvm_propeller_node_chain_builder.cc:NodeChainBuilder::UpdateAssembliesAfterMerge", "llvm_propeller_node_chain_builder.cc:NodeChainBuilder::CoalesceChains"]}
{"id": "C51", "title": "The two candidate queues are interchangeable", "statement": "After any sequence of insertions and removals the balanced-tree queue and the iterative queue of merge candidates return the same best candidate, which is the greatest in the documented order whatever the iteration order of the hash map.", "quantifier": "every sequence of queue operations and every hash iteration order", "why_tests_cant": "quantifies over histories and hash orders", "anchors": ["llvm_propeller_node_chain_builder.h:NodeChainAssemblyBalancedTreeQueue", "llvm_propeller_node_chain_builder.h:NodeChainAssemblyIterativeQueue", "llvm_propeller_node_chain_assembly.cc:NodeChainAssemblyComparator"]}
{"id": "C52", "title": "The cluster file can be read back", "statement": "Both versions of the cluster file name each function, its module, its cloning paths and its clusters of blocks unambiguously: reading the written file gives exactly the list of functions it was written for, whenever names contain no blank, line end, and (old version) no slash and no leading exclamation mark.", "quantifier": "every list of functions with clusters, both file versions", "why_tests_cant": "quantifies over all names and all shapes of clusters", "anchors": ["llvm_propeller_profile_writer.cc:PropellerProfileWriter::Write", "llvm_propeller_profile_writer.cc:DumpCfgProfile"]}
{"id": "C53", "title": "The profile computed from samples", "statement": "Converting samples to a profile writes exactly the functions whose samples, together with those of all functions with the same base name, exceed the threshold. In a written function every inline instance gets as total the sum, over its instructions, of the samples covering them (with LBR: of the ranges that begin in the function; otherwise of the address samples), scaled by the duplication factor if enabled; every location gets the maximum count and the number of its instructions; the entry count is the number of branches to the function's start from functions whose branches are counted; every recorded call target is the count of such a branch. The result does not depend on the order in which the functions are visited.", "quantifier": "every symbol table of disjoint functions with distinct names, every debug information, every set of samples, every configuration and every visiting order", "why_tests_cant": "quantifies over all binaries, sample sets and hash-map iteration orders", "anchors": ["profile.cc:Profile::ComputeProfile", "profile.cc:Profile::AggregatePerFunctionProfile", "profile.cc:Profile::ProcessPerFunctionProfile", "instruction_map.cc:InstructionMap::BuildPerFunctionInstructionMap"]}
{"id": "C54", "title": "Hybrid profiles keep hot inline stacks and outline cold ones", "statement": "Building a hybrid profile with a threshold keeps an inlined call inside its caller exactly when its total exceeds the threshold and moves every other inlined call, with everything hot inlined into it, to the function of the callee. Each place in the result holds the sums of the totals, entry counts, instruction counts, location counts and call targets of what went there, and nothing else exists; a call site that was moved out leaves a call with the entry count of the callee. The counters report the number of call sites and of those moved out.", "quantifier": "every profile and every threshold", "why_tests_cant": "quantifies over all inline trees of any depth and all thresholds", "anchors": ["symbol_map.cc:SymbolMap::BuildHybridProfile", "symbol_map.cc:Symbol::PopulateSymbolRetainingHotInlineStacks"]}
{"id": "C56", "title": "LLVM profiles: conversion, merging and the round trip", "statement": "Reading LLVM sample profiles never fails and accounts for everything: location counts, entry counts and the numbers of profiles in which a location occurs are added up per function and inline stack; totals are the sums of the counts at and below. Writing a profile and reading it back gives exactly the functions whose total exceeds the threshold, with the same location counts, call targets and entry counts, for every order in which the functions are read; it does not abort as long as counts fit 64 bits and lines fit 16 bits.", "quantifier": "every profile, every threshold, every number of profiles read in any order", "why_tests_cant": "quantifies over all inline trees, all counts and all orders", "anchors": ["llvm_profile_reader.cc:LLVMProfileReader::ReadFromFunctionSamples", "llvm_profile_writer.cc:LLVMProfileBuilder::Visit", "llvm_profile_writer.cc:LLVMProfileBuilder::VisitTopSymbol", "llvm_profile_writer.cc:LLVMProfileBuilder::VisitCallsite", "profile_merger.cc:main"]}
{"id": "C57", "title": "Special symbols when merging", "statement": "When profiles are merged with special symbols, how a function is treated depends on its own name and its own occurrences only: functions to be stripped are absent; functions to be kept if they occur once are read in full if they do, and otherwise end with no total and no entry count; functions to be kept as cold get the fixed total 11 and nothing else; all other functions are merged as usual.", "quantifier": "every sequence of profiles, every list of special name prefixes", "why_tests_cant": "quantifies over all histories of profiles read", "anchors": ["llvm_profile_reader.cc:LLVMProfileReader::shouldMergeProfileForSym", "symbol_map.cc:SymbolMap::RemoveSymbol", "llvm_profile_reader.h:SpecialSyms"]}
{"id": "C55", "title": "Limiting the inline nesting level", "statement": "Merging with a positive limit on the inline nesting level ends for every profile, and no inline stack of the result has that many inlined calls or more. No function is lost, every inline stack of the result is the inner part of an inline stack of the input; the instructions attributed to each source location of each function, added over all inline instances, stay the same, and the counts and call-target counts added over all inline instances do not decrease. A profile within the limit is not changed. If totals add up before (counts of the locations plus totals of inlined calls) and no function is inlined into itself, they add up afterwards.", "quantifier": "every profile, every limit", "why_tests_cant": "quantifies over all inline trees, including recursive ones, while functions are merged into the map being traversed", "anchors": ["symbol_map.cc:SymbolMap::FlattenNestedInlineCallsites", "symbol_map.cc:SymbolMap::FlattenNestedInlineCallsitesImpl", "profile_merger.cc:main"]}
{"id": "C58", "title": "Line number programs", "statement": "For every well-formed line number section of DWARF versions 2 to 4 (both offset sizes, both byte orders, address sizes 4 and 8), whatever the LEB128 padding and the mix of special, standard and extended opcodes, the reader reports exactly the include directories and files of each header in order and exactly the rows that the DWARF state machine appends (address modulo 2^64; line, file, column and discriminator modulo 2^32), each with its end-of-sequence mark, and consumes exactly the unit. For version 5, the same for the directory and file tables written with any entry format of path and directory index in the string and number forms the code supports.", "quantifier": "every line number program and header, every encoding of it, every sequence of units", "why_tests_cant": "quantifies over all programs for a state machine with 13 standard opcodes, 4 extended ones, all special opcodes and all parameter choices", "anchors": ["util/symbolize/dwarf2reader.cc:LineInfo::Start", "util/symbolize/dwarf2reader.cc:LineInfo::ReadHeader", "util/symbolize/dwarf2reader.cc:LineInfo::ProcessOneOpcode", "util/symbolize/dwarf2reader.cc:LineInfo::ReadLines"]}
{"id": "C59", "title": "Source line of an address", "statement": "For every .debug_line section (before DWARF 5) whose sequences of live code do not overlap, the source line found for an address (directory, file, line, discriminator) is the one of the row of the line table that covers it: the last row at or below the address in the sequence that contains the address. Nothing is found outside all sequences or where the row has line 0, and the only covered addresses without a line are those at the start of a sequence (up to its second address) at which a sequence read later ends. Sequences of deleted code do not disturb.", "quantifier": "every set of line table units, every address", "why_tests_cant": "quantifies over all line tables, orders of sequences and addresses", "anchors": ["util/symbolize/functioninfo.cc:CULineInfoHandler::AddLine", "util/symbolize/functioninfo.cc:CULineInfoHandler::ShouldAddAddress", "util/symbolize/functioninfo.h:AddressToLineMap", "legacy_addr2line.cc:Google3Addr2line::GetInlineStack", "legacy_addr2line.cc:Google3Addr2line::Prepare"]}
{"id": "C60", "title": "Choosing among contradictory debug information", "statement": "Of the functions described in the debug information, those used for lookups never share an address: for every input, no address belongs to two kept non-inlined functions, and every kept nested subprogram lies within its kept parent. Debug information without contradictions is kept whole. For functions of one address range each, exactly those are dropped that start below the first load segment, contain the start of another loaded function, share their start with a longer function or with an equal one read earlier, or are nested in (or stick out of) one of these.", "quantifier": "every list of subprograms in every order, with any ranges", "why_tests_cant": "quantifies over all sets of conflicting ranges and all orders of reading", "anchors": ["util/symbolize/addr2line_inlinestack.cc:FindBadSubprograms", "util/symbolize/addr2line_inlinestack.cc:SubprogramContains"]}
{"id": "C61", "title": "Inline stack of an address", "statement": "For debug information in which inlined calls are nested and calls with the same caller do not overlap, the inline stack of an address with a source line has exactly one frame for each kept subprogram that covers the address, from the innermost one outwards to the function; the innermost frame is at the line of the line table and each other frame where the next inner subprogram was called; each frame is named after the description its subprogram refers to (specifications, abstract origins), has the start line of that function, and its directory is relative to the compilation directory. Range lists are sorted and merged without changing the addresses they cover.", "quantifier": "every debug information with acyclic references, every address", "why_tests_cant": "quantifies over all trees of inlined calls, range lists and reference chains", "anchors": ["legacy_addr2line.cc:Google3Addr2line::GetInlineStack", "util/symbolize/addr2line_inlinestack.cc:PopulateSubprogramsByAddress", "util/symbolize/addr2line_inlinestack.cc:GetSubprogramForAddress", "util/symbolize/addr2line_inlinestack.cc:GetDeclaration", "util/symbolize/addr2line_inlinestack.cc:GetAbstractOrigin", "util/symbolize/addr2line_inlinestack.cc:SortAndMerge"]}
{"id": "C62", "title": "Decoding of .debug_info", "statement": "For a well-formed section of DWARF 2-5 debugging information, 32- or 64-bit, either byte order, any LEB128 padding: reading all units reports to the handler exactly the units of the section in order and, of each, exactly the entries of its tree in document order (start, the attributes of wanted entries in the order of the abbreviation with their decoded values, end after all children); entries the handler does not want are skipped with the right length, so that later entries are unaffected.", "quantifier": "every handler whose interest depends on the tag, every list of units, every abbreviation table, every tree of entries, every encoding of each attribute", "why_tests_cant": "quantifies over all trees, abbreviation tables and encodings; one wrong length shifts everything after it", "anchors": ["util/symbolize/dwarf2reader.cc:CompilationUnit::ReadAbbrevs", "util/symbolize/dwarf2reader.cc:CompilationUnit::SkipAttribute", "util/symbolize/dwarf2reader.cc:CompilationUnit::ProcessAttribute", "util/symbolize/dwarf2reader.cc:CompilationUnit::ProcessDIEs", "util/symbolize/dwarf2reader.cc:CompilationUnit::ReadHeader", "util/symbolize/dwarf2reader.cc:CompilationUnit::Start"]}
{"id": "C63", "title": "Subprograms and inlined calls in .debug_info", "statement": "For a section of compile units with a compilation directory, whose subprograms and inlined calls use the supported forms (references relative to the unit or the section, call lines of 1, 2 or 4 bytes or constants in the abbreviation, range lists by offset): after reading the section, the symbolizer knows exactly the described subprograms and calls of program code, each with its name (linkage name first), merged address ranges, call file, line and discriminator, declaration line, references to its abstract origin and specification, and compilation directory; an inlined call has as parent the subprogram that encloses it, which comes later in the order; and all of them can be found by their offsets. With the line tables of the units, the inline stack of every address is the chain of subprograms that cover it.", "quantifier": "every list of units, every tree of entries and nesting depth, every order of attributes, every set of sampled functions, every address", "why_tests_cant": "quantifies over all trees of entries and all address ranges; state of the handler is carried from entry to entry and unit to unit", "anchors": ["util/symbolize/addr2line_inlinestack.cc:InlineStackHandler::StartCompilationUnit", "util/symbolize/addr2line_inlinestack.cc:InlineStackHandler::StartDIE", "util/symbolize/addr2line_inlinestack.cc:InlineStackHandler::EndDIE", "util/symbolize/addr2line_inlinestack.cc:InlineStackHandler::ProcessAttributeString", "util/symbolize/addr2line_inlinestack.cc:InlineStackHandler::ProcessAttributeUnsigned", "util/symbolize/addr2line_inlinestack.cc:InlineStackHandler::ProcessAttributeSigned"]}
{"id": "C64", "title": "Range lists by offset and by number", "statement": "For a .debug_rnglists section made of well-formed tables with at least one list each (32- or 64-bit, either byte order): all tables are read with their offsets; a list given by its number is the one at the offset that the table with the unit's base has for the number; a list given by an offset in the section is the one at the offset; before DWARF 5 the list is the one at the offset in .debug_ranges. The ranges are those the list encodes.", "quantifier": "every list of tables, every array of offsets, every range list and encoding of it, every number and base", "why_tests_cant": "quantifies over all sections and all lists; a wrong header size shifts every later table", "anchors": ["util/symbolize/dwarf3ranges.cc:AddressRangeList::ReadDwarfRngListsHeader", "util/symbolize/dwarf3ranges.cc:AddressRangeList::GetRngListsElementOffsetByIndex", "util/symbolize/dwarf3ranges.cc:AddressRangeList::ReadDwarfRngListwithOffsetArray", "util/symbolize/dwarf3ranges.cc:AddressRangeList::ReadRangeList"]}
{"id": "C65", "title": "From the sections of a binary to inline stacks", "statement": "For a binary whose debug sections are well-formed and tidy, Addr2line::Create succeeds, and GetInlineStack of an address is empty if no row of the line tables covers the address; a single frame without a function if no subprogram covers it; and otherwise one frame for each subprogram or inlined call that covers it, from the inside out. The line tables are the ones in .debug_line at the offsets the units give, the range lists the ones in .debug_ranges or .debug_rnglists. Without .debug_info, every unit of .debug_line is read and the stack is the source line alone.", "quantifier": "every binary with well-formed sections, every address", "why_tests_cant": "quantifies over all section contents and all addresses, through five readers that pass positions to each other", "anchors": ["legacy_addr2line.cc:Google3Addr2line::Prepare", "legacy_addr2line.cc:Google3Addr2line::GetInlineStack", "util/symbolize/addr2line_inlinestack.cc:InlineStackHandler::ProcessAttributeUnsigned"]}
{"id": "C66", "title": "Sections and segments of an ELF file", "statement": "For every well-formed 32- or 64-bit little-endian ELF file (also one with more than 65279 sections), ElfReader gives for a section name exactly the bytes (and the header fields) of the first section with that name, or with the old name of its compressed form, in the file (the last one in a .dwp file), and null if no section has the name; the segments in the order of the program header table; the address of the first load segment; whether the file is a shared object; and whether it has debugging sections or a symbol table. A file that is not such an ELF file, is missing, deleted or part of the kernel has none.", "quantifier": "every ELF file, every path, every name", "why_tests_cant": "quantifies over all files: numbers of sections and segments, offsets, names and contents", "anchors": ["util/symbolize/elf_reader.cc:ElfReaderImpl::ParseHeaders", "util/symbolize/elf_reader.cc:ElfReaderImpl::GetSectionContentsByName", "util/symbolize/elf_reader.cc:ElfReaderImpl::GetSegmentInfo", "util/symbolize/elf_reader.cc:ElfReaderImpl::VaddrOfFirstLoadSegment", "util/symbolize/elf_reader.cc:IsNonStrippedELFBinaryHelper"]}
{"id": "C67", "title": "Symbol map of a binary", "statement": "For every ELF file, VisitSymbols calls AddSymbol for exactly the named symbols of the symbol table and the dynamic symbol table that pass the filter, in order, with their name, address (lowest bit cleared for ARM functions), size, binding, type and section. The symbol map built from them has exactly one entry per address of a function (or split-off part of one) of known size that is not a PLT entry, with the name and size of the first one; the other names at the address are its aliases. If functions do not overlap, the function found for an address is the one whose code contains it.", "quantifier": "every ELF file with symbol tables of any size, every address", "why_tests_cant": "quantifies over all symbol tables, names and addresses", "anchors": ["util/symbolize/elf_reader.cc:ElfReaderImpl::VisitSymbols", "symbol_map.cc:SymbolMap::BuildSymbolMap", "symbol_map.cc:SymbolReader::AddSymbol", "symbol_map.h:SymbolMap::BuildNameAddressMap"]}
{"id": "C68", "title": "Executable segments and build id of a binary", "statement": "For every ELF file, the segments used for translating addresses are exactly its executable load segments with their file offsets (in a kernel relative to the first one) and addresses, or the .text section of a kernel module without segments; if their offsets increase, nothing fails, and for an offset within a segment the static address is the segment's plus the difference, and back. The build id is the hexadecimal description of the file's GNU build-id note if there is exactly one of at most 20 bytes.", "quantifier": "every ELF file, every list of segments, every offset, every list of notes", "why_tests_cant": "quantifies over all program header tables, offsets and note sections", "anchors": ["symbol_map.cc:SymbolMap::ReadLoadableExecSegmentInfo", "symbol_map.h:SymbolMap::add_loadable_exec_segment", "util/symbolize/elf_reader.cc:ElfReader::GetBuildId"]}
{"id": "C69", "title": "Functions with several names", "statement": "For every binary with a well-formed symbol table in which no name stands for two functions, every set of samples, every order in which the functions are visited and every configuration, the names in the profile are exactly the names (of all symbols at the address) of the functions whose samples exceed the threshold; all names of one function stand for one and the same profile, which is the one the function has without aliases; different functions have different profiles; and no sample is counted twice: the totals of the distinct profiles add up to the samples of the functions written, also after the elision of suffixes.", "quantifier": "every binary, every set of aliases, every set of samples, every order of the hash map, every policy", "why_tests_cant": "quantifies over all alias relations, samples and hash map orders; the sharing of profiles is through pointers", "anchors": ["symbol_map.cc:SymbolMap::AddSymbol", "symbol_map.cc:SymbolMap::ElideSuffixesAndMerge", "symbol_map.h:SymbolMap::AddAlias", "profile.cc:Profile::ComputeProfile"]}
{"id": "C70", "title": "From a binary and a sample file to a profile", "statement": "For every ELF file with symbol tables and debugging information whose functions do not overlap, every text sample profile of samples in its code, every configuration and every hash map order, creating the profile succeeds; the names in the profile (before suffixes are elided) are the names of the functions whose samples exceed the threshold computed from the total count, and each has the samples that the ranges of the file give the instructions of the function, attributed to the inline stack that the debugging information of the file describes for each instruction. A sample file that does not parse makes it return false.", "quantifier": "every file, every debugging information it contains, every sample profile, every configuration, every hash map order", "why_tests_cant": "quantifies over all binaries and profiles, composing the ELF reader, the DWARF readers, address translation, the symbol map and the aggregation", "anchors": ["profile_creator.cc:ProfileCreator::CreateProfile", "profile_creator.cc:ProfileCreator::ReadSample", "profile_creator.cc:ProfileCreator::ComputeProfile", "profile.cc:Profile::ComputeProfile"]}
{"id": "C71", "title": "Working sets of a profile", "statement": "For every set of recorded symbols (before suffixes are elided) the 128 working-set buckets say, for bucket i, the greatest number of instructions, taken from the hottest on, whose samples together do not exceed i+1 129ths of all samples, and the count of the next instruction; buckets are monotone; without samples they are zero. Merging profiles adds the least counts and keeps the number of instructions between those of the inputs.", "quantifier": "every set of symbols with any nesting of inlined calls, every sequence of merged working sets", "why_tests_cant": "quantifies over all multisets of instruction counts; the bucket loop crosses several buckets per instruction and several instructions per bucket", "anchors": ["symbol_map.cc:SymbolMap::ComputeWorkingSets", "symbol_map.cc:SymbolMap::AddSymbolProfileToHistogram", "symbol_map.h:SymbolMap::UpdateWorkingSet"]}
{"id": "C72", "title": "List of cold symbols", "statement": "For every profile, every symbol table and every size ratio up to 1: the names of the profile are those of its functions with samples, of the functions inlined in them at any depth and of all call targets; the list has the base names of exactly the functions not in the profile whose size is at least the cutoff size, where the cutoff is the size at which the functions, biggest first, reach the ratio of the total size (and is empty if one function alone exceeds it); if no suffix is elided, no name of the list is in the profile; with ratio 1 every function with code is in one of the two.", "quantifier": "every profile, every symbol table, every ratio, every suffix policy", "why_tests_cant": "quantifies over all profiles with any nesting and all sets of function sizes", "anchors": ["symbol_map.cc:SymbolMap::collectNamesInProfile", "symbol_map.cc:SymbolMap::collectNamesForProfSymList", "profile_symbol_list.cc:fillProfileSymbolList"]}
{"id": "C73", "title": "Comparing two profiles", "statement": "For every two profiles and every cutoff the comparison lists no function twice, each with the counts it has in both profiles; the functions listed are those that have samples and at least the cutoff percentage of the hottest function's in the first profile, and those of the second profile that are not in the first with at least the cutoff; each of the two parts is ordered from the hottest function on. With a positive cutoff and samples in the first profile these are the functions hot in one of the two.", "quantifier": "every two profiles, every cutoff", "why_tests_cant": "quantifies over all pairs of profiles, with ties between counts", "anchors": ["symbol_map.cc:SymbolMap::DumpFuncLevelProfileCompare", "profile_diff.cc:main"]}
{"id": "C74", "title": "From samples to the cluster file", "statement": "For every binary whose functions and blocks are in address order, every set of branch and fall-through counts (in particular those of every set of sample files) and every order in which the hash maps are visited: computing the layout profile fails no internal check. It is refused exactly when too much of the weight goes to branches into the middle of blocks, or too few pairs of blocks come from the branches. Otherwise the profile has exactly the sections of the functions with a touched block; each section lays out, once, exactly the touched blocks of its functions, the entry blocks (unless functions are laid out together) and the landing pads of functions with a touched landing pad; the scores are those of the old and of the new addresses; without inter-function layout each function is one cluster that starts with its entry block. The cluster file can be read back and says exactly this.", "quantifier": "every binary, all counts, every configuration, every order of the hash maps", "why_tests_cant": "quantifies over all control flow graphs, all counts, all options and all orders of iteration", "anchors": ["llvm_propeller_profile_computer.cc:PropellerProfileComputer::ComputeProfile", "llvm_propeller_program_cfg_builder.cc:ProgramCfgBuilder::Build", "llvm_propeller_code_layout.cc:GenerateLayoutBySection", "llvm_propeller_program_cfg.cc:ProgramCfg::GetCfgsBySectionName"]}
{"id": "C75", "title": "Profiles of prefetch hints", "statement": "For every program file and every file of prefetch hints (lines address,delta,type with a type of at most four visible characters): the profile is created. It has exactly the functions with hints, under all their names. Each hint for an instruction with debug information is, at the place of the instruction in the source and under its inline stack, the call target __prefetch_<type>_<number> with the delta (recoverable with its sign) as count, the number being that of the hint among those for the same instruction; unless a later hint of the same name takes its place. No hint is lost if there are at most 256 hints for an instruction, no type contains a dot, and no two instructions with hints have the same place. There are no other call targets, locations, counts or entry counts; a function has one sample, and is written, exactly if its first hint has debug information. What follows a line that is no hint is ignored.", "quantifier": "every program file, every list of hints, every suffix elision policy", "why_tests_cant": "quantifies over all binaries, all hint files and all numbers of hints for one instruction", "anchors": ["profile_creator.cc:ReadPrefetchHints", "profile_creator.cc:ProfileCreator::ConvertPrefetchHints", "symbol_map.cc:SymbolMap::EnsureEntryInFuncForSymbol", "symbol_map.cc:SymbolMap::AddIndirectCallTarget"]}
{"id": "C76", "title": "Merging AFDO profiles", "statement": "For every list of AFDO files written by the tools (of any versions, with names that are written unchanged) that are together not too large, every threshold fraction and every version flag: profile_merger succeeds. Its output, read back, has exactly the functions whose samples in all inputs together exceed both 10 and the fraction of all samples; each has, as entry count, in every inline instance and at every location, the sum of the counts of the inputs, and the inline instances that are in some input; an indirect-call target has the count of the last input that has it, a function the timestamp of the last input that has it (0 if that file is older than version 3), and the least counts of the working set add up. The output has the version of the last input. The summary has the total and the number of the functions written. The order of the inputs does not matter for functions, counts and inline instances. If an input cannot be opened nothing is written.", "quantifier": "every list of input files, every fraction, every flag", "why_tests_cant": "quantifies over all numbers and contents of input files and all their orders", "anchors": ["profile_merger.cc:main", "profile_reader.cc:AutoFDOProfileReader::ReadFromFile", "profile_writer.cc:AutoFDOProfileWriter::WriteToFile", "symbol_map.cc:SymbolMap::CalculateThreshold", "symbol_map.h:SymbolMap::UpdateWorkingSet"]}
{"id": "C77", "title": "Merging LLVM profiles", "statement": "For every list of LLVM sample profiles whose line numbers have 16 bits and all values of the flags: profile_merger --is_llvm reports an error exactly for an unknown format or an option of the extensible format used with another one; it aborts if an input cannot be read or a counter to be written does not fit 64 bits; otherwise it writes a profile. Without limits and special symbols the profile has exactly the functions whose totals, added over all inputs, exceed both 10 and the given fraction of all totals, each with the sums of its counts. With limits, every function written does not match the pattern of names to strip, has fewer levels of inlining than the limit, no more inlined callees at a location and no more targets at a location than the limits, and a total above the threshold computed from the profiles as they were read.", "quantifier": "all lists of input profiles (any number of functions, any nesting of inlined calls), all flags", "why_tests_cant": "The result depends on the interplay of special symbols, flattening, stripping, two limits and the threshold over unboundedly many inputs and inline trees; tests see a few merges.", "anchors": ["profile_merger.cc: main, verifyProperFlags", "llvm_profile_reader.cc: ReadFromFile, shouldMergeProfileForSym", "symbol_map.cc: FlattenNestedInlineCallsites, RemoveSymsMatchingRegex, throttleInlineInstancesAtSameLocation, TrimCallTargets", "llvm_profile_writer.cc: ConvertProfiles"]}
{"id": "C78", "title": "Samples of the profiled binary", "statement": "For every perf file and all options: reading the file records exactly the samples (addresses, branches, ranges between branches, first sample times) whose location is in the profiled binary. If a build id is given, the binary is every file of the recording with this build id (all kernel names if it is a kernel), otherwise a file with the given base name; a location in any other file contributes nothing. If no file of the recording has the build id, nothing is recorded. The same holds for several files, appended to one reader or merged each with its own reader.", "quantifier": "all perf recordings (any number of events, files, branch stack entries), all build ids and binary names, all sequences of files", "why_tests_cant": "Decisions are cached by the address of objects of the parser; whether a stale decision is used depends on the allocation history over unboundedly many files.", "anchors": ["sample_reader.cc: PerfDataSampleReader::Append, MatchBinary, GetFileNameFromBuildID", "profile_creator.cc: ReadSample, MergeSample"]}
{"id": "C79", "title": "Time stamps of functions", "statement": "For every binary and all samples: the time stamp of a function in the profile is the time of the earliest sample in the function, and 0 if it has no sample; eliding suffixes keeps the earliest stamp.", "quantifier": "all symbol tables without overlaps, all maps of sampled addresses and times, all suffix policies", "why_tests_cant": "Which sample wins depends on the relative order of addresses and times over all samples of the function.", "anchors": ["profile.cc: AggregatePerFunctionProfile, ProcessPerFunctionProfile", "symbol_map.cc: AddSymbolTimestamp, ElideSuffixesAndMerge"]}
{"id": "C80", "title": "The simple reader of Arm SPE recordings", "statement": "For every perf file with SPE data of aligned instructions: reading fails exactly if no mapping of a file with the base name of the binary is recorded or no retired branch lies in it; otherwise the reader holds, for each offset of the binary, the number of retired conditional branches not taken, for each pair of offsets the number of taken branches, and the ranges synthesised from them. Appending adds these counts; a file that cannot be read changes nothing. The total count is the number of covered bytes, weighted with the counts, as for the other readers, and all mappings of the binary count.", "quantifier": "all event sequences and SPE records, all mappings, all binaries", "why_tests_cant": "The counts must be exact for every interleaving of mappings, buffers and records.", "anchors": ["simple_spe_sample_reader.cc: FindBinaryMMap, Read, Append, SynthesizeRanges"]}
{"id": "C81", "title": "Units in packages of split debug information", "statement": "For every .dwp package whose index was built by the rules of the format (2^k slots, double hashing, any order of insertion, at least one free slot), in both supported versions and both byte orders: looking up the id of a unit ends and yields exactly that unit's contributions to .debug_info, .debug_abbrev and .debug_str_offsets; an id that is not in the package is reported as missing. In a package of another version nothing is found.", "quantifier": "all packages: any number of slots below 2^32, any set of units and collisions, any columns and rows, all ids", "why_tests_cant": "Termination and exactness of the lookup depend on the probing sequence visiting all slots, for every set of collisions and every table size.", "anchors": ["util/symbolize/dwarf2reader.cc: DwpReader::Initialize, ReadDebugSectionsForCU, LookupCU, LookupCUv2"]}
{"id": "C82", "title": "Function names attached to the basic block address map", "statement": "For every symbol table and basic block address map, a function of the map carries exactly the names of the function symbols with an address other than zero, a readable name and a non-zero size at its address whose size equals that of the first such symbol, in symbol table order; no name if there is no such symbol. Its section is that of the first symbol, where every \".text\" and \".text.*\" section counts as \".text\". A binary without map is refused, and every selected function has at least one name.", "quantifier": "all symbol tables (any order, duplicates, errors, sizes) and all basic block address maps", "why_tests_cant": "The aliases depend on the order and the sizes of all the symbols at an address; tests use a few binaries.", "anchors": ["llvm_propeller_binary_address_mapper.cc: ReadSymbolTable, GetSymbolInfoMap, ReadBbAddrMap, BuildBinaryAddressMapper"]}
{"id": "C83", "title": "The sampled functions of a binary", "statement": "For every sample and every binary whose functions do not overlap and whose segments are in the same order in the file and in memory: the map of sampled functions has, each with its size, exactly the functions with a positive count and those that are the last to begin at or before a sampled address. In particular no function with a sampled address is missing, and if all sampled addresses lie in functions there is no other one. The sampled addresses are the begins of the ranges, or the plain addresses if there is no range.", "quantifier": "all symbol tables without overlaps, all samples with addresses in loaded segments, all profiles", "why_tests_cant": "The loop skips addresses below the end of the previous function; that nothing is lost depends on the order of all the addresses and the layout of all the functions.", "anchors": ["symbol_map.cc: SymbolMap::GetSampledSymbolStartAddressSizeMap", "sample_reader.cc: SampleReader::GetSampledAddresses"]}
{"id": "C84", "title": "Validation of a profile", "statement": "For every profile, validation succeeds only if there are at least ten names, the total counts sum up to a million (modulo 2^64), some location of a function with samples (inlined code included) has a call target, and some function with samples has inlined code. If this holds, it succeeds when at least 60.0001 percent of the locations of the functions with samples have a known offset, and it fails for every profile in which less than 59.9999 percent have.", "quantifier": "all profiles, any number and nesting of functions", "why_tests_cant": "The counts run over an unbounded nesting of inlined functions with an explicit stack, and the last test is in single precision; only a proof bounds its error for all sizes.", "anchors": ["symbol_map.cc: SymbolMap::Validate"]}
{"id": "C85", "title": "Entry count of a function", "statement": "For every function profile, the entry count is the count at the lowest position before line 10000: the count of the function's own samples if it has any there, otherwise the entry count of a function inlined there; 0 if there is no such position. If no two functions are inlined at one position, this determines it.", "quantifier": "all function profiles, any nesting, any order of the hash maps", "why_tests_cant": "The result must not depend on the iteration order of the hash map, at any depth of inlining.", "anchors": ["symbol_map.cc: Symbol::EntryCount"]}
{"id": "C86", "title": "Reading Arm SPE recordings", "statement": "For every binary and recording, reading with the Arm SPE reader either fails and leaves the sample unchanged, exactly if the binary is not for AArch64, the file is unreadable or no mapping of the binary is selected, or it adds to the sample, for every pair of file offsets, the number of retired taken branch records of the binary's processes between them, and the weights of the straight-line ranges executed: ranges of whole instructions, with no branch before the last one, that are disjoint, begin at a branch target or after a branch and whose weight is the branches into them and what falls through from the range before. With branch identification by sampling, the branches are the addresses with branch records.", "quantifier": "all binaries, recordings, branch identification strategies and previous samples", "why_tests_cant": "The counts are sums over unboundedly many records, composed through four stages that each reindex by address; a lost or doubled record in any stage shows only for certain combinations of records.", "anchors": ["spe_sample_reader.cc: PerfSpeDataSampleReader::Append", "spe_sample_reader.cc: ConvertBranchFrequenciesToAutofdoBranchSample", "spe_sample_reader.cc: SamplingBasedBranchIdentifier"]}
{"id": "C87", "title": "What propeller reads from a binary", "statement": "For every byte string, parsing a .modinfo section succeeds exactly if it is a nonempty sequence of entries key=value, each followed by at least one zero byte, with nonempty keys; the result has each key once with the value of its first entry. For every ELF file with a readable section table, reading it succeeds exactly if it is not relocatable and has a loadable executable segment (the result has exactly these, in order), or is a .ko with a this_module section, a well-formed .modinfo and an executable .text (the result has these). The build id is that of the first note of the owner GNU in the sections .note.gnu.build-id and .notes, and distinct ids give distinct strings.", "quantifier": "all byte strings, all ELF files", "why_tests_cant": "The parser runs three nested pointer loops over arbitrary bytes; that it accepts exactly the well-formed sections and never reads past the end or mixes keys and values is a statement about all byte strings.", "anchors": ["llvm_propeller_binary_content.cc: ELFFileUtilBase::ParseModInfoSectionContent", "llvm_propeller_binary_content.cc: GetBinaryContent", "llvm_propeller_binary_content.cc: ELFFileUtil::GetBuildId", "llvm_propeller_binary_content.cc: FindRelocatableTextSectionToFillSegment"]}
{"id": "C88", "title": "Control flow graphs with cloned blocks", "statement": "After any sequence of construction, cloning of paths, creation, update and reduction of edges and copying, a control flow graph is consistent: blocks first and in order, clones numbered from one, lookup by id returns exactly the node with that id, every edge in exactly the lists of its two ends, at most one edge between two nodes. Creating or updating an edge adds its weight to exactly that pair and kind; reducing returns what was taken away. A copy always succeeds and has the same nodes, clones and edges. The frequency of a node is the maximum of the heaviest call, the heaviest return and the sums of the other edges, and a block is a hot join node exactly if it, or a clone, is hot and has hot branches from two other nodes.", "quantifier": "all histories of operations, all graphs of any size", "why_tests_cant": "The tables of clones and the edge lists of the nodes are kept in step by separate updates; that they agree after every history of operations needs an invariant.", "anchors": ["llvm_propeller_cfg.h: ControlFlowGraph::ClonePath", "llvm_propeller_cfg.h: ControlFlowGraph::GetNodeById", "llvm_propeller_cfg.cc: ControlFlowGraph::CreateOrUpdateEdge", "llvm_propeller_cfg.cc: ControlFlowGraph::GetHotJoinNodes", "llvm_propeller_cfg.cc: CloneCfg", "llvm_propeller_cfg.cc: CFGNode::CalculateFrequency"]}
{"id": "C89", "title": "Command line of the propeller tool", "statement": "The command is refused for exactly the documented usage errors; an accepted one writes the file asked for with the options given. The input files are the names between semicolons, or the non-empty, non-comment lines of a list file, in order. Recordings are read as the kind asked for, mixed or unknown kinds are refused. Mappings are selected by the name of the profiled binary if given, else by the name of the binary if build ids are to be ignored, else by build id.", "quantifier": "all command lines, list files and option records", "why_tests_cant": "The combinations of flags and the contents of list files are unbounded; tests pick a few.", "anchors": ["create_llvm_prof.cc: main", "create_llvm_prof.cc: CreatePropellerOptionsFromFlags", "llvm_propeller_profile_generator.cc: GetProfileType", "llvm_propeller_profile_generator.cc: GeneratePropellerProfiles", "llvm_propeller_profile_computer.cc: PropellerProfileComputer::Create", "llvm_propeller_perf_branch_frequencies_aggregator.cc: ResolveMmapName"]}
{"id": "C90", "title": "Collecting a profile over several recordings", "statement": "Collecting LBR or SPE data from the recordings of a provider fails with the provider's error if it reports one, and otherwise exactly if the binary is mapped in no recording that can be read (for LBR also if there is no disassembler). A recording that cannot be used has no influence. Every counter is the number of its occurrences in all usable recordings together; the statistics count the usable recordings, their mapped processes and the branch entries, and every entry with a source in the binary is put, by the instruction decoded at the source, in exactly one of three classes, sources counted once in the absolute numbers.", "quantifier": "all providers, recordings, binaries and instruction decoders; totals below 2^31 for the number of entries", "why_tests_cant": "The number of recordings and branches is unbounded, and the totals go through maps keyed by address.", "anchors": ["llvm_propeller_perf_lbr_aggregator.cc: PerfLbrAggregator::AggregateLbrData", "llvm_propeller_perf_lbr_aggregator.cc: PerfLbrAggregator::CheckLbrAddress", "llvm_propeller_perf_branch_frequencies_aggregator.cc: PerfBranchFrequenciesAggregator::AggregateBranchFrequencies", "mini_disassembler.cc: MiniDisassembler::DisassembleOne", "perfdata_reader.cc: BuildPerfDataReader"]}
{"id": "C91", "title": "The whole propeller command", "statement": "For a binary whose blocks are in order and whose names can be written, with a known encoding version and without verbose output or CFG dump, the propeller command (LBR or SPE recordings) never crashes. It fails, leaving every file as it was, exactly if the inputs are missing or of mixed types, the binary cannot be read, nothing can be collected from the recordings, there is no basic block address map, module names are asked for without debug information, or the branch counts look wrong. Otherwise it succeeds and the cluster file, read back, lists for each section the layout computed from the counts of all usable recordings together: only sampled functions, under their names, with every touched block listed once. No other file changes. An output that cannot be opened is not noticed, and an unknown encoding version crashes after the layout.", "quantifier": "all binaries, symbol tables, recordings, options and orders of the hash maps", "why_tests_cant": "The statement relates two files to unboundedly many recordings and branches through every stage, in every order of the hash maps.", "anchors": ["llvm_propeller_profile_generator.cc: GeneratePropellerProfiles", "llvm_propeller_profile_computer.cc: PropellerProfileComputer::ComputeProfile", "lbr_branch_aggregator.cc: LbrBranchAggregator", "frequencies_branch_aggregator.cc: FrequenciesBranchAggregator", "llvm_propeller_profile_writer.cc: PropellerProfileWriter::Write"]}
{"id": "C92", "title": "Control flow graphs written to a file and read back", "statement": "A file of control flow graphs can be read exactly if its functions are different, the blocks of each function are numbered by their ids, every edge ends in a block of the file and no block has two edges to the same block of its function; the graphs are then those of the file, edges to other functions marked as between sections exactly if the sections differ. Writing the graphs of a program fails exactly if a block is a clone. What is written can be read exactly if the id of every block is its index; names, sections, block sizes, landing pads, returns, tail calls and the edges within functions are then as before, with their weights, kinds and order per block. Not kept: addresses, modules, edges to other functions, indirect branches, and whether a block can fall through (read from the wrong field).", "quantifier": "all files and all programs, for every order of the hash map", "why_tests_cant": "Numbers of functions, blocks and edges are unbounded, and the reader checks pairs of edges.", "anchors": ["llvm_propeller_program_cfg_proto_builder.cc: ProgramCfgProtoBuilder::AddCfgs", "llvm_propeller_program_cfg_proto_builder.cc: ProgramCfgProtoBuilder::PopulateCFGNodePb", "llvm_propeller_mock_program_cfg_builder.cc: BuildFromCfgProto", "llvm_propeller_cfg.cc: ControlFlowGraph::CreateEdge", "llvm_propeller_cfg.h: ControlFlowGraph"]}
{"id": "C93", "title": "Inline stacks from LLVM debug information", "statement": "The default symbolizer adds to the stack, for an address of a unit with a line table, one frame for each function of the chain of inlined functions, innermost first, with the function's linkage name and first line. Line, discriminator and file of the innermost frame are those of the line table (line 0 and no file if it has no row), those of every other frame are where the next inner function was called. For other addresses nothing is added. Kernel modules are looked up in the first .text section if it has the address, all others without section. Directories are right before DWARF 5; from DWARF 5 on each is the one before it in the table. All this for debug information below 4 GiB. Module names need a compile unit and, without a package, no skeleton unit; the name is that of the unit of the address and an error exactly if there is none.", "quantifier": "all debug information and addresses", "why_tests_cant": "Depth of inlining, number of units and files are unbounded; version and size dependent faults do not show in small binaries.", "anchors": ["addr2line.cc: LLVMAddr2line::GetInlineStack", "addr2line.cc: LLVMAddr2line::Prepare", "addr2line.h: IsKernelModule", "addr2cu.cc: CreateDWARFContext", "addr2cu.cc: Addr2Cu::GetCompileUnitFileNameForCodeAddress"]}
{"id": "C94", "title": "The create_gcov command end to end", "statement": "create_gcov reads the samples of the chosen kind of profile (perf, SPE, text, hints) for the binary: with --focus_binary_re those of files whose names match, else those of files with the build id of the binary, else those of files of its name. For every binary of the modelled form and every profile of samples in its code the command ends with status 0 and writes a file which, read back, has exactly the functions whose samples exceed the threshold, with their counts, time stamps, summary and working sets; the status is -1 and nothing is written if the samples cannot be read or the profiler is unknown, and -1 if the file cannot be closed; the program stops if it cannot be opened.", "quantifier": "all flags, binaries, profiles of any kind and outcomes of opening and closing the output", "why_tests_cant": "The result depends on binary, debug information and samples together; the numbers of functions, inlined calls and samples are unbounded.", "anchors": ["create_gcov.cc: main", "profile_creator.cc: ProfileCreator::CreateProfile", "profile_creator.cc: ProfileCreator::ReadSample", "profile_creator.cc: ProfileCreator::CreateProfileFromSample", "profile_writer.cc: AutoFDOProfileWriter::WriteToFile"]}
{"id": "C95", "title": "The create_llvm_prof command end to end", "statement": "For every accepted command line with a format other than propeller, every binary of the modelled form, every debug information and every profile of samples in its code, create_llvm_prof hands to LLVM's writer, in the format asked for, exactly the functions whose samples exceed the threshold, each with the same inlined instances, counts, targets and entry count as the profile of the samples; discriminators are whole or cut to the base as the binary and the flags say, and the profile is marked accordingly; with --prof_sym_list the list holds functions of the binary that are not in the profile, all of them at ratio 1. The status is 0 exactly if writing succeeds, 1 for a usage error, -1 if the samples cannot be read, the binary is no object file or the output cannot be created. With --format=propeller the command is the one of C91.", "quantifier": "all flags, binaries, debug information, profiles of any kind, hash orders and outcomes of writing", "why_tests_cant": "The result depends on binary, debug information, flags and samples together; their sizes are unbounded and the order of a hash map is not fixed.", "anchors": ["create_llvm_prof.cc: main", "profile_creator.cc: ProfileCreator::CreateProfile", "profile_creator.cc: ProfileCreator::ReadSample", "llvm_profile_writer.cc: LLVMProfileWriter::WriteToFile", "llvm_profile_writer.cc: LLVMProfileBuilder::Write", "source_info.h: SourceInfo::Offset", "source_info.h: SourceInfo::DuplicationFactor", "symbol_map.cc: SymbolMap::BuildSymbolMap"]}
{"id": "C96", "title": "The sample_merger command end to end", "statement": "For every list of profiles of any kind (text, perf, SPE) and every text profile already in the output file: if all can be read, sample_merger exits with 0 and the output holds, for every range, address and branch, the sum of its counts in the old output and in all profiles (modulo 2^64) and nothing else, and reading it gives exactly this back. If the old output or one of the profiles cannot be read, or the output cannot be opened, the status is 1 and the output is unchanged. The order of the profiles does not matter, and merging in one run or in two gives the same. Profiles with an empty name are skipped; --profile is used only without --profiles.", "quantifier": "all flags, binaries, old outputs, lists of profiles and outcomes of opening the output", "why_tests_cant": "The profiles, their number and the history of earlier runs are unbounded.", "anchors": ["sample_merger.cc: main", "profile_creator.cc: MergeSample", "profile_creator.cc: ProfileCreator::ReadSample", "sample_reader.cc: TextSampleReaderWriter::Merge", "sample_reader.cc: TextSampleReaderWriter::Write", "sample_reader.cc: TextSampleReaderWriter::Append", "sample_reader.cc: TextSampleReaderWriter::IsFileExist"]}
{"id": "C97", "title": "Two-level line tables give the inline stack of every address", "statement": "For every list of units, each with a normal line table or a two-level one (logical rows with a context row and a subprogram, and actual rows), read into one address map: reading succeeds, and for every address the map gives the stack described by the last kept row at the greatest kept row address not above it: the position of its logical row with the subprogram of that unit, followed by the positions of its contexts, innermost first; and no stack if that row ends a sequence or there is none. Rows of one unit never refer to rows or subprograms of another one.", "quantifier": "all lists of units with any directories, files, subprograms, logical and actual rows, all sets of sampled functions, all addresses", "why_tests_cant": "The number of units, the depth of the inlining and the order of the rows are unbounded; renumbering across units only shows with several of them.", "anchors": ["util/symbolize/functioninfo.h: AddressToLineMap", "util/symbolize/functioninfo.cc: CULineInfoHandler::AddLogicalStack", "util/symbolize/functioninfo.cc: CULineInfoHandler::AddLine", "util/symbolize/functioninfo.cc: CULineInfoHandler::DefineSubprog", "util/symbolize/functioninfo.cc: CULineInfoHandler::StartActuals", "util/symbolize/functioninfo.cc: CULineInfoHandler::StartCU"]}
{"id": "C98", "title": "Two-level line tables from the bytes of .debug_line to the stack of an address", "statement": "For every .debug_line section made of well-formed two-level units (version 0xf006; any directories, files, subprograms, entry formats, logicals program and actuals program, however their numbers are encoded, in 32-bit or 64-bit DWARF, either byte order): reading it succeeds, each unit is consumed exactly, every row of its logicals and actuals tables is decoded as its program defines it (contexts of inlined calls, popped contexts, addresses taken from logical rows), and looking up an address gives the inline stack that the last row at the greatest row address not above it describes.", "quantifier": "all sections of well-formed two-level units, all encodings of them, all addresses", "why_tests_cant": "Programs, nesting of inlined calls, encodings and numbers of units are unbounded.", "anchors": ["util/symbolize/dwarf2reader.cc: LineInfo::ReadHeader", "util/symbolize/dwarf2reader.cc: LineInfo::ProcessOneOpcode", "util/symbolize/dwarf2reader.cc: LineInfo::ReadLines", "util/symbolize/dwarf2reader.cc: LineInfo::Start", "legacy_addr2line.cc: Google3Addr2line::Prepare", "util/symbolize/functioninfo.cc: CULineInfoHandler::AddLogicalStack"]}
{"id": "C99", "title": "What dump_gcov prints", "statement": "For every profile (names and file names without spaces, colons and newlines, lines of at most 16 bits), the listing dump_gcov prints can be read back line by line and says exactly what is in the profile: each function with samples, with its file, total count, entry count and time stamp, each call inlined into it at any depth, and each location with its count and call targets, and nothing else; functions are listed by decreasing total count, then by name, the locations of a function before the calls inlined into it, each in their order, call targets by decreasing count. Two profiles have the same listing exactly if they agree in all of this, whatever the order of hash tables. For a file written by this code, the listing says what is in the profile the file was written from.", "quantifier": "all profiles, all nestings of inlined calls, all iteration orders, all files the writer produces", "why_tests_cant": "Profiles, nesting depth, names and hash orders are unbounded.", "anchors": ["dump_gcov.cc: main", "symbol_map.cc: Symbol::Dump", "symbol_map.cc: Symbol::DumpBody", "symbol_map.cc: SymbolMap::Dump", "symbol_map.cc: PrintSourceLocation", "profile_reader.cc: AutoFDOProfileReader::ReadFromFile"]}
{"id": "C100", "title": "Source files of functions", "statement": "If functions of the same name are in the same source file, then in a profile of version 3 the file stored with the name of each function, and of each call inlined into one at any depth, is the file that the debug information gives for it (its directory joined with its file name; an absolute file name alone); each file is listed once, and a name that is only called has no file. The source of a function is the first one with a file name among the outermost frames of its samples, that of an inlined call is that of its first sample; merging keeps the source of a symbol that has a file name and otherwise takes the other one; a profile that is read has for every symbol the file stored for its name. dump_gcov prints these files.", "quantifier": "all samples and source stacks in any order, all nestings of inlined calls, all iteration orders of hash tables, all profiles", "why_tests_cant": "Stacks, nesting depth, names and hash orders are unbounded; which of several files is stored depends on the iteration order.", "anchors": ["profile_writer.h: FileIndexMap", "profile_writer.h: StringTableUpdater::Visit", "profile_writer.h: SymbolTraverser", "profile_writer.cc: AutoFDOProfileWriter::WriteFunctionProfile", "symbol_map.cc: SymbolMap::TraverseInlineStack", "symbol_map.cc: Symbol::Merge", "profile_reader.cc: AutoFDOProfileReader::ReadSymbolProfile"]}
{"id": "C101", "title": "Statistics of the program CFG", "statement": "For every binary and every branch profile, the CFG statistics propeller reports describe the graph it builds: the number of CFGs and of nodes are those of the selected functions and their blocks, the number of edges of each kind and in total are those of the graph, the total edge weight is the sum of the weights of its edges, the number of edges with the same ends but different types is the number of records that ask for another kind than the first one between the same blocks, and if it is 0 the weights by kind are those of the edges; the hot blocks are the blocks of nonzero frequency, the hot empty ones those of size 0 among them, the CFGs with hot landing pads the functions with such a block. The functions kept are those with a hot block. The order in which CFGs are visited does not matter.", "quantifier": "all binaries, selected functions, branch and fallthrough records in any order, all iteration orders of the CFGs", "why_tests_cant": "Programs and profiles are unbounded; the counters are updated at many places of a stateful construction.", "anchors": ["llvm_propeller_statistics.h: PropellerStats::CfgStats", "llvm_propeller_program_cfg_builder.cc: ProgramCfgBuilder::Build", "llvm_propeller_program_cfg_builder.cc: ProgramCfgBuilder::InternalCreateEdge", "llvm_propeller_cfg.cc: ControlFlowGraph::GetNodeFrequencyStats"]}
{"id": "C102", "title": "Scaling a profile", "statement": "Scaling a profile by a ratio keeps every function, inlined call, source position and call target, keeps the instruction counts, and replaces each sample count by the count times the ratio, rounded to the nearest integer: within half a unit and a relative error of 2^-51, exactly for whole ratios with results below 2^53 (in particular a ratio of 1 changes nothing below 2^53), and monotonically in the count and in the ratio, so that hotter code stays at least as hot. A function that has one name is scaled once and counts once in the total sum of the profile.", "quantifier": "all profiles (any nesting of inlined calls, any tables of names), all ratios that are not negative, all counts", "why_tests_cant": "Profiles, counts and ratios are unbounded, and floating-point rounding depends on every bit of them.", "anchors": ["symbol_map.cc: Symbol::UpdateWithRatio", "symbol_map.cc: SymbolMap::UpdateWithRatio", "symbol_map.cc: SymbolMap::GetTotalSum"]}
{"id": "C103", "title": "Discarding unused debug information", "statement": "When the reading of a unit of split debug information ends, the subprograms that are kept are exactly those marked as used and those they refer to, directly or through other subprograms, as specification or abstract origin; the search ends for any references, also circular ones, and fails exactly if a reference that is needed leads to no subprogram of the unit. The inline stack of every address is the one before discarding. While a unit is read, whatever its entries and attributes, every subprogram that can appear in an inline stack is marked as used.", "quantifier": "all units (any number of subprograms with any references between them), all sets of used subprograms, all line tables and addresses, all sequences of entries and attributes", "why_tests_cant": "Reference graphs are unbounded and can be circular; what is discarded must be unneeded for every address.", "anchors": ["util/symbolize/addr2line_inlinestack.cc: InlineStackHandler::CleanupUnusedSubprograms", "util/symbolize/addr2line_inlinestack.cc: InlineStackHandler::EndSplitCompilationUnit", "util/symbolize/addr2line_inlinestack.cc: InlineStackHandler::EndDIE"]}
{"id": "C104", "title": "Table of the positions of blocks", "statement": "For any functions with distinct indices (one or several, also empty ones), whatever sequence of settings and adjustments the layout applies to the entries of their blocks, it never reads or writes outside the table of positions, and the entry of each block is what the operations for that very block made it: an operation for one block never shows in the entry of another. The table has as many entries as there are blocks.", "quantifier": "all lists of functions with any numbers of blocks, all sequences of operations", "why_tests_cant": "The indices of the blocks of a function depend on the sizes of all functions before it; a collision or an overrun silently corrupts another block's position.", "anchors": ["llvm_propeller_node_chain.cc: GetBaseOrdinalByFunctionIndex", "llvm_propeller_node_chain.cc: NodeToBundleMapper::CreateNodeToBundleMapper", "llvm_propeller_node_chain.h: NodeToBundleMapper"]}
{"id": "C105", "title": "Where split debug information is read from", "statement": "For every disk and every binary: while the units of the binary are read in turn, at most one split unit is read for each, right after it: none if the unit names no split file or describes its functions itself; the one of the package next to the binary if that leads to sections for the identifier of the unit; otherwise the one of the named file if that is an ELF file. What is chosen for a unit does not depend on other units. A split unit contributes exactly if its identifier is the one expected. If the index of the package can be searched and the split files that exist have debug information, reading succeeds. Each unit is read with the range lists of its own file.", "quantifier": "all contents of the disk, all packages, all sequences of units of a binary", "why_tests_cant": "It depends on which files exist, on their contents and on all units read before; the tests have a fixed set of files.", "anchors": ["util/symbolize/dwarf2reader.cc: CompilationUnit::ProcessSplitDwarf", "util/symbolize/dwarf2reader.cc: CompilationUnit::Start", "legacy_addr2line.cc: Google3Addr2line::Prepare"]}
{"id": "C106", "title": "Numbers with thousands separators", "statement": "On a stream without a pending width that does not adjust to the left, every 64-bit number is written with a comma before each group of three digits and nothing else: without the commas it reads as that number, the first group has one to three digits and no leading zero, all others have three digits. Different numbers are written differently. The fill character and the width of the stream are what they were.", "quantifier": "all numbers, all streams without a pending width and not adjusting to the left", "why_tests_cant": "The number of groups and the zeros within them depend on all digits.", "anchors": ["llvm_propeller_formatting.cc: operator<<(std::ostream &, const CommaStyleNumberFormatter &)"]}
{"id": "C107", "title": "Status consumers see the calls in one order", "statement": "For any number of threads that use the registry of status consumers in any interleaving, the calls take effect one after another, in an order that agrees with the order of each thread. Each consumer gets exactly the messages of the Start and Stop calls completed after its registration, in that order, each once, and perhaps already that of the call in progress. As long as a call is pending, some thread can go on. A consumer whose last message is Start with a provider is never left with it after a Stop that came later has returned.", "quantifier": "all numbers of threads, all sequences of calls by each, all interleavings; consumers do not call the registry themselves, each is registered once", "why_tests_cant": "Tests see a few schedules.", "anchors": ["status_consumer_registry.cc: StatusConsumerRegistry::Start", "status_consumer_registry.cc: StatusConsumerRegistry::Stop", "status_consumer_registry.cc: StatusConsumerRegistry::Register", "llvm_propeller_profile_generator.cc: RegistryStopper"]}
{"id": "C108", "title": "What is reported about the progress of a propeller run", "statement": "Whatever step of a run fails and whenever consumers look: the value is a percentage; once the phases of the run are known, it never decreases, and it is 100, and the run done, exactly when nothing failed and the last phase is over; the name shown is that of the first unfinished phase. With http the consumers are told of the run once before all else and of its end once after all else, also after errors; without it they are told nothing.", "quantifier": "all subsets of failing steps, all moments at which consumers look (between two updates), with and without http", "why_tests_cant": "The errors and the moments of looking combine; tests look at the end.", "anchors": ["llvm_propeller_profile_generator.cc: GeneratePropellerProfiles", "llvm_propeller_profile_generator.cc: AddStatusProviders", "llvm_propeller_profile_computer.cc: PropellerProfileComputer::ComputeProfile", "llvm_propeller_profile_computer.cc: PropellerProfileComputer::GetProgramCfg", "status_provider.cc: MultiStatusProvider::GetJob"]}
{"id": "C109", "title": "Layout statistics balance", "statement": "Counting statistics does not change the layout. For every program, the initial chains that the layout reports (of one block and of several) are as many as the chain merges it reports plus the chains of the final layout plus one for each function whose chains were built on their own first because of its landing pads.", "quantifier": "all programs, all sets of functions, all parameters of the layout without given initial chains", "why_tests_cant": "The number of merges depends on all weights and sizes.", "anchors": ["llvm_propeller_node_chain_builder.cc: NodeChainBuilder::InitNodeChains", "llvm_propeller_node_chain_builder.cc: NodeChainBuilder::MergeChains", "llvm_propeller_node_chain_builder.cc: NodeChainBuilder::CoalesceChains", "llvm_propeller_statistics.h: CodeLayoutStats"]}
