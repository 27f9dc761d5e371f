{
 "claims": [
  {
   "property": "C01",
   "status": "proved",
   "theorems": [
    "Verif.Sample.text_profile_roundtrip",
    "Verif.Sample.readText_writeText"
   ],
   "note": ""
  },
  {
   "property": "C02",
   "status": "proved",
   "theorems": [
    "Verif.Sample.merge_sample_sums",
    "Verif.Sample.merge_sample_order",
    "Verif.Sample.merge_assoc",
    "Verif.Sample.append_file_eq_merge",
    "Verif.Sample.merge_sample_count"
   ],
   "note": ""
  },
  {
   "property": "C03",
   "status": "proved",
   "theorems": [
    "Verif.Sample.total_count_correct",
    "Verif.Sample.total_count_exact",
    "Verif.Sample.covered_bytes_merge",
    "Verif.Sample.total_sample_count"
   ],
   "note": ""
  },
  {
   "property": "C04",
   "status": "partial",
   "theorems": [
    "Verif.Lbr.append_counts",
    "Verif.Lbr.ranges_sound",
    "Verif.Lbr.branches_sound",
    "Verif.Lbr.clean_stack_exact_partial",
    "Verif.Lbr.branches_exact_violated",
    "Verif.Lbr.range_ends_real_violated"
   ],
   "note": "code drops the branch count of an entry whose range is bogus, and uses a wrong-path entry's source as a range end (both proved on witnesses); exactness proved for stacks without wrong-path/bogus entries"
  },
  {
   "property": "C05",
   "status": "proved",
   "theorems": [
    "Verif.Gcov.gcov_roundtrip",
    "Verif.Gcov.gcov_long_string_aborts"
   ],
   "note": ""
  },
  {
   "property": "C06",
   "status": "proved",
   "theorems": [
    "Verif.Gcov.buffered_read_refines",
    "Verif.Gcov.buffered_run_eq",
    "Verif.Gcov.buffered_open_eq",
    "Verif.Gcov.reads_after_eof_are_zero"
   ],
   "note": ""
  },
  {
   "property": "C07",
   "status": "partial",
   "theorems": [
    "Verif.Afdo.afdo_roundtrip_partial",
    "Verif.Afdo.afdo_roundtrip_totals",
    "Verif.Afdo.afdo_roundtrip_violated"
   ],
   "note": "proved for all trees, versions and policies; excluded: names with the suffixes D4Ev/C4Ev/C4EPKc/... that the writer rewrites (witness: two functions collapse and samples are lost), target names changed by the reader's elision policy, and what the format does not store (entry counts and location-free inline instances, instruction counts)"
  },
  {
   "property": "C08",
   "status": "proved",
   "theorems": [
    "Verif.Afdo.string_table_spec",
    "Verif.Afdo.writer_total"
   ],
   "note": "indices, order, completeness; the writer never fails a lookup when functions and callees are named"
  },
  {
   "property": "C09",
   "status": "partial",
   "theorems": [
    "Verif.Afdo.function_length_partial",
    "Verif.Afdo.function_length_short",
    "Verif.Afdo.function_length_violated"
   ],
   "note": "holds for versions < 3; from version 3 on the word is exactly 2 words per function too small"
  },
  {
   "property": "C10",
   "status": "partial",
   "theorems": [
    "Verif.SourceOffset.discriminator_roundtrip",
    "Verif.SourceOffset.generateOffset_injective",
    "Verif.SourceOffset.line_roundtrip_partial",
    "Verif.SourceOffset.line_roundtrip_violated",
    "Verif.SourceOffset.compressed_roundtrip",
    "Verif.SourceOffset.compressed_roundtrip_violated"
   ],
   "note": "holds exactly for fields < 2^16; counterexamples beyond"
  },
  {
   "property": "C100",
   "status": "proved",
   "theorems": [
    "Verif.FileNames.path_spec",
    "Verif.FileNames.table_files",
    "Verif.FileNames.table_last",
    "Verif.FileNames.table_get",
    "Verif.FileNames.table_by_name",
    "Verif.FileNames.run_inlined",
    "Verif.FileNames.run_function",
    "Verif.FileNames.run_by_name",
    "Verif.FileNames.matches_traverse",
    "Verif.FileNames.keys_of_matches",
    "Verif.FileNames.merge_source",
    "Verif.FileNames.matches_merge",
    "Verif.FileNames.read_by_name",
    "Verif.FileNames.listed_files",
    "Verif.FileNames.ex_stacks",
    "Verif.FileNames.ex_run",
    "Verif.FileNames.ex_table",
    "Verif.FileNames.ex_listed",
    "Verif.FileNames.ex_read",
    "Verif.FileNames.static_violated",
    "Verif.FileNames.alias_violated",
    "Verif.FileNames.first_empty_violated",
    "Verif.FileNames.reread_violated"
   ],
   "note": "For functions that have one file per name; the violations are outside of it."
  },
  {
   "property": "C101",
   "status": "proved",
   "theorems": [
    "Verif.CfgStats.stats_describe",
    "Verif.CfgStats.add_spec",
    "Verif.CfgStats.ex_stats",
    "Verif.CfgStats.kinds_violated"
   ],
   "note": "Counters unbounded."
  },
  {
   "property": "C102",
   "status": "proved",
   "theorems": [
    "Verif.Scale.scaleN_zero",
    "Verif.Scale.scaleN_exact",
    "Verif.Scale.scaleN_mono",
    "Verif.Scale.scaleN_err",
    "Verif.Scale.scale_spec",
    "Verif.Scale.store_scale",
    "Verif.Scale.store_scale_once",
    "Verif.Scale.scale_inv",
    "Verif.Scale.totalSum_spec",
    "Verif.Scale.totalSum_once",
    "Verif.Scale.ex_scale",
    "Verif.Scale.ex_inv",
    "Verif.Scale.alias_violated",
    "Verif.Scale.sum_violated",
    "Verif.Scale.large_violated"
   ],
   "note": "Ratios that are not negative; counts unbounded."
  },
  {
   "property": "C103",
   "status": "proved",
   "theorems": [
    "Verif.Cleanup.cleanup_spec",
    "Verif.Cleanup.endSplit_stack",
    "Verif.Cleanup.marked_handler",
    "Verif.Cleanup.marked_init",
    "Verif.Cleanup.ex_cleanup",
    "Verif.Cleanup.ex_circle",
    "Verif.Cleanup.reference_violated"
   ],
   "note": ""
  },
  {
   "property": "C104",
   "status": "proved",
   "theorems": [
    "Verif.BundleMap.table_spec",
    "Verif.BundleMap.table_tight",
    "Verif.BundleMap.foreign_violated",
    "Verif.BundleMap.distinct_needed",
    "Verif.BundleMap.overrun_shares"
   ],
   "note": ""
  },
  {
   "property": "C105",
   "status": "partial",
   "theorems": [
    "Verif.SplitDwarf.split_source",
    "Verif.SplitDwarf.chosen_unique",
    "Verif.SplitDwarf.split_accepted",
    "Verif.SplitDwarf.run_total",
    "Verif.SplitDwarf.ranges_in_force",
    "Verif.SplitDwarf.own_ranges_partial",
    "Verif.SplitDwarf.own_ranges_violated",
    "Verif.SplitDwarf.relative_violated",
    "Verif.SplitDwarf.no_info_fails",
    "Verif.SplitDwarf.ex_sources",
    "Verif.SplitDwarf.ex_partial"
   ],
   "note": "Range lists: only what is read before the first .dwo file with range lists, and that file, have their own; the code violates it afterwards."
  },
  {
   "property": "C106",
   "status": "proved",
   "theorems": [
    "Verif.CommaFormat.print_spec",
    "Verif.CommaFormat.print_injective",
    "Verif.CommaFormat.ex_print",
    "Verif.CommaFormat.width_violated",
    "Verif.CommaFormat.left_violated",
    "Verif.CommaFormat.base_violated"
   ],
   "note": ""
  },
  {
   "property": "C107",
   "status": "proved",
   "theorems": [
    "Verif.Registry.program_order",
    "Verif.Registry.received_spec",
    "Verif.Registry.progress",
    "Verif.Registry.provider_alive",
    "Verif.Registry.run_over",
    "Verif.Registry.ex_over",
    "Verif.Registry.once_of",
    "Verif.Registry.ex_once",
    "Verif.Registry.ex_reach",
    "Verif.Registry.late_violated",
    "Verif.Registry.late_reach_violated"
   ],
   "note": ""
  },
  {
   "property": "C108",
   "status": "proved",
   "theorems": [
    "Verif.RunProgress.polls_monotone",
    "Verif.RunProgress.complete_iff",
    "Verif.RunProgress.job_spec",
    "Verif.RunProgress.told",
    "Verif.RunProgress.in_range",
    "Verif.RunProgress.early_violated",
    "Verif.RunProgress.ex_run"
   ],
   "note": ""
  },
  {
   "property": "C109",
   "status": "proved",
   "theorems": [
    "Verif.Chain.stats_conserved",
    "Verif.Chain.buildC_spec",
    "Verif.Chain.buildLoopC_spec",
    "Verif.Chain.coalesceC_spec",
    "Verif.Chain.ex_stats",
    "Verif.Chain.ex_nested"
   ],
   "note": ""
  },
  {
   "property": "C11",
   "status": "proved",
   "theorems": [
    "Verif.SymbolMap.merge_adds",
    "Verif.SymbolMap.merge_comm_counts",
    "Verif.SymbolMap.mergeAll_adds",
    "Verif.SymbolMap.mergeAll_perm"
   ],
   "note": ""
  },
  {
   "property": "C12",
   "status": "partial",
   "theorems": [
    "Verif.SymbolMap.original_name_sublist",
    "Verif.SymbolMap.original_name_of_no_dot",
    "Verif.SymbolMap.original_name_all",
    "Verif.SymbolMap.original_name_idem_partial",
    "Verif.SymbolMap.original_name_selected_violated",
    "Verif.SymbolMap.elide_conserves",
    "Verif.SymbolMap.elide_exact",
    "Verif.SymbolMap.elide_exact_aliases"
   ],
   "note": "conservation proved for all maps; under the `selected` policy a repeated suffix is only removed once, so names need not be stable base names (witness) For maps in which several names share a symbol: the exact result, for the policies other than 'selected'."
  },
  {
   "property": "C13",
   "status": "proved",
   "theorems": [
    "Verif.SymbolMap.throttle_spec",
    "Verif.SymbolMap.throttle_consistent",
    "Verif.SymbolMap.throttle_idem",
    "Verif.SymbolMap.throttle_negative"
   ],
   "note": ""
  },
  {
   "property": "C14",
   "status": "proved",
   "theorems": [
    "Verif.SymbolMap.trim_spec",
    "Verif.SymbolMap.trimTargets_spec",
    "Verif.SymbolMap.trim_negative"
   ],
   "note": ""
  },
  {
   "property": "C15",
   "status": "partial",
   "theorems": [
    "Verif.SymbolMap.add_source_count_partial",
    "Verif.SymbolMap.add_source_count_empty",
    "Verif.SymbolMap.add_all_sources_partial",
    "Verif.SymbolMap.add_source_count_violated",
    "Verif.SymbolMap.op_effect",
    "Verif.SymbolMap.src_effect",
    "Verif.SymbolMap.runOps_history",
    "Verif.SymbolMap.usedPath_eq_callPath"
   ],
   "note": "proved for stacks whose frames all carry line info (always when reading profiles); with an invalid enclosing frame the code attributes the innermost location to the enclosing function (witness) the exact effect for every stack, also without line information, and of every history of updates"
  },
  {
   "property": "C16",
   "status": "partial",
   "theorems": [
    "Verif.SymbolMap.indirect_target_partial",
    "Verif.SymbolMap.indirect_target_accumulates_violated",
    "Verif.SymbolMap.target_effect"
   ],
   "note": "the code assigns instead of accumulating (witness); exact last-write semantics proved exact effect for every stack"
  },
  {
   "property": "C17",
   "status": "partial",
   "theorems": [
    "Verif.Scc.inclusive_counts_partial",
    "Verif.Scc.inclusive_counts_acyclic_partial",
    "Verif.Scc.inclusive_counts_violated",
    "Verif.Scc.findScc_ok",
    "Verif.Scc.topoSort_ok",
    "Verif.Scc.collapse_ok",
    "Verif.FloatUses.cost32_spec",
    "Verif.FloatUses.inclusive_counts32_acyclic_partial",
    "Verif.FloatUses.cost_violated"
   ],
   "note": "for every graph and hash order: groups are sound, and the computation succeeds exactly if they are also complete, with the specified counts; it always succeeds without mutual recursion. With mutual recursion of four functions it can stop (witness), because the DFS index is passed by value. The theorems hold for any cost function; FloatUses has the rounded one of the code."
  },
  {
   "property": "C18",
   "status": "partial",
   "theorems": [
    "Verif.Threshold.emitted_iff",
    "Verif.Threshold.emitted_above_fraction",
    "Verif.Threshold.emit_monotone_partial",
    "Verif.Threshold.emit_monotone_needs_bound",
    "Verif.Threshold.ignore_has_no_effect",
    "Verif.Threshold.ignore_thresholds_violated",
    "Verif.FloatUses.emitted64_iff",
    "Verif.FloatUses.emitted64_above_fraction",
    "Verif.FloatUses.emit64_monotone_partial",
    "Verif.FloatUses.ex_threshold64"
   ],
   "note": "monotone for fractions <= 1 (counterexample otherwise); the ignore-thresholds switch is stored but never read by the code (witness) With the rounding of the double product."
  },
  {
   "property": "C19",
   "status": "proved",
   "theorems": [
    "Verif.AddrLookup.symbol_lookup_iff",
    "Verif.AddrLookup.symbol_lookup_none",
    "Verif.AddrLookup.symbol_lookup_overlap_misses"
   ],
   "note": ""
  },
  {
   "property": "C20",
   "status": "partial",
   "theorems": [
    "Verif.AddrLookup.translations_inverse_partial",
    "Verif.AddrLookup.offset_vaddr_offset",
    "Verif.AddrLookup.translations_inverse_violated"
   ],
   "note": "inverse when segments overlap neither in file offsets nor in addresses; witness otherwise"
  },
  {
   "property": "C21",
   "status": "proved",
   "theorems": [
    "Verif.Summary.summary_totals",
    "Verif.Summary.detailed_summary",
    "Verif.Summary.detailed_monotone",
    "Verif.Summary.asserts_hold",
    "Verif.Summary.maxDesired_sorted",
    "Verif.Summary.defaultCutoffs_ok"
   ],
   "note": ""
  },
  {
   "property": "C22",
   "status": "proved",
   "theorems": [
    "Verif.PerfMMap.select_ok",
    "Verif.PerfMMap.select_none_iff",
    "Verif.PerfMMap.clash_iff_overlap",
    "Verif.PerfMMap.toEntry_iff"
   ],
   "note": "Mappings whose end is below 2^64; a mapping that reaches the end of the address space escapes the overlap test (PerfMMap.select_wrap_violated)."
  },
  {
   "property": "C23",
   "status": "proved",
   "theorems": [
    "Verif.PerfMMap.goodMaps_of_select",
    "Verif.PerfMMap.toBinary_unmapped",
    "Verif.PerfMMap.toBinary_nonpie",
    "Verif.PerfMMap.toBinary_pie",
    "Verif.PerfMMap.toBinary_difference",
    "Verif.PerfMMap.toBinary_kernel"
   ],
   "note": "Across differently relocated segments differences are not preserved (PerfMMap.toBinary_two_segments_violated)."
  },
  {
   "property": "C24",
   "status": "proved",
   "theorems": [
    "Verif.PerfAgg.aggregateLBR_spec",
    "Verif.PerfAgg.aggregateAll_spec",
    "Verif.PerfAgg.aggregateAll_order",
    "Verif.PerfAgg.counts_perm",
    "Verif.PerfAgg.aggregateSpe_spec",
    "Verif.PerfAgg.numBranches_exact"
   ],
   "note": "Counters are unbounded naturals. Runs ending at an unknown address are counted up to the invalid address (PerfAgg.aggregate_invalid_end_violated); the reported total overflows an int (PerfAgg.numBranches_violated)."
  },
  {
   "property": "C25",
   "status": "proved",
   "theorems": [
    "Verif.Mapper.find_covers",
    "Verif.Mapper.find_none_iff",
    "Verif.Mapper.find_from",
    "Verif.Mapper.find_to",
    "Verif.Mapper.build_ordered",
    "Verif.Mapper.build_isSome_iff"
   ],
   "note": "ordering of the handles is derived from a well laid out binary (functions and blocks sorted, no overlap); DCHECKs not modelled"
  },
  {
   "property": "C26",
   "status": "proved",
   "theorems": [
    "Verif.InferFT.canFallThrough_iff",
    "Verif.InferFT.infer_sound",
    "Verif.InferFT.infer_map_sound",
    "Verif.InferFT.infer_exact",
    "Verif.InferFT.computeWeights_sums",
    "Verif.InferFT.computeWeights_actual"
   ],
   "note": ""
  },
  {
   "property": "C27",
   "status": "proved",
   "theorems": [
    "Verif.CfgBuild.addEdges_spec",
    "Verif.CfgBuild.createEdges_spec",
    "Verif.CfgBuild.createEdges_weight",
    "Verif.CfgBuild.createEdges_exists",
    "Verif.CfgBuild.createEdges_perm",
    "Verif.CfgBuild.classify_kinds",
    "Verif.CfgBuild.nodeFreq_spec",
    "Verif.CfgBuild.nodeFreq_pos",
    "Verif.CfgBuild.kept_closed",
    "Verif.CfgBuild.createEdges_example"
   ],
   "note": "Builder without an initial program; with one, a repeated branch fails the duplicate check (CfgBuild.rebuild_violated). The kind of an edge depends on hash order (CfgBuild.kind_order_violated). The two error-status thresholds and statistics are not modelled; weights are unbounded."
  },
  {
   "property": "C28",
   "status": "proved",
   "theorems": [
    "Verif.ForcedPath.forcedEdges_spec",
    "Verif.ForcedPath.breakCycles_spec",
    "Verif.ForcedPath.forcedPaths_spec",
    "Verif.ForcedPath.forcedPaths_example"
   ],
   "note": "Nodes of one CFG are an arbitrary linearly ordered type with a block index; termination is proved as: the fuel of the model's loops is never used up."
  },
  {
   "property": "C29",
   "status": "proved",
   "theorems": [
    "Verif.Chain.chains_partition",
    "Verif.Chain.merges_spec",
    "Verif.Chain.mergeNodes_spec",
    "Verif.Chain.initChains_spec",
    "Verif.Chain.forced_nodes",
    "Verif.Chain.addChains_spec",
    "Verif.Chain.merged_order",
    "Verif.Chain.mem_wanted",
    "Verif.Chain.buildChains_ok",
    "Verif.Chain.sub_ok"
   ],
   "note": "No initial chains from the configuration."
  },
  {
   "property": "C30",
   "status": "proved",
   "theorems": [
    "Verif.Chain.predicted_gain",
    "Verif.Chain.scoreGain_exact",
    "Verif.Chain.edgeDist_spec",
    "Verif.Chain.inSlice_iff",
    "Verif.Chain.findSlice_spec",
    "Verif.Chain.initEdges_ok",
    "Verif.Chain.init_good",
    "Verif.Chain.built_good",
    "Verif.Chain.merge_ok",
    "Verif.Chain.predicted_gain_violated_initial_chains"
   ],
   "note": "Exact rational scores in place of doubles. A splitting order whose result is reported as 0 because the inter-chain score is not positive is never merged by the builder. With initial chains from the configuration the property fails: predicted_gain_violated_initial_chains."
  },
  {
   "property": "C31",
   "status": "proved",
   "theorems": [
    "Verif.Chain.entry_first",
    "Verif.Chain.build_ok",
    "Verif.Chain.coalesce_ok",
    "Verif.Chain.entry_merged",
    "Verif.Chain.entry_first_violated"
   ],
   "note": "Exact rational scores in place of doubles. The exception in the statement is real: entry_first_violated."
  },
  {
   "property": "C32",
   "status": "proved",
   "theorems": [
    "Verif.Cluster.buildClusters_ok",
    "Verif.Cluster.mergeWithBest_spec",
    "Verif.Cluster.buildClusters_perm",
    "Verif.Cluster.inspectEdge_spec",
    "Verif.Cluster.bestPred_spec",
    "Verif.Cluster.buildClusters_violated"
   ],
   "note": "Exact rational densities in place of doubles, unbounded integers. The hypothesis that chains begin with entry blocks is what the tool CHECKs; buildClusters_violated: the exception of C31 makes that check fail."
  },
  {
   "property": "C33",
   "status": "proved",
   "theorems": [
    "Verif.Layout.emit_ok",
    "Verif.Layout.layout_indices",
    "Verif.Layout.layout_order",
    "Verif.Layout.layout_once",
    "Verif.Layout.layout_entry",
    "Verif.Layout.layout_cold",
    "Verif.Layout.layout_byId",
    "Verif.Layout.orderAll_ok",
    "Verif.Layout.allChains_ok",
    "Verif.Layout.layoutAddrs_ok",
    "Verif.Layout.symbolOrder_ok",
    "Verif.Layout.coldOrder_ok",
    "Verif.Layout.coldSymbols_ok",
    "Verif.Layout.ldSymbols_nodup",
    "Verif.Layout.Runs.unique"
   ],
   "note": "Exact rational scores; block sizes and addresses are unbounded (the code keeps them in int). orderAll_ok carries the hypotheses of C50 and, where the tool CHECKs it, that each function's layout can begin with its entry block."
  },
  {
   "property": "C34",
   "status": "partial",
   "theorems": [
    "Verif.Scorer.score_value",
    "Verif.Scorer.score_bounds",
    "Verif.Scorer.fallthrough_is_best_partial",
    "Verif.Scorer.score_antitone",
    "Verif.Scorer.fallthrough_is_best_violated",
    "Verif.Chain.chain_score_eq"
   ],
   "note": "bounds and monotone decay for all inputs; the int*uint32 products wrap, so a fallthrough can score lower than a branch (witness) the chain builder uses these scores"
  },
  {
   "property": "C35",
   "status": "proved",
   "theorems": [
    "Verif.Percentile.threshold_rank",
    "Verif.Percentile.threshold_monotone",
    "Verif.Percentile.threshold_rejects"
   ],
   "note": ""
  },
  {
   "property": "C36",
   "status": "proved",
   "theorems": [
    "Verif.Lazy.lazy_once",
    "Verif.Lazy.lazy_unused",
    "Verif.Lazy.lazy_const"
   ],
   "note": ""
  },
  {
   "property": "C37",
   "status": "partial",
   "theorems": [
    "Verif.Progress.progress_in_range",
    "Verif.Progress.done_iff_all",
    "Verif.Progress.multi_done_iff",
    "Verif.Progress.done_progress",
    "Verif.Progress.progress_monotone",
    "Verif.Progress.done_monotone",
    "Verif.Progress.progress_100_iff_done",
    "Verif.Progress.set_done_completes",
    "Verif.Progress.weighted_mean_partial",
    "Verif.Progress.weighted_mean_violated",
    "Verif.Progress.progress32_in_range",
    "Verif.Progress.done_progress32",
    "Verif.Progress.progress32_monotone",
    "Verif.Progress.progress32_100_iff_done",
    "Verif.Progress.weighted_mean32_partial",
    "Verif.Progress.rounding_violated",
    "Verif.Progress.ex_progress32"
   ],
   "note": "range, completion and monotonicity proved for all nestings; the weighted mean only holds for jobs run in order (witness otherwise) With the float rounding of every operation."
  },
  {
   "property": "C38",
   "status": "proved",
   "theorems": [
    "Verif.RangeMap.insertRange_spec",
    "Verif.RangeMap.insertRange_accepts",
    "Verif.RangeMap.find_spec",
    "Verif.RangeMap.history_nonoverlapping"
   ],
   "note": "Insertions with low <= high; with low > high the map is corrupted (RangeMap.insert_reversed_violated), and some partially overlapping ranges are silently accepted instead of failing the CHECK promised in the documentation (RangeMap.insert_partial_overlap_violated)."
  },
  {
   "property": "C39",
   "status": "proved",
   "theorems": [
    "Verif.ByteReader.uleb_decode",
    "Verif.ByteReader.uleb_roundtrip",
    "Verif.ByteReader.sleb_decode",
    "Verif.ByteReader.sleb_roundtrip",
    "Verif.ByteReader.fixed_roundtrip",
    "Verif.ByteReader.initial_length_roundtrip",
    "Verif.ByteReader.uleb_overlong_undefined"
   ],
   "note": ""
  },
  {
   "property": "C40",
   "status": "partial",
   "theorems": [
    "Verif.Ranges.v4_range_list",
    "Verif.Ranges.v5_range_list",
    "Verif.Ranges.v5_meaning_partial",
    "Verif.Ranges.v5_meaning_violated"
   ],
   "note": "pre-v5 lists fully; v5 lists when the absolute entries occur under base 0; otherwise the code adds the base (witness)"
  },
  {
   "property": "C41",
   "status": "partial",
   "theorems": [
    "Verif.SpePid.pid_resolution_partial",
    "Verif.SpePid.pid_without_context",
    "Verif.SpePid.pid_resolution_out_of_order_violated",
    "Verif.SpePid.pid_resolution_tie_violated",
    "Verif.SpePid.convert_exact",
    "Verif.SpePid.convert_short",
    "Verif.SpePid.convert_monotone"
   ],
   "note": "resolution proved for histories in time order per thread with agreeing ties; witnesses show what the code does otherwise; conversion exact and monotone while 64 bits suffice"
  },
  {
   "property": "C42",
   "status": "proved",
   "theorems": [
    "Verif.SpeRanges.synthesize_ok",
    "Verif.SpeRanges.synthesize_complete",
    "Verif.SpeRanges.rangeCounts_spec",
    "Verif.SpeFreq.toRanges_ok",
    "Verif.SpeFreq.toRanges_complete",
    "Verif.SpeFreq.toBranches_get0"
   ],
   "note": "Simple reader. Without the alignment hypothesis the claim is false: SpeRanges.synthesize_wraps_violated. Branch-frequency reader. Without the alignment hypothesis reversed ranges appear: SpeFreq.toRanges_reversed_violated."
  },
  {
   "property": "C43",
   "status": "proved",
   "theorems": [
    "Verif.FileProvider.delivers_in_order",
    "Verif.FileProvider.delivers_all",
    "Verif.FileProvider.end_is_final",
    "Verif.FileProvider.error_retries"
   ],
   "note": ""
  },
  {
   "property": "C44",
   "status": "proved",
   "theorems": [
    "Verif.SymbolMap.buildFlat_ok",
    "Verif.SymbolMap.buildFlat_selective",
    "Verif.SymbolMap.flatCount_eq",
    "Verif.SymbolMap.entry_est",
    "Verif.SymbolMap.Entry.unique",
    "Verif.SymbolMap.flatOf_obs"
   ],
   "note": "Unbounded counts."
  },
  {
   "property": "C45",
   "status": "partial",
   "theorems": [
    "Verif.Overlap.overlap_spec_partial",
    "Verif.Overlap.overlap_range",
    "Verif.Overlap.overlap_comm",
    "Verif.Overlap.overlap_self",
    "Verif.Overlap.overlap_one_iff",
    "Verif.Overlap.overlap_zero_iff",
    "Verif.Overlap.overlap32_comm",
    "Verif.Overlap.overlap32_near",
    "Verif.Overlap.overlap32_range",
    "Verif.Overlap.overlap32_error",
    "Verif.Overlap.overlap32_self",
    "Verif.Overlap.overlap32_zero_iff",
    "Verif.Overlap.ex_overlap",
    "Verif.Overlap.above_one_violated",
    "Verif.Overlap.below_one_violated",
    "Verif.Overlap.stagnation_violated"
   ],
   "note": "all parts proved for exact arithmetic. With the float rounding of every operation: symmetric exactly, the rest up to a proved error; the literal claims (at most 1, equal to 1) are refuted by witnesses."
  },
  {
   "property": "C46",
   "status": "partial",
   "theorems": [
    "Verif.Afdo.afdo_merge_adds_partial",
    "Verif.Afdo.afdo_merge_targets_violated"
   ],
   "note": "entry counts, location counts and totals add; indirect-call target counts are replaced (witness)"
  },
  {
   "property": "C47",
   "status": "partial",
   "theorems": [
    "Verif.FileProvider.getAll_complete_partial",
    "Verif.FileProvider.getAll_terminates",
    "Verif.FileProvider.getAll_complete_violated"
   ],
   "note": "a successful bulk call returns everything; after a read error the files read earlier in that call are lost (witness)"
  },
  {
   "property": "C48",
   "status": "proved",
   "theorems": [
    "Verif.MapperSelect.select_spec",
    "Verif.MapperSelect.filterDup_distinct",
    "Verif.MapperSelect.filterDup_keeps",
    "Verif.MapperSelect.filterDup_keeps_first",
    "Verif.MapperSelect.hotFunctions_iff",
    "Verif.MapperSelect.filterDup_iff"
   ],
   "note": ""
  },
  {
   "property": "C49",
   "status": "proved",
   "theorems": [
    "Verif.MMapSelector.toHex_injective",
    "Verif.MMapSelector.buildIdNames_spec",
    "Verif.MMapSelector.buildIdNames_none",
    "Verif.MMapSelector.choose_name",
    "Verif.MMapSelector.choose_build_id"
   ],
   "note": "POSIX paths, without '//net' root names. Mixed absolute and relative build-id names depend on hash order (MMapSelector.mk_order_violated)."
  },
  {
   "property": "C50",
   "status": "proved",
   "theorems": [
    "Verif.Chain.buildChains_ok",
    "Verif.Chain.no_better_concatenation",
    "Verif.Chain.build_ok",
    "Verif.Chain.buildLoop_ok",
    "Verif.Chain.coalesce_ok",
    "Verif.Chain.mergeAsm_ok",
    "Verif.Chain.buildAsm_ok",
    "Verif.Chain.getEdgeScore_nonneg"
   ],
   "note": "Exact rational scores in place of doubles."
  },
  {
   "property": "C51",
   "status": "proved",
   "theorems": [
    "Verif.Chain.queues_agree",
    "Verif.Chain.best_spec",
    "Verif.Chain.best_perm",
    "Verif.Chain.asmKey_inj"
   ],
   "note": ""
  },
  {
   "property": "C52",
   "status": "proved",
   "theorems": [
    "Verif.Layout.readCc_ccText"
   ],
   "note": "The reader is a specification of the file format (the real one is the compiler's)."
  },
  {
   "property": "C53",
   "status": "proved",
   "theorems": [
    "Verif.Compute.compute_profile",
    "Verif.Compute.aggregate_spec",
    "Verif.Compute.computeOrder_history",
    "Verif.Compute.compute_profile_duplicate_names_violated"
   ],
   "note": "Unbounded counts; aliases, timestamps and the llc_misses mode are not modelled. Distinct names are a hypothesis: with two functions of the same name the samples of one are lost (witness). Followed by ElideSuffixesAndMerge (C12)."
  },
  {
   "property": "C54",
   "status": "proved",
   "theorems": [
    "Verif.SymbolMap.hybrid_profile",
    "Verif.SymbolMap.hybrid_inlined_hot",
    "Verif.SymbolMap.mem_places",
    "Verif.SymbolMap.hybridEx_ok",
    "Verif.SymbolMap.hybrid_total_counted_twice_violated",
    "Verif.SymbolMap.hybrid_call_count_lost_violated"
   ],
   "note": "Unbounded counts. The witnesses show that the caller keeps the totals of calls moved out of it, and that entry counts of callees are not estimated."
  },
  {
   "property": "C55",
   "status": "proved",
   "theorems": [
    "Verif.SymbolMap.flatten_nested",
    "Verif.SymbolMap.flatten_nested_within",
    "Verif.SymbolMap.flatten_nested_totals",
    "Verif.SymbolMap.flatten_into",
    "Verif.SymbolMap.exNested_ok",
    "Verif.SymbolMap.exNested_two",
    "Verif.SymbolMap.exNested_one",
    "Verif.SymbolMap.exNested_four",
    "Verif.SymbolMap.flatten_nested_recursion_violated"
   ],
   "note": "Counts are unbounded and totals modulo 2^64. The violated witness shows that totals do not add up when a function is inlined into itself."
  },
  {
   "property": "C56",
   "status": "proved",
   "theorems": [
    "Verif.SymbolMap.readTop_effect",
    "Verif.SymbolMap.read_profiles",
    "Verif.SymbolMap.writeProfiles_eq",
    "Verif.SymbolMap.llvm_round_trip",
    "Verif.SymbolMap.llvm_round_trip_exact",
    "Verif.SymbolMap.llvmEx_ok",
    "Verif.SymbolMap.llvm_merge_targets_violated",
    "Verif.SymbolMap.llvm_merge_order_violated",
    "Verif.SymbolMap.llvm_long_lines_violated"
   ],
   "note": "The file formats belong to LLVM and are not modelled; sums are unbounded when reading. Call targets of the last profile read replace earlier ones, and the total of a function without counts depends on the order (witnesses)."
  },
  {
   "property": "C57",
   "status": "proved",
   "theorems": [
    "Verif.SymbolMap.read_special",
    "Verif.SymbolMap.read_special_ex"
   ],
   "note": ""
  },
  {
   "property": "C58",
   "status": "partial",
   "theorems": [
    "Verif.DwarfLine.section_decoded",
    "Verif.DwarfLine.unit_decoded",
    "Verif.DwarfLine.lines_decoded",
    "Verif.DwarfLine.unit5_decoded_partial",
    "Verif.DwarfLine.exUnit_ok",
    "Verif.DwarfLine.exUnit_enc",
    "Verif.DwarfLine.exUnit_decoded",
    "Verif.DwarfLine.exU5_ok",
    "Verif.DwarfLine.exU5_enc",
    "Verif.DwarfLine.header_length_ignored_violated",
    "Verif.DwarfLine.unterminated_sequence_violated",
    "Verif.DwarfLine.max_ops_ignored_violated",
    "Verif.DwarfLine.unit5_numbering_violated",
    "Verif.DwarfLine.unit5_md5_violated"
   ],
   "note": "versions 2 to 4 in full. Version 5 is partial: directories and files are numbered from 1 instead of 0, and an MD5 column makes the unit unreadable (witnesses). Other witnesses: the header length is ignored, so are operation indices of VLIW machines, and a program without end_sequence reads on into the next unit. Two-level line tables: C98."
  },
  {
   "property": "C59",
   "status": "proved",
   "theorems": [
    "Verif.LineMap.address_to_line",
    "Verif.LineMap.ans_sequences",
    "Verif.LineMap.found_iff",
    "Verif.LineMap.lookup_iff",
    "Verif.LineMap.lookup_defined",
    "Verif.LineMap.address_to_line_ex",
    "Verif.LineMap.ex_described",
    "Verif.LineMap.ex_described_dead",
    "Verif.LineMap.ex_disj",
    "Verif.LineMap.adjacent_sequence_violated",
    "Verif.LineMap.unit5_file_violated"
   ],
   "note": "The section is read directly (the tool does so without .debug_info; with it, units are read in the order of .debug_info). Witnesses: the lost first row when a sequence read later ends where one starts; wrong file names for version 5."
  },
  {
   "property": "C60",
   "status": "proved",
   "theorems": [
    "Verif.Inline.kept_disjoint",
    "Verif.Inline.kept_parent",
    "Verif.Inline.clean_kept",
    "Verif.Inline.kept_single",
    "Verif.Inline.expand_spec",
    "Verif.Inline.exSubs_parents",
    "Verif.Inline.exSubs_single",
    "Verif.Inline.exSubs_bad",
    "Verif.Inline.exClean_clean",
    "Verif.Inline.split_function_lost_violated",
    "Verif.Inline.nested_function_lost_violated"
   ],
   "note": "Witnesses: with functions split into several ranges a good description can be lost, and so are nested functions that are not within their parent."
  },
  {
   "property": "C61",
   "status": "proved",
   "theorems": [
    "Verif.Inline.inline_stack",
    "Verif.Inline.lookup_innermost",
    "Verif.Inline.declLoop_iff",
    "Verif.Inline.decl_total",
    "Verif.Inline.sortAndMerge_spec",
    "Verif.Inline.sortAndMerge_own",
    "Verif.Inline.singleton_range",
    "Verif.Inline.singleton_range_offset",
    "Verif.Inline.exInfo_tidy",
    "Verif.Inline.exInfo_refs",
    "Verif.Inline.exInfo_ok",
    "Verif.Inline.exStack",
    "Verif.Inline.sortAndMerge_ex",
    "Verif.Inline.overlapping_siblings_violated",
    "Verif.Inline.reversed_range_violated",
    "Verif.Inline.no_call_file_violated",
    "Verif.Inline.circular_references_violated",
    "Verif.Inline.name_lost_violated",
    "Verif.Inline.high_before_low_violated",
    "Verif.Inline.low_without_high_violated"
   ],
   "note": "The debug information is given as the list of subprograms. Witnesses: overlapping calls or a low address without a high address stop the program, an inlined call without call file uses a null pointer, circular references do not end."
  },
  {
   "property": "C62",
   "status": "partial",
   "theorems": [
    "Verif.DwarfInfo.info_decoded_partial",
    "Verif.DwarfInfo.readUnit_ok",
    "Verif.DwarfInfo.dies_unit",
    "Verif.DwarfInfo.dies_forest",
    "Verif.DwarfInfo.abbrevs_ok",
    "Verif.DwarfInfo.readHeader_ok",
    "Verif.DwarfInfo.formVal_ok",
    "Verif.DwarfInfo.skipForm_ok",
    "Verif.DwarfInfo.exInfo_decoded",
    "Verif.DwarfInfo.recorder_wants",
    "Verif.DwarfInfo.exUnits_at",
    "Verif.DwarfInfo.str_by_number",
    "Verif.DwarfInfo.addr_by_number",
    "Verif.DwarfInfo.by_number_ex",
    "Verif.DwarfInfo.abbrev_codes_violated",
    "Verif.DwarfInfo.implicit_const_violated",
    "Verif.DwarfInfo.addrx_violated",
    "Verif.DwarfInfo.addrx2_violated",
    "Verif.DwarfInfo.forms_violated",
    "Verif.DwarfInfo.data16_violated",
    "Verif.DwarfInfo.unclosed_violated",
    "Verif.DwarfInfo.table_format_violated"
   ],
   "note": "Proved for the forms in AttrEnc: all of DWARF 2-4 and those of DWARF 5 that are read right, consecutive abbreviation codes. Missing, because false: the other DWARF 5 forms and abbreviation tables with gaps; each has a witness. Split DWARF is not modelled."
  },
  {
   "property": "C63",
   "status": "proved",
   "theorems": [
    "Verif.InlineHandler.subprograms_decoded",
    "Verif.InlineHandler.parents",
    "Verif.InlineHandler.parents_later",
    "Verif.InlineHandler.inline_stacks_decoded",
    "Verif.InlineHandler.marks_iff",
    "Verif.InlineHandler.fn_cell",
    "Verif.InlineHandler.report_cu",
    "Verif.InlineHandler.unit_walk",
    "Verif.InlineHandler.section_walk",
    "Verif.InlineHandler.hx_desc",
    "Verif.InlineHandler.hxUnits_at",
    "Verif.InlineHandler.hxInfo_ok",
    "Verif.InlineHandler.hx_decoded",
    "Verif.InlineHandler.ref_forms_violated",
    "Verif.InlineHandler.call_line_forms_violated",
    "Verif.InlineHandler.decl_line_const_violated",
    "Verif.InlineHandler.unit_rnglistx_violated",
    "Verif.InlineHandler.comp_dir_violated",
    "Verif.InlineHandler.nested_code_violated"
   ],
   "note": "For the forms and the shape of units named in the statement; what happens with others is in the witnesses: other reference or call line forms and unit ranges by number stop the program, a signed declaration line is ignored, a unit without compilation directory takes over that of an earlier one, and code nested in a function without code is lost. Range lists and line tables are parameters here (C40, C58, C64)."
  },
  {
   "property": "C64",
   "status": "proved",
   "theorems": [
    "Verif.RngLists.headers_read",
    "Verif.RngLists.list_by_number",
    "Verif.RngLists.list_by_offset5",
    "Verif.RngLists.list_by_offset4",
    "Verif.RngLists.readHeader_ok",
    "Verif.RngLists.readHeaders_ok",
    "Verif.RngLists.exC_ok",
    "Verif.RngLists.ex_by_number",
    "Verif.RngLists.empty_table_violated",
    "Verif.RngLists.number_without_array_violated"
   ],
   "note": "The meaning of a list of DWARF 5 is codeMeaning5, whose departure from the standard is in C40. Witnesses: a last table without lists stops the program; a number with a table without offsets reads the list at the base."
  },
  {
   "property": "C65",
   "status": "proved",
   "theorems": [
    "Verif.Addr2Line.binary_stacks",
    "Verif.Addr2Line.lines_only",
    "Verif.Addr2Line.line_at",
    "Verif.Addr2Line.ranges4_at",
    "Verif.Addr2Line.ranges5_at",
    "Verif.Addr2Line.ranges5_number",
    "Verif.Addr2Line.exB_stack",
    "Verif.Addr2Line.exB_lines",
    "Verif.Addr2Line.offset_list_addr_base_violated",
    "Verif.Elf.file_stacks",
    "Verif.Elf.exFile_debug",
    "Verif.Elf.exFile_stack"
   ],
   "note": "The sections are read from the bytes of the ELF file (file_stacks). Line tables before DWARF 5 (C58). Witness: in a DWARF 5 list by offset, addresses by number ignore the base the unit gives."
  },
  {
   "property": "C66",
   "status": "proved",
   "theorems": [
    "Verif.Elf.section_by_name",
    "Verif.Elf.section_info_by_name",
    "Verif.Elf.segments_read",
    "Verif.Elf.first_load_vaddr",
    "Verif.Elf.dso",
    "Verif.Elf.not_elf",
    "Verif.Elf.sections_of_file",
    "Verif.Elf.not_debug_stripped",
    "Verif.Elf.not_stripped",
    "Verif.Elf.stripped_not_elf",
    "Verif.Elf.namesMatch_iff",
    "Verif.Elf.exFile_elf",
    "Verif.Elf.exFile_debug",
    "Verif.Elf.exFile_not_stripped",
    "Verif.Elf.empty_section_fatal",
    "Verif.Elf.no_sections_null",
    "Verif.Elf.many_segments_violated",
    "Verif.Elf.zdebug_violated"
   ],
   "note": "Sections that can be mapped: an empty section at a page boundary is fatal (witness). The contents of compressed sections are given as they are. Witnesses: a file with segments and without section headers makes the reader use a null pointer; more than 65534 segments; compressed debugging sections do not count as such."
  },
  {
   "property": "C67",
   "status": "partial",
   "theorems": [
    "Verif.Elf.symbols_visited",
    "Verif.Elf.symbol_map_built_partial",
    "Verif.Elf.function_at_partial",
    "Verif.Elf.fs_discriminator_partial",
    "Verif.Elf.address_of_name",
    "Verif.Elf.exSyms_of",
    "Verif.Elf.exDyn_of",
    "Verif.Elf.exShort",
    "Verif.Elf.exFile_symbols",
    "Verif.Elf.exFile_symbols_spec",
    "Verif.Elf.exFile_function",
    "Verif.Elf.address_of_name_ex",
    "Verif.Elf.short_name_violated",
    "Verif.Elf.shared_name_violated",
    "Verif.Elf.big_symtab_violated"
   ],
   "note": "Partial: names of less than four bytes must not be at the very start of the string table or the end of another name (ShortOk), because the code compares from four bytes before the end of the name (witnesses); symbol tables below 4 GiB."
  },
  {
   "property": "C68",
   "status": "proved",
   "theorems": [
    "Verif.Elf.exec_segments",
    "Verif.Elf.module_segment",
    "Verif.Elf.exec_addresses",
    "Verif.Elf.noteIds_ok",
    "Verif.Elf.build_id_read",
    "Verif.Elf.exFile_segments",
    "Verif.Elf.exFile_notes",
    "Verif.Elf.exFile_build_id",
    "Verif.Elf.long_build_id_ignored"
   ],
   "note": "For note sections whose notes are within the section. A build id of more than 20 bytes is ignored (witness)."
  },
  {
   "property": "C69",
   "status": "proved",
   "theorems": [
    "Verif.Compute.alias_profile",
    "Verif.Compute.alias_total",
    "Verif.Compute.alias_elide",
    "Verif.Compute.exAlias_ok",
    "Verif.Compute.alias_collision_violated",
    "Verif.Compute.alias_suffix_violated"
   ],
   "note": "Needs that no name stands for two functions (AliasOk): witnesses show that otherwise, or if an alias has a suffix that is elided to the name of another function, the samples of two functions are mixed."
  },
  {
   "property": "C70",
   "status": "proved",
   "theorems": [
    "Verif.Pipeline.create_profile",
    "Verif.Pipeline.create_bad_text",
    "Verif.Pipeline.exS_covered",
    "Verif.Pipeline.exS_ok",
    "Verif.Pipeline.exProgram_created"
   ],
   "note": "--profiler=text, DWARF 2-4 debugging information in the file itself (build without LLVM), no llc_misses mode; the hypotheses are collected in Program and Covers; exProgram is an instance."
  },
  {
   "property": "C71",
   "status": "proved",
   "theorems": [
    "Verif.SymbolMap.working_sets",
    "Verif.SymbolMap.working_sets_empty",
    "Verif.SymbolMap.working_sets_mono",
    "Verif.SymbolMap.working_set_merge",
    "Verif.SymbolMap.exWs_sets",
    "Verif.SymbolMap.exWs_hyps",
    "Verif.SymbolMap.working_set_elided_violated",
    "Verif.SymbolMap.working_set_merge_order_violated",
    "Verif.SymbolMap.working_set_merge_big_violated"
   ],
   "note": "Over the symbols recorded; the witnesses show what happens after suffixes are elided, that merging depends on the order, and wraps around from 2^31 instructions."
  },
  {
   "property": "C72",
   "status": "proved",
   "theorems": [
    "Verif.SymList.names_in_profile",
    "Verif.SymList.fill_list",
    "Verif.SymList.fill_list_all",
    "Verif.SymList.symbol_list",
    "Verif.SymList.exMap_names",
    "Verif.SymList.exList",
    "Verif.SymList.symbol_list_suffix_violated",
    "Verif.FloatUses.fillList64_eq",
    "Verif.FloatUses.threshold_bounds",
    "Verif.FloatUses.ex_fillList64",
    "Verif.FloatUses.size_violated"
   ],
   "note": "Disjointness needs that no suffix is elided: witness. The ratio is a fraction num/den; FloatUses reduces the rounded product to it. With the rounding of the double product."
  },
  {
   "property": "C73",
   "status": "proved",
   "theorems": [
    "Verif.Diff.compare_lists",
    "Verif.Diff.compare_hot",
    "Verif.Diff.compare_sorted",
    "Verif.Diff.exD_rows",
    "Verif.Diff.compare_missing_violated"
   ],
   "note": "A row has the two counts; the percentages printed are not modelled. The witness shows the functions missing from the comparison."
  },
  {
   "property": "C74",
   "status": "proved",
   "theorems": [
    "Verif.Propeller.computeProfile_ok",
    "Verif.Propeller.faithful",
    "Verif.Propeller.selected",
    "Verif.Propeller.clusterFile_ok",
    "Verif.Propeller.cluster_file",
    "Verif.Propeller.samples_counts",
    "Verif.Propeller.buildGraph_spec",
    "Verif.Propeller.graph_ok",
    "Verif.Propeller.section_ok",
    "Verif.Propeller.example_ok"
   ],
   "note": "Counts and weights are unbounded integers (int in the code); the two quotients compared with thresholds are arbitrary predicates of the numbers divided; path profiles, clones and verbose output are not modelled."
  },
  {
   "property": "C75",
   "status": "proved",
   "theorems": [
    "Verif.Prefetch.create_prefetch",
    "Verif.Prefetch.convert_hints",
    "Verif.Prefetch.read_hints",
    "Verif.Prefetch.HintProfile.all",
    "Verif.Prefetch.HintProfile.written",
    "Verif.Prefetch.delta_recovered",
    "Verif.Prefetch.missing_file",
    "Verif.Prefetch.exPrefetch_created",
    "Verif.Prefetch.exHints_fit",
    "Verif.Prefetch.first_hint_violated",
    "Verif.Prefetch.same_line_violated",
    "Verif.Prefetch.many_hints_violated",
    "Verif.Prefetch.dot_violated",
    "Verif.Prefetch.elided_violated",
    "Verif.Prefetch.long_type_violated"
   ],
   "note": "The witnesses show how hints are lost when a condition is not met: first hint of a function without debug information (all hints of the function are dropped by the writer), two instructions on one line, the 257th hint, a type with a dot, two parts of a function, a type of five characters (buffer overflow); and a missing file gives an empty profile. The writer is that of C07."
  },
  {
   "property": "C76",
   "status": "proved",
   "theorems": [
    "Verif.Merger.merge_gcov",
    "Verif.Merger.merge_gcov_order",
    "Verif.Merger.merge_gcov_missing",
    "Verif.Merger.profile_fits",
    "Verif.Merger.read_inputs",
    "Verif.Merger.sample_ok",
    "Verif.Merger.staged_merge_loses",
    "Verif.Merger.merge_targets_violated",
    "Verif.Merger.merge_version_violated"
   ],
   "note": "Not too large: the bytes of all inputs together below 2^32 and the sums of the counts below 2^64. File names of functions are not modelled: the tables of the output are arbitrary tables that fit. The witnesses show that merging in stages loses functions, that target counts do not add up, and that an old last input discards timestamps and summary."
  },
  {
   "property": "C77",
   "status": "proved",
   "theorems": [
    "Verif.MergerLlvm.merge_llvm",
    "Verif.MergerLlvm.merge_llvm_within",
    "Verif.MergerLlvm.merge_llvm_sums",
    "Verif.MergerLlvm.merge_llvm_missing",
    "Verif.MergerLlvm.writeProfiles_iff",
    "Verif.MergerLlvm.sums_fit",
    "Verif.MergerLlvm.exFile_ok",
    "Verif.MergerLlvm.exMerge_ok",
    "Verif.MergerLlvm.exMerge_result",
    "Verif.MergerLlvm.exMerge_limits",
    "Verif.MergerLlvm.exMerge_error",
    "Verif.MergerLlvm.removed_function_written",
    "Verif.MergerLlvm.limited_function_lost"
   ],
   "note": "The contents with limits are stated through the models of flattening (facts of C55 included), throttling (C13) and trimming (C14). The witnesses show that removed functions can come back with a wrapped total and that a limit can remove functions."
  },
  {
   "property": "C78",
   "status": "partial",
   "theorems": [
    "Verif.PerfRead.read_file",
    "Verif.PerfRead.append_files_partial",
    "Verif.PerfRead.merge_perf_files",
    "Verif.PerfRead.recorded_sound",
    "Verif.PerfRead.append_bad",
    "Verif.PerfRead.mem_focusBins",
    "Verif.PerfRead.focusBins_empty",
    "Verif.PerfRead.exFile_read",
    "Verif.PerfRead.exKernel",
    "Verif.PerfRead.exFiles_compatible",
    "Verif.PerfRead.append_stale_cache_violated"
   ],
   "note": "One file, and several files each with its own reader, in full. Several Appends on one reader need that no freed pointer is used for another binary; the witness shows that the claim is false without it."
  },
  {
   "property": "C79",
   "status": "partial",
   "theorems": [
    "Verif.Stamp.stamp_exact",
    "Verif.Stamp.first_mem",
    "Verif.Stamp.stamp_earliest_partial",
    "Verif.Stamp.stamps_written",
    "Verif.Stamp.exBin_stamp",
    "Verif.Stamp.stamp_earliest_violated",
    "Verif.Stamp.stamp_suffix_violated"
   ],
   "note": "The exact behaviour is proved: the first nonzero time in the order of addresses, lost by elision. It is the earliest one only if the times ascend with the addresses; witnesses refute the full claim."
  },
  {
   "property": "C80",
   "status": "partial",
   "theorems": [
    "Verif.SpeSimple.findMMap_some",
    "Verif.SpeSimple.findMMap_none",
    "Verif.SpeSimple.read_spec",
    "Verif.SpeSimple.append_spec",
    "Verif.SpeSimple.total_count_partial",
    "Verif.SpeSimple.ex_arm",
    "Verif.SpeSimple.ex_read",
    "Verif.SpeSimple.total_count_violated",
    "Verif.SpeSimple.second_mapping_violated"
   ],
   "note": "Counts, failure and appending in full for the first mapping. The total count and further mappings are refuted by witnesses; total_count_partial says what the total is."
  },
  {
   "property": "C81",
   "status": "proved",
   "theorems": [
    "Verif.Dwp.find_package",
    "Verif.Dwp.find_package1",
    "Verif.Dwp.find_version",
    "Verif.Dwp.walk_at",
    "Verif.Dwp.walk_stop",
    "Verif.Dwp.slot_surj",
    "Verif.Dwp.lookup_slot",
    "Verif.Dwp.exPackage_holds",
    "Verif.Dwp.exPackage_find",
    "Verif.Dwp.exPackage1_holds",
    "Verif.Dwp.full_violated"
   ],
   "note": "Tables with a free slot, which the format requires in effect; the witness shows that without one the lookup of a missing unit does not end. Indices that violate the format (wrong counts) can be read outside their bounds and are not covered."
  },
  {
   "property": "C82",
   "status": "proved",
   "theorems": [
    "Verif.MapperSyms.names_spec",
    "Verif.MapperSyms.first_exists",
    "Verif.MapperSyms.readBinary_spec",
    "Verif.MapperSyms.selected_named",
    "Verif.MapperSyms.table_exact",
    "Verif.MapperSyms.storedSection_text",
    "Verif.MapperSyms.exSyms_info"
   ],
   "note": ""
  },
  {
   "property": "C83",
   "status": "proved",
   "theorems": [
    "Verif.Sampled.sampledSymbols_exact",
    "Verif.Sampled.sampled_included",
    "Verif.Sampled.sampled_exact",
    "Verif.Sampled.sampledAddrs_spec",
    "Verif.Sampled.ex_holds",
    "Verif.Sampled.gap_violated",
    "Verif.Sampled.order_violated"
   ],
   "note": "For segments in order; the witnesses show what happens otherwise."
  },
  {
   "property": "C84",
   "status": "proved",
   "theorems": [
    "Verif.Validate.validate_spec",
    "Verif.Validate.walk_spec",
    "Verif.Validate.tooFew_bound",
    "Verif.Validate.rnd24_error",
    "Verif.Validate.sumTotal_eq",
    "Verif.Validate.inlineStack_iff",
    "Verif.Validate.exSym_valid",
    "Verif.Validate.wrap_violated"
   ],
   "note": ""
  },
  {
   "property": "C85",
   "status": "proved",
   "theorems": [
    "Verif.Validate.entryCount_spec",
    "Verif.Validate.entry_unique",
    "Verif.Validate.exSym_valid",
    "Verif.Validate.order_violated"
   ],
   "note": ""
  },
  {
   "property": "C86",
   "status": "proved",
   "theorems": [
    "Verif.SpeReader.s64_spec",
    "Verif.SpeReader.append_spec",
    "Verif.SpeReader.sampling_spec",
    "Verif.SpeReader.mkReader_spec",
    "Verif.SpeReader.no_match_fails",
    "Verif.SpeReader.ex_append",
    "Verif.SpeReader.ex_stop_violated"
   ],
   "note": "Ranges for targets aligned to instructions; a stop at an address outside of the segments is the third outcome."
  },
  {
   "property": "C87",
   "status": "proved",
   "theorems": [
    "Verif.BinContent.modinfo_exact",
    "Verif.BinContent.content_exact",
    "Verif.BinContent.content_unreadable",
    "Verif.BinContent.buildId_spec",
    "Verif.BinContent.buildId_correct",
    "Verif.BinContent.hex_spec",
    "Verif.BinContent.findText_iff",
    "Verif.BinContent.execSegs_eq",
    "Verif.BinContent.ex_modinfo",
    "Verif.BinContent.ex_module",
    "Verif.BinContent.ex_exec",
    "Verif.BinContent.note_type_violated",
    "Verif.BinContent.text_size_violated",
    "Verif.BinContent.first_exec_violated"
   ],
   "note": ""
  },
  {
   "property": "C88",
   "status": "proved",
   "theorems": [
    "Verif.CfgOps.reach_ok",
    "Verif.CfgOps.getNode_iff",
    "Verif.CfgOps.allClones_spec",
    "Verif.CfgOps.id_unique",
    "Verif.CfgOps.clonePath_spec",
    "Verif.CfgOps.createOrUpdate_spec",
    "Verif.CfgOps.decrement_spec",
    "Verif.CfgOps.cloneCfg_spec",
    "Verif.CfgOps.frequency_spec",
    "Verif.CfgOps.frequency_zero",
    "Verif.CfgOps.hotJoin_spec",
    "Verif.CfgOps.freqStats_spec",
    "Verif.CfgOps.ex_holds",
    "Verif.CfgOps.ex_reach",
    "Verif.CfgOps.kinds_violated",
    "Verif.CfgOps.copy_paths_violated",
    "Verif.CfgOps.order_violated"
   ],
   "note": ""
  },
  {
   "property": "C89",
   "status": "partial",
   "theorems": [
    "Verif.PropCli.plan_refuses_iff",
    "Verif.PropCli.plan_spec",
    "Verif.PropCli.inputs_semicolon",
    "Verif.PropCli.inputs_file",
    "Verif.PropCli.profileType_iff",
    "Verif.PropCli.dispatch_iff",
    "Verif.PropCli.computerFiles_iff",
    "Verif.PropCli.api_names",
    "Verif.PropCli.cli_partial",
    "Verif.PropCli.spe_type_violated",
    "Verif.PropCli.ignore_build_id_violated",
    "Verif.PropCli.ex_plan",
    "Verif.PropCli.ex_hyps"
   ],
   "note": "the API part is complete; on the command line the two refuted cases are missing"
  },
  {
   "property": "C90",
   "status": "proved",
   "theorems": [
    "Verif.PropFiles.disassembleOne_iff",
    "Verif.PropFiles.checkLbr_spec",
    "Verif.PropFiles.provider_error",
    "Verif.PropFiles.lbr_fails_iff",
    "Verif.PropFiles.lbr_spec",
    "Verif.PropFiles.freq_spec",
    "Verif.PropFiles.skipped",
    "Verif.PropFiles.section_end_violated",
    "Verif.PropFiles.stats_reused_violated",
    "Verif.PropFiles.ex_lbr",
    "Verif.PropFiles.ex_lbr_ok"
   ],
   "note": ""
  },
  {
   "property": "C91",
   "status": "proved",
   "theorems": [
    "Verif.PropRun.run_spec",
    "Verif.PropRun.config_spec",
    "Verif.PropRun.files_kept",
    "Verif.PropRun.cluster_of",
    "Verif.PropRun.dispatch_cases",
    "Verif.PropRun.lbr_sampled",
    "Verif.PropRun.spe_sampled",
    "Verif.PropRun.unwritable",
    "Verif.PropRun.version_crash",
    "Verif.PropRun.unwritable_violated",
    "Verif.PropRun.version_violated",
    "Verif.PropRun.ex_run",
    "Verif.PropRun.ex_good",
    "Verif.PropRun.ex_data"
   ],
   "note": ""
  },
  {
   "property": "C92",
   "status": "proved",
   "theorems": [
    "Verif.CfgProto.read_iff",
    "Verif.CfgProto.write_iff",
    "Verif.CfgProto.round_trip",
    "Verif.CfgProto.reread_edges",
    "Verif.CfgProto.valid_written",
    "Verif.CfgProto.int_trip",
    "Verif.CfgProto.ex_trip",
    "Verif.CfgProto.ex_wf",
    "Verif.CfgProto.fallthrough_violated",
    "Verif.CfgProto.calls_violated",
    "Verif.CfgProto.ids_violated",
    "Verif.CfgProto.clones_violated"
   ],
   "note": ""
  },
  {
   "property": "C93",
   "status": "proved",
   "theorems": [
    "Verif.LlvmLine.stack_empty",
    "Verif.LlvmLine.stack_spec",
    "Verif.LlvmLine.section_spec",
    "Verif.LlvmLine.context_iff",
    "Verif.LlvmLine.unitName_spec",
    "Verif.LlvmLine.ex_small",
    "Verif.LlvmLine.ex_stack",
    "Verif.LlvmLine.ex_section",
    "Verif.LlvmLine.dir_violated",
    "Verif.LlvmLine.offset_violated"
   ],
   "note": ""
  },
  {
   "property": "C94",
   "status": "proved",
   "theorems": [
    "Verif.CreateGcov.create_gcov",
    "Verif.CreateGcov.create_gcov_prefetch",
    "Verif.CreateGcov.create_gcov_fails",
    "Verif.CreateGcov.read_sample",
    "Verif.CreateGcov.selected",
    "Verif.CreateGcov.cut_name",
    "Verif.CreateGcov.written_file",
    "Verif.CreateGcov.summary_spec",
    "Verif.CreateGcov.ex_run",
    "Verif.CreateGcov.ex_fits",
    "Verif.CreateGcov.ex_written",
    "Verif.CreateGcov.dot_violated",
    "Verif.CreateGcov.unstripped_violated"
   ],
   "note": "Under Fits (what C07 needs) for the contents of the file; without LLVM."
  },
  {
   "property": "C95",
   "status": "proved",
   "theorems": [
    "Verif.CreateLlvm.create_llvm",
    "Verif.CreateLlvm.create_llvm_prefetch",
    "Verif.CreateLlvm.create_llvm_fails",
    "Verif.CreateLlvm.create_llvm_propeller",
    "Verif.CreateLlvm.read_sample",
    "Verif.CreateLlvm.bin_spec",
    "Verif.CreateLlvm.write_spec",
    "Verif.CreateLlvm.missing_hints_violated",
    "Verif.CreateLlvm.ex_run",
    "Verif.CreateLlvm.ex_fits",
    "Verif.CreateLlvm.ex_written",
    "Verif.CreateLlvm.ex_discr",
    "Verif.CreateLlvm.ex_small",
    "Verif.CreateLlvm.ex_usage"
   ],
   "note": "Under Fits (counts below 2^64, lines below 2^16) for the contents; Debug.Small of C93."
  },
  {
   "property": "C96",
   "status": "proved",
   "theorems": [
    "Verif.SampleMerger.sample_merger",
    "Verif.SampleMerger.inputs_spec",
    "Verif.SampleMerger.sample_merger_fails",
    "Verif.SampleMerger.sample_merger_order",
    "Verif.SampleMerger.sample_merger_twice",
    "Verif.SampleMerger.full_disk_violated",
    "Verif.SampleMerger.overflow_violated",
    "Verif.SampleMerger.readSample_ok",
    "Verif.SampleMerger.isMerge_unique",
    "Verif.SampleMerger.ex_fits",
    "Verif.SampleMerger.ex_before",
    "Verif.SampleMerger.ex_read",
    "Verif.SampleMerger.ex_run"
   ],
   "note": "Under Room (the device takes the text); see full_disk_violated."
  },
  {
   "property": "C97",
   "status": "proved",
   "theorems": [
    "Verif.TwoLevel.two_level",
    "Verif.TwoLevel.stack_unique",
    "Verif.TwoLevel.lookup_spec",
    "Verif.TwoLevel.addStack_spec",
    "Verif.TwoLevel.cycle_violated",
    "Verif.TwoLevel.missing_context_violated",
    "Verif.TwoLevel.bad_subprogram_violated",
    "Verif.TwoLevel.ex_ok",
    "Verif.TwoLevel.ex_lookup"
   ],
   "note": "For tables whose numbers exist and whose contexts are earlier rows; the other cases are the violations."
  },
  {
   "property": "C98",
   "status": "proved",
   "theorems": [
    "Verif.TwoLevelUnit.section_stacks",
    "Verif.TwoLevelUnit.unit_decoded",
    "Verif.TwoLevelUnit.lunit_ok",
    "Verif.TwoLevelUnit.exUnit2_ok",
    "Verif.TwoLevelUnit.exUnit2_enc",
    "Verif.TwoLevelUnit.ex_section",
    "Verif.TwoLevelUnit.forward_context_violated",
    "Verif.TwoLevelUnit.end_lost_violated",
    "Verif.TwoLevelProg.programs_decoded",
    "Verif.TwoLevelProg.readLogs_spec",
    "Verif.TwoLevelProg.readActs_spec"
   ],
   "note": "For well-formed units; the violations are outside of it."
  },
  {
   "property": "C99",
   "status": "proved",
   "theorems": [
    "Verif.Dump.listing",
    "Verif.Dump.listing_eq_iff",
    "Verif.Dump.dump_written",
    "Verif.Dump.ex_text",
    "Verif.Dump.ex_fits",
    "Verif.Dump.ex_written",
    "Verif.Dump.colon_violated",
    "Verif.Dump.line_violated",
    "Verif.Dump.empty_unlisted"
   ],
   "note": "For printable names; the violations are outside of it. Demangling off."
  }
 ]
}