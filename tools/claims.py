c("C01","proved","Sample","text_profile_roundtrip readText_writeText")
c("C02","proved","Sample","merge_sample_sums merge_sample_order merge_assoc append_file_eq_merge merge_sample_count")
c("C03","proved","Sample","total_count_correct total_count_exact covered_bytes_merge total_sample_count")
c("C04","partial","Lbr","append_counts ranges_sound branches_sound clean_stack_exact_partial branches_exact_violated range_ends_real_violated",
  "code drops the branch count of an entry whose range is bogus, and uses a wrong-path entry's source as a range end (both proved on witnesses); exactness proved for stacks without wrong-path/bogus entries")
c("C05","proved","Gcov","gcov_roundtrip gcov_long_string_aborts")
c("C06","proved","Gcov","buffered_read_refines buffered_run_eq buffered_open_eq reads_after_eof_are_zero")
c("C10","partial","SourceOffset","discriminator_roundtrip generateOffset_injective line_roundtrip_partial line_roundtrip_violated compressed_roundtrip compressed_roundtrip_violated",
  "holds exactly for fields < 2^16; counterexamples beyond")
c("C11","proved","SymbolMap","merge_adds merge_comm_counts mergeAll_adds mergeAll_perm")
c("C12","partial","SymbolMap","original_name_sublist original_name_of_no_dot original_name_all original_name_idem_partial original_name_selected_violated elide_conserves elide_exact",
  "conservation proved for all maps; under the `selected` policy a repeated suffix is only removed once, so names need not be stable base names (witness)")
c("C13","proved","SymbolMap","throttle_spec throttle_consistent throttle_idem throttle_negative")
c("C14","proved","SymbolMap","trim_spec trimTargets_spec trim_negative")
c("C15","partial","SymbolMap","add_source_count_partial add_source_count_empty add_all_sources_partial add_source_count_violated",
  "proved for stacks whose frames all carry line info (always when reading profiles); with an invalid enclosing frame the code attributes the innermost location to the enclosing function (witness)")
c("C16","partial","SymbolMap","indirect_target_partial indirect_target_accumulates_violated",
  "the code assigns instead of accumulating (witness); exact last-write semantics proved")
c("C07","partial","Afdo","afdo_roundtrip_partial afdo_roundtrip_totals afdo_roundtrip_violated",
  "proved for all trees, versions and policies; excluded: names with the suffixes D4Ev/C4Ev/C4EPKc/... that the writer rewrites (witness: two functions collapse and samples are lost), target names changed by the reader's elision policy, and what the format does not store (entry counts and location-free inline instances, instruction counts)")
c("C08","proved","Afdo","string_table_spec writer_total","indices, order, completeness; the writer never fails a lookup when functions and callees are named")
c("C09","partial","Afdo","function_length_partial function_length_short function_length_violated",
  "holds for versions < 3; from version 3 on the word is exactly 2 words per function too small")
c("C46","partial","Afdo","afdo_merge_adds_partial afdo_merge_targets_violated",
  "entry counts, location counts and totals add; indirect-call target counts are replaced (witness)")
c("C18","partial","Threshold","emitted_iff emitted_above_fraction emit_monotone_partial emit_monotone_needs_bound ignore_has_no_effect ignore_thresholds_violated",
  "monotone for fractions <= 1 (counterexample otherwise); the ignore-thresholds switch is stored but never read by the code (witness)")
c("C19","proved","AddrLookup","symbol_lookup_iff symbol_lookup_none symbol_lookup_overlap_misses")
c("C20","partial","AddrLookup","translations_inverse_partial offset_vaddr_offset translations_inverse_violated",
  "inverse when segments overlap neither in file offsets nor in addresses; witness otherwise")
c("C34","partial","Scorer","score_value score_bounds fallthrough_is_best_partial score_antitone fallthrough_is_best_violated",
  "bounds and monotone decay for all inputs; the int*uint32 products wrap, so a fallthrough can score lower than a branch (witness)")
c("C35","proved","Percentile","threshold_rank threshold_monotone threshold_rejects")
c("C36","proved","Lazy","lazy_once lazy_unused lazy_const")
c("C37","partial","Progress","progress_in_range done_iff_all multi_done_iff done_progress progress_monotone done_monotone progress_100_iff_done set_done_completes weighted_mean_partial weighted_mean_violated",
  "range, completion and monotonicity proved for all nestings; the weighted mean only holds for jobs run in order (witness otherwise)")
c("C43","proved","FileProvider","delivers_in_order delivers_all end_is_final error_retries")
c("C47","partial","FileProvider","getAll_complete_partial getAll_terminates getAll_complete_violated",
  "a successful bulk call returns everything; after a read error the files read earlier in that call are lost (witness)")
c("C21","proved","Summary","summary_totals detailed_summary detailed_monotone asserts_hold maxDesired_sorted defaultCutoffs_ok")
c("C45","partial","Overlap","overlap_spec_partial overlap_range overlap_comm overlap_self overlap_one_iff overlap_zero_iff",
  "all parts proved for exact arithmetic.")
c("C39","proved","ByteReader","uleb_decode uleb_roundtrip sleb_decode sleb_roundtrip fixed_roundtrip initial_length_roundtrip uleb_overlong_undefined")
c("C40","partial","Ranges","v4_range_list v5_range_list v5_meaning_partial v5_meaning_violated",
  "pre-v5 lists fully; v5 lists when the absolute entries occur under base 0; otherwise the code adds the base (witness)")
c("C41","partial","SpePid","pid_resolution_partial pid_without_context pid_resolution_out_of_order_violated pid_resolution_tie_violated convert_exact convert_short convert_monotone",
  "resolution proved for histories in time order per thread with agreeing ties; witnesses show what the code does otherwise; conversion exact and monotone while 64 bits suffice")
c("C42","proved","SpeRanges","synthesize_ok synthesize_complete rangeCounts_spec","Simple reader. Without the alignment hypothesis the claim is false: SpeRanges.synthesize_wraps_violated.")
c("C42","proved","SpeFreq","toRanges_ok toRanges_complete toBranches_get0","Branch-frequency reader. Without the alignment hypothesis reversed ranges appear: SpeFreq.toRanges_reversed_violated.")
c("C25","proved","Mapper","find_covers find_none_iff find_from find_to build_ordered","ordering of the handles is derived from a well laid out binary (functions and blocks sorted, no overlap); DCHECKs not modelled")
c("C26","proved","InferFT","canFallThrough_iff infer_sound infer_map_sound infer_exact computeWeights_sums computeWeights_actual")
c("C48","proved","MapperSelect","select_spec filterDup_distinct filterDup_keeps filterDup_keeps_first hotFunctions_iff")
c("C38","proved","RangeMap","insertRange_spec insertRange_accepts find_spec history_nonoverlapping","Insertions with low <= high; with low > high the map is corrupted (RangeMap.insert_reversed_violated), and some partially overlapping ranges are silently accepted instead of failing the CHECK promised in the documentation (RangeMap.insert_partial_overlap_violated).")
c("C22","proved","PerfMMap","select_ok select_none_iff clash_iff_overlap","Mappings whose end is below 2^64; a mapping that reaches the end of the address space escapes the overlap test (PerfMMap.select_wrap_violated).")
c("C23","proved","PerfMMap","goodMaps_of_select toBinary_unmapped toBinary_nonpie toBinary_pie toBinary_difference toBinary_kernel","Across differently relocated segments differences are not preserved (PerfMMap.toBinary_two_segments_violated).")
c("C24","proved","PerfAgg","aggregateLBR_spec aggregateAll_spec aggregateAll_order counts_perm aggregateSpe_spec numBranches_exact","Counters are unbounded naturals. Runs ending at an unknown address are counted up to the invalid address (PerfAgg.aggregate_invalid_end_violated); the reported total overflows an int (PerfAgg.numBranches_violated).")
c("C49","proved","MMapSelector","toHex_injective buildIdNames_spec buildIdNames_none choose_name choose_build_id","POSIX paths, without '//net' root names. Mixed absolute and relative build-id names depend on hash order (MMapSelector.mk_order_violated).")
c("C27","proved","CfgBuild","addEdges_spec createEdges_spec createEdges_weight createEdges_exists createEdges_perm classify_kinds nodeFreq_spec nodeFreq_pos kept_closed createEdges_example","Builder without an initial program; with one, a repeated branch fails the duplicate check (CfgBuild.rebuild_violated). The kind of an edge depends on hash order (CfgBuild.kind_order_violated). The two error-status thresholds and statistics are not modelled; weights are unbounded.")
c("C28","proved","ForcedPath","forcedEdges_spec breakCycles_spec forcedPaths_spec forcedPaths_example","Nodes of one CFG are an arbitrary linearly ordered type with a block index; termination is proved as: the fuel of the model's loops is never used up.")
c("C29","proved","Chain","chains_partition merges_spec mergeNodes_spec initChains_spec forced_nodes addChains_spec","No initial chains from the configuration.")
c("C25","proved","Mapper","build_isSome_iff","")
c("C48","proved","MapperSelect","filterDup_iff","")
c("C22","proved","PerfMMap","toEntry_iff","")
c("C29","proved","Chain","merged_order mem_wanted","")
c("C30","proved","Chain","predicted_gain scoreGain_exact edgeDist_spec inSlice_iff findSlice_spec initEdges_ok init_good built_good merge_ok predicted_gain_violated_initial_chains","Exact rational scores in place of doubles. A splitting order whose result is reported as 0 because the inter-chain score is not positive is never merged by the builder. With initial chains from the configuration the property fails: predicted_gain_violated_initial_chains.")
c("C29","proved","Chain","buildChains_ok sub_ok","")
c("C31","proved","Chain","entry_first build_ok coalesce_ok entry_merged entry_first_violated","Exact rational scores in place of doubles. The exception in the statement is real: entry_first_violated.")
c("C50","proved","Chain","buildChains_ok no_better_concatenation build_ok buildLoop_ok coalesce_ok mergeAsm_ok buildAsm_ok getEdgeScore_nonneg","Exact rational scores in place of doubles.")
c("C51","proved","Chain","queues_agree best_spec best_perm asmKey_inj","")
c("C32","proved","Cluster","buildClusters_ok mergeWithBest_spec buildClusters_perm inspectEdge_spec bestPred_spec buildClusters_violated","Exact rational densities in place of doubles, unbounded integers. The hypothesis that chains begin with entry blocks is what the tool CHECKs; buildClusters_violated: the exception of C31 makes that check fail.")
c("C33","proved","Layout","emit_ok layout_indices layout_order layout_once layout_entry layout_cold layout_byId orderAll_ok allChains_ok layoutAddrs_ok symbolOrder_ok coldOrder_ok coldSymbols_ok ldSymbols_nodup Runs.unique","Exact rational scores; block sizes and addresses are unbounded (the code keeps them in int). orderAll_ok carries the hypotheses of C50 and, where the tool CHECKs it, that each function's layout can begin with its entry block.")
c("C52","proved","Layout","readCc_ccText","The reader is a specification of the file format (the real one is the compiler's).")
c("C17","partial","Scc","inclusive_counts_partial inclusive_counts_acyclic_partial inclusive_counts_violated findScc_ok topoSort_ok collapse_ok","for every graph and hash order: groups are sound, and the computation succeeds exactly if they are also complete, with the specified counts; it always succeeds without mutual recursion. With mutual recursion of four functions it can stop (witness), because the DFS index is passed by value. The theorems hold for any cost function; FloatUses has the rounded one of the code.")
c("C44","proved","SymbolMap","buildFlat_ok buildFlat_selective flatCount_eq entry_est Entry.unique flatOf_obs","Unbounded counts.")
c("C53","proved","Compute","compute_profile aggregate_spec computeOrder_history compute_profile_duplicate_names_violated","Unbounded counts; aliases, timestamps and the llc_misses mode are not modelled. Distinct names are a hypothesis: with two functions of the same name the samples of one are lost (witness). Followed by ElideSuffixesAndMerge (C12).")
c("C15","partial","SymbolMap","op_effect src_effect runOps_history usedPath_eq_callPath","the exact effect for every stack, also without line information, and of every history of updates")
c("C16","partial","SymbolMap","target_effect","exact effect for every stack")
c("C34","partial","Chain","chain_score_eq","the chain builder uses these scores")
c("C54","proved","SymbolMap","hybrid_profile hybrid_inlined_hot mem_places hybridEx_ok hybrid_total_counted_twice_violated hybrid_call_count_lost_violated","Unbounded counts. The witnesses show that the caller keeps the totals of calls moved out of it, and that entry counts of callees are not estimated.")
c("C56","proved","SymbolMap","readTop_effect read_profiles writeProfiles_eq llvm_round_trip llvm_round_trip_exact llvmEx_ok llvm_merge_targets_violated llvm_merge_order_violated llvm_long_lines_violated","The file formats belong to LLVM and are not modelled; sums are unbounded when reading. Call targets of the last profile read replace earlier ones, and the total of a function without counts depends on the order (witnesses).")
c("C57","proved","SymbolMap","read_special read_special_ex","")
c("C55","proved","SymbolMap","flatten_nested flatten_nested_within flatten_nested_totals flatten_into exNested_ok exNested_two exNested_one exNested_four flatten_nested_recursion_violated","Counts are unbounded and totals modulo 2^64. The violated witness shows that totals do not add up when a function is inlined into itself.")
c("C58","partial","DwarfLine","section_decoded unit_decoded lines_decoded unit5_decoded_partial exUnit_ok exUnit_enc exUnit_decoded exU5_ok exU5_enc header_length_ignored_violated unterminated_sequence_violated max_ops_ignored_violated unit5_numbering_violated unit5_md5_violated","versions 2 to 4 in full. Version 5 is partial: directories and files are numbered from 1 instead of 0, and an MD5 column makes the unit unreadable (witnesses). Other witnesses: the header length is ignored, so are operation indices of VLIW machines, and a program without end_sequence reads on into the next unit. Two-level line tables: C98.")
c("C59","proved","LineMap","address_to_line ans_sequences found_iff lookup_iff lookup_defined address_to_line_ex ex_described ex_described_dead ex_disj adjacent_sequence_violated unit5_file_violated","The section is read directly (the tool does so without .debug_info; with it, units are read in the order of .debug_info). Witnesses: the lost first row when a sequence read later ends where one starts; wrong file names for version 5.")
c("C60","proved","Inline","kept_disjoint kept_parent clean_kept kept_single expand_spec exSubs_parents exSubs_single exSubs_bad exClean_clean split_function_lost_violated nested_function_lost_violated","Witnesses: with functions split into several ranges a good description can be lost, and so are nested functions that are not within their parent.")
c("C61","proved","Inline","inline_stack lookup_innermost declLoop_iff decl_total sortAndMerge_spec sortAndMerge_own singleton_range singleton_range_offset exInfo_tidy exInfo_refs exInfo_ok exStack sortAndMerge_ex overlapping_siblings_violated reversed_range_violated no_call_file_violated circular_references_violated name_lost_violated high_before_low_violated low_without_high_violated","The debug information is given as the list of subprograms. Witnesses: overlapping calls or a low address without a high address stop the program, an inlined call without call file uses a null pointer, circular references do not end.")
c("C62","partial","DwarfInfo","info_decoded_partial readUnit_ok dies_unit dies_forest abbrevs_ok readHeader_ok formVal_ok skipForm_ok exInfo_decoded recorder_wants exUnits_at str_by_number addr_by_number by_number_ex abbrev_codes_violated implicit_const_violated addrx_violated addrx2_violated forms_violated data16_violated unclosed_violated table_format_violated","Proved for the forms in AttrEnc: all of DWARF 2-4 and those of DWARF 5 that are read right, consecutive abbreviation codes. Missing, because false: the other DWARF 5 forms and abbreviation tables with gaps; each has a witness. Split DWARF is not modelled.")
c("C63","proved","InlineHandler","subprograms_decoded parents parents_later inline_stacks_decoded marks_iff fn_cell report_cu unit_walk section_walk hx_desc hxUnits_at hxInfo_ok hx_decoded ref_forms_violated call_line_forms_violated decl_line_const_violated unit_rnglistx_violated comp_dir_violated nested_code_violated","For the forms and the shape of units named in the statement; what happens with others is in the witnesses: other reference or call line forms and unit ranges by number stop the program, a signed declaration line is ignored, a unit without compilation directory takes over that of an earlier one, and code nested in a function without code is lost. Range lists and line tables are parameters here (C40, C58, C64).")
c("C64","proved","RngLists","headers_read list_by_number list_by_offset5 list_by_offset4 readHeader_ok readHeaders_ok exC_ok ex_by_number empty_table_violated number_without_array_violated","The meaning of a list of DWARF 5 is codeMeaning5, whose departure from the standard is in C40. Witnesses: a last table without lists stops the program; a number with a table without offsets reads the list at the base.")
c("C65","proved","Addr2Line","binary_stacks lines_only line_at ranges4_at ranges5_at ranges5_number exB_stack exB_lines offset_list_addr_base_violated","The sections are read from the bytes of the ELF file (file_stacks). Line tables before DWARF 5 (C58). Witness: in a DWARF 5 list by offset, addresses by number ignore the base the unit gives.")
c("C65","proved","Elf","file_stacks exFile_debug exFile_stack","")
c("C66","proved","Elf","section_by_name section_info_by_name segments_read first_load_vaddr dso not_elf sections_of_file not_debug_stripped not_stripped stripped_not_elf namesMatch_iff exFile_elf exFile_debug exFile_not_stripped empty_section_fatal no_sections_null many_segments_violated zdebug_violated","Sections that can be mapped: an empty section at a page boundary is fatal (witness). The contents of compressed sections are given as they are. Witnesses: a file with segments and without section headers makes the reader use a null pointer; more than 65534 segments; compressed debugging sections do not count as such.")
c("C67","partial","Elf","symbols_visited symbol_map_built_partial function_at_partial fs_discriminator_partial address_of_name exSyms_of exDyn_of exShort exFile_symbols exFile_symbols_spec exFile_function address_of_name_ex short_name_violated shared_name_violated big_symtab_violated","Partial: names of less than four bytes must not be at the very start of the string table or the end of another name (ShortOk), because the code compares from four bytes before the end of the name (witnesses); symbol tables below 4 GiB.")
c("C68","proved","Elf","exec_segments module_segment exec_addresses noteIds_ok build_id_read exFile_segments exFile_notes exFile_build_id long_build_id_ignored","For note sections whose notes are within the section. A build id of more than 20 bytes is ignored (witness).")
c("C12","partial","SymbolMap","elide_exact_aliases","For maps in which several names share a symbol: the exact result, for the policies other than 'selected'.")
c("C69","proved","Compute","alias_profile alias_total alias_elide exAlias_ok alias_collision_violated alias_suffix_violated","Needs that no name stands for two functions (AliasOk): witnesses show that otherwise, or if an alias has a suffix that is elided to the name of another function, the samples of two functions are mixed.")
c("C70","proved","Pipeline","create_profile create_bad_text exS_covered exS_ok exProgram_created","--profiler=text, DWARF 2-4 debugging information in the file itself (build without LLVM), no llc_misses mode; the hypotheses are collected in Program and Covers; exProgram is an instance.")
c("C71","proved","SymbolMap","working_sets working_sets_empty working_sets_mono working_set_merge exWs_sets exWs_hyps working_set_elided_violated working_set_merge_order_violated working_set_merge_big_violated","Over the symbols recorded; the witnesses show what happens after suffixes are elided, that merging depends on the order, and wraps around from 2^31 instructions.")
c("C72","proved","SymList","names_in_profile fill_list fill_list_all symbol_list exMap_names exList symbol_list_suffix_violated","Disjointness needs that no suffix is elided: witness. The ratio is a fraction num/den; FloatUses reduces the rounded product to it.")
c("C73","proved","Diff","compare_lists compare_hot compare_sorted exD_rows compare_missing_violated","A row has the two counts; the percentages printed are not modelled. The witness shows the functions missing from the comparison.")
c("C74","proved","Propeller","computeProfile_ok faithful selected clusterFile_ok cluster_file samples_counts buildGraph_spec graph_ok section_ok example_ok","Counts and weights are unbounded integers (int in the code); the two quotients compared with thresholds are arbitrary predicates of the numbers divided; path profiles, clones and verbose output are not modelled. ")
c("C75","proved","Prefetch","create_prefetch convert_hints read_hints HintProfile.all HintProfile.written delta_recovered missing_file exPrefetch_created exHints_fit first_hint_violated same_line_violated many_hints_violated dot_violated elided_violated long_type_violated","The witnesses show how hints are lost when a condition is not met: first hint of a function without debug information (all hints of the function are dropped by the writer), two instructions on one line, the 257th hint, a type with a dot, two parts of a function, a type of five characters (buffer overflow); and a missing file gives an empty profile. The writer is that of C07.")
c("C76","proved","Merger","merge_gcov merge_gcov_order merge_gcov_missing profile_fits read_inputs sample_ok staged_merge_loses merge_targets_violated merge_version_violated","Not too large: the bytes of all inputs together below 2^32 and the sums of the counts below 2^64. File names of functions are not modelled: the tables of the output are arbitrary tables that fit. The witnesses show that merging in stages loses functions, that target counts do not add up, and that an old last input discards timestamps and summary.")
c("C77","proved","MergerLlvm","merge_llvm merge_llvm_within merge_llvm_sums merge_llvm_missing writeProfiles_iff sums_fit exFile_ok exMerge_ok exMerge_result exMerge_limits exMerge_error removed_function_written limited_function_lost","The contents with limits are stated through the models of flattening (facts of C55 included), throttling (C13) and trimming (C14). The witnesses show that removed functions can come back with a wrapped total and that a limit can remove functions.")
c("C78","partial","PerfRead","read_file append_files_partial merge_perf_files recorded_sound append_bad mem_focusBins focusBins_empty exFile_read exKernel exFiles_compatible append_stale_cache_violated","One file, and several files each with its own reader, in full. Several Appends on one reader need that no freed pointer is used for another binary; the witness shows that the claim is false without it.")
c("C79","partial","Stamp","stamp_exact first_mem stamp_earliest_partial stamps_written exBin_stamp stamp_earliest_violated stamp_suffix_violated","The exact behaviour is proved: the first nonzero time in the order of addresses, lost by elision. It is the earliest one only if the times ascend with the addresses; witnesses refute the full claim.")
c("C80","partial","SpeSimple","findMMap_some findMMap_none read_spec append_spec total_count_partial ex_arm ex_read total_count_violated second_mapping_violated","Counts, failure and appending in full for the first mapping. The total count and further mappings are refuted by witnesses; total_count_partial says what the total is.")
c("C81","proved","Dwp","find_package find_package1 find_version walk_at walk_stop slot_surj lookup_slot exPackage_holds exPackage_find exPackage1_holds full_violated","Tables with a free slot, which the format requires in effect; the witness shows that without one the lookup of a missing unit does not end. Indices that violate the format (wrong counts) can be read outside their bounds and are not covered.")
c("C82","proved","MapperSyms","names_spec first_exists readBinary_spec selected_named table_exact storedSection_text exSyms_info","")
c("C83","proved","Sampled","sampledSymbols_exact sampled_included sampled_exact sampledAddrs_spec ex_holds gap_violated order_violated","For segments in order; the witnesses show what happens otherwise.")
c("C84","proved","Validate","validate_spec walk_spec tooFew_bound rnd24_error sumTotal_eq inlineStack_iff exSym_valid wrap_violated","")
c("C85","proved","Validate","entryCount_spec entry_unique exSym_valid order_violated","")
c("C86","proved","SpeReader","s64_spec append_spec sampling_spec mkReader_spec no_match_fails ex_append ex_stop_violated","Ranges for targets aligned to instructions; a stop at an address outside of the segments is the third outcome.")
c("C87","proved","BinContent","modinfo_exact content_exact content_unreadable buildId_spec buildId_correct hex_spec findText_iff execSegs_eq ex_modinfo ex_module ex_exec note_type_violated text_size_violated first_exec_violated","")
c("C88","proved","CfgOps","reach_ok getNode_iff allClones_spec id_unique clonePath_spec createOrUpdate_spec decrement_spec cloneCfg_spec frequency_spec frequency_zero hotJoin_spec freqStats_spec ex_holds ex_reach kinds_violated copy_paths_violated order_violated","")
c("C89","partial","PropCli","plan_refuses_iff plan_spec inputs_semicolon inputs_file profileType_iff dispatch_iff computerFiles_iff api_names cli_partial spe_type_violated ignore_build_id_violated ex_plan ex_hyps","the API part is complete; on the command line the two refuted cases are missing")
c("C90","proved","PropFiles","disassembleOne_iff checkLbr_spec provider_error lbr_fails_iff lbr_spec freq_spec skipped section_end_violated stats_reused_violated ex_lbr ex_lbr_ok","")
c("C91","proved","PropRun","run_spec config_spec files_kept cluster_of dispatch_cases lbr_sampled spe_sampled unwritable version_crash unwritable_violated version_violated ex_run ex_good ex_data","")
c("C92","proved","CfgProto","read_iff write_iff round_trip reread_edges valid_written int_trip ex_trip ex_wf fallthrough_violated calls_violated ids_violated clones_violated","")
c("C93","proved","LlvmLine","stack_empty stack_spec section_spec context_iff unitName_spec ex_small ex_stack ex_section dir_violated offset_violated","")
c("C94","proved","CreateGcov","create_gcov create_gcov_prefetch create_gcov_fails read_sample selected cut_name written_file summary_spec ex_run ex_fits ex_written dot_violated unstripped_violated","Under Fits (what C07 needs) for the contents of the file; without LLVM.")
c("C95","proved","CreateLlvm","create_llvm create_llvm_prefetch create_llvm_fails create_llvm_propeller read_sample bin_spec write_spec missing_hints_violated ex_run ex_fits ex_written ex_discr ex_small ex_usage","Under Fits (counts below 2^64, lines below 2^16) for the contents; Debug.Small of C93.")
c("C96","proved","SampleMerger","sample_merger inputs_spec sample_merger_fails sample_merger_order sample_merger_twice full_disk_violated overflow_violated readSample_ok isMerge_unique ex_fits ex_before ex_read ex_run","Under Room (the device takes the text); see full_disk_violated.")
c("C97","proved","TwoLevel","two_level stack_unique lookup_spec addStack_spec cycle_violated missing_context_violated bad_subprogram_violated ex_ok ex_lookup","For tables whose numbers exist and whose contexts are earlier rows; the other cases are the violations.")
c("C98","proved","TwoLevelUnit","section_stacks unit_decoded lunit_ok exUnit2_ok exUnit2_enc ex_section forward_context_violated end_lost_violated","For well-formed units; the violations are outside of it.")
c("C98","proved","TwoLevelProg","programs_decoded readLogs_spec readActs_spec","")
c("C99","proved","Dump","listing listing_eq_iff dump_written ex_text ex_fits ex_written colon_violated line_violated empty_unlisted","For printable names; the violations are outside of it. Demangling off.")
c("C45","partial","Overlap","overlap32_comm overlap32_near overlap32_range overlap32_error overlap32_self overlap32_zero_iff ex_overlap above_one_violated below_one_violated stagnation_violated","With the float rounding of every operation: symmetric exactly, the rest up to a proved error; the literal claims (at most 1, equal to 1) are refuted by witnesses.")
c("C37","partial","Progress","progress32_in_range done_progress32 progress32_monotone progress32_100_iff_done weighted_mean32_partial rounding_violated ex_progress32","With the float rounding of every operation.")
c("C18","partial","FloatUses","emitted64_iff emitted64_above_fraction emit64_monotone_partial ex_threshold64","With the rounding of the double product.")
c("C72","proved","FloatUses","fillList64_eq threshold_bounds ex_fillList64 size_violated","With the rounding of the double product.")
c("C17","partial","FloatUses","cost32_spec inclusive_counts32_acyclic_partial cost_violated","")
c("C100","proved","FileNames","path_spec table_files table_last table_get table_by_name run_inlined run_function run_by_name matches_traverse keys_of_matches merge_source matches_merge read_by_name listed_files ex_stacks ex_run ex_table ex_listed ex_read static_violated alias_violated first_empty_violated reread_violated","For functions that have one file per name; the violations are outside of it.")
c("C101","proved","CfgStats","stats_describe add_spec ex_stats kinds_violated","Counters unbounded.")
c("C102","proved","Scale","scaleN_zero scaleN_exact scaleN_mono scaleN_err scale_spec store_scale store_scale_once scale_inv totalSum_spec totalSum_once ex_scale ex_inv alias_violated sum_violated large_violated","Ratios that are not negative; counts unbounded.")
c("C103","proved","Cleanup","cleanup_spec endSplit_stack marked_handler marked_init ex_cleanup ex_circle reference_violated","")
c("C104","proved","BundleMap","table_spec table_tight foreign_violated distinct_needed overrun_shares","")
c("C105","partial","SplitDwarf","split_source chosen_unique split_accepted run_total ranges_in_force own_ranges_partial own_ranges_violated relative_violated no_info_fails ex_sources ex_partial","Range lists: only what is read before the first .dwo file with range lists, and that file, have their own; the code violates it afterwards.")
c("C106","proved","CommaFormat","print_spec print_injective ex_print width_violated left_violated base_violated","")
c("C107","proved","Registry","program_order received_spec progress provider_alive run_over ex_over once_of ex_once ex_reach late_violated late_reach_violated","")
c("C108","proved","RunProgress","polls_monotone complete_iff job_spec told in_range early_violated ex_run","")
c("C109","proved","Chain","stats_conserved buildC_spec buildLoopC_spec coalesceC_spec ex_stats ex_nested","")
