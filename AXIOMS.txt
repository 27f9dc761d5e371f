'Verif.Addr2Line.binary_stacks' depends on axioms: [propext, Classical.choice, Quot.sound]
'Verif.Addr2Line.exB_lines' depends on axioms: [propext, Classical.choice, Quot.sound]
'Verif.Addr2Line.exB_stack' depends on axioms: [propext, Classical.choice, Quot.sound]
'Verif.Addr2Line.line_at' depends on axioms: [propext, Classical.choice, Quot.sound]
'Verif.Addr2Line.lines_only' depends on axioms: [propext, Classical.choice, Quot.sound]
'Verif.Addr2Line.offset_list_addr_base_violated' depends on axioms: [propext, Classical.choice, Quot.sound]
'Verif.Addr2Line.ranges4_at' depends on axioms: [propext, Classical.choice, Quot.sound]
'Verif.Addr2Line.ranges5_at' depends on axioms: [propext, Classical.choice, Quot.sound]
'Verif.Addr2Line.ranges5_number' depends on axioms: [propext, Classical.choice, Quot.sound]
'Verif.AddrLookup.offset_vaddr_offset' depends on axioms: [propext, Quot.sound]
'Verif.AddrLookup.symbol_lookup_iff' depends on axioms: [propext, Quot.sound]
'Verif.AddrLookup.symbol_lookup_none' depends on axioms: [propext, Quot.sound]
'Verif.AddrLookup.symbol_lookup_overlap_misses' depends on axioms: [propext]
'Verif.AddrLookup.translations_inverse_partial' depends on axioms: [propext, Quot.sound]
'Verif.AddrLookup.translations_inverse_violated' does not depend on any axioms
'Verif.Afdo.afdo_merge_adds_partial' depends on axioms: [propext, Classical.choice, Quot.sound]
'Verif.Afdo.afdo_merge_targets_violated' depends on axioms: [propext, Classical.choice, Quot.sound]
'Verif.Afdo.afdo_roundtrip_partial' depends on axioms: [propext, Classical.choice, Quot.sound]
'Verif.Afdo.afdo_roundtrip_totals' depends on axioms: [propext, Classical.choice, Quot.sound]
'Verif.Afdo.afdo_roundtrip_violated' depends on axioms: [propext, Classical.choice, Quot.sound]
'Verif.Afdo.function_length_partial' depends on axioms: [propext, Quot.sound]
'Verif.Afdo.function_length_short' depends on axioms: [propext, Quot.sound]
'Verif.Afdo.function_length_violated' depends on axioms: [propext, Classical.choice, Quot.sound]
'Verif.Afdo.string_table_spec' depends on axioms: [propext, Classical.choice, Quot.sound]
'Verif.Afdo.writer_total' depends on axioms: [propext, Classical.choice, Quot.sound]
'Verif.BinContent.buildId_correct' depends on axioms: [propext, Classical.choice, Quot.sound]
'Verif.BinContent.buildId_spec' depends on axioms: [propext, Classical.choice, Quot.sound]
'Verif.BinContent.content_exact' depends on axioms: [propext, Classical.choice, Quot.sound]
'Verif.BinContent.content_unreadable' depends on axioms: [propext, Classical.choice, Quot.sound]
'Verif.BinContent.ex_exec' depends on axioms: [propext, Classical.choice, Quot.sound]
'Verif.BinContent.ex_modinfo' depends on axioms: [propext, Classical.choice, Quot.sound]
'Verif.BinContent.ex_module' depends on axioms: [propext, Classical.choice, Quot.sound]
'Verif.BinContent.execSegs_eq' depends on axioms: [propext, Classical.choice, Quot.sound]
'Verif.BinContent.findText_iff' depends on axioms: [propext, Classical.choice, Quot.sound]
'Verif.BinContent.first_exec_violated' depends on axioms: [propext, Classical.choice, Quot.sound]
'Verif.BinContent.hex_spec' depends on axioms: [propext, Classical.choice, Quot.sound]
'Verif.BinContent.modinfo_exact' depends on axioms: [propext, Classical.choice, Quot.sound]
'Verif.BinContent.note_type_violated' depends on axioms: [propext, Classical.choice, Quot.sound]
'Verif.BinContent.text_size_violated' depends on axioms: [propext, Classical.choice, Quot.sound]
'Verif.BundleMap.distinct_needed' depends on axioms: [propext]
'Verif.BundleMap.foreign_violated' depends on axioms: [propext]
'Verif.BundleMap.overrun_shares' depends on axioms: [propext]
'Verif.BundleMap.table_spec' depends on axioms: [propext, Classical.choice, Quot.sound]
'Verif.BundleMap.table_tight' depends on axioms: [propext, Classical.choice, Quot.sound]
'Verif.ByteReader.fixed_roundtrip' depends on axioms: [propext, Quot.sound]
'Verif.ByteReader.initial_length_roundtrip' depends on axioms: [propext, Classical.choice, Quot.sound]
'Verif.ByteReader.sleb_decode' depends on axioms: [propext, Classical.choice, Quot.sound]
'Verif.ByteReader.sleb_roundtrip' depends on axioms: [propext, Classical.choice, Quot.sound]
'Verif.ByteReader.uleb_decode' depends on axioms: [propext, Classical.choice, Quot.sound]
'Verif.ByteReader.uleb_overlong_undefined' depends on axioms: [propext]
'Verif.ByteReader.uleb_roundtrip' depends on axioms: [propext, Classical.choice, Quot.sound]
'Verif.CfgBuild.addEdges_spec' depends on axioms: [propext, Classical.choice, Quot.sound]
'Verif.CfgBuild.classify_kinds' depends on axioms: [propext, Classical.choice, Quot.sound]
'Verif.CfgBuild.createEdges_example' depends on axioms: [propext, Classical.choice, Quot.sound]
'Verif.CfgBuild.createEdges_exists' depends on axioms: [propext, Classical.choice, Quot.sound]
'Verif.CfgBuild.createEdges_perm' depends on axioms: [propext, Classical.choice, Quot.sound]
'Verif.CfgBuild.createEdges_spec' depends on axioms: [propext, Classical.choice, Quot.sound]
'Verif.CfgBuild.createEdges_weight' depends on axioms: [propext, Classical.choice, Quot.sound]
'Verif.CfgBuild.kept_closed' depends on axioms: [propext, Classical.choice, Quot.sound]
'Verif.CfgBuild.nodeFreq_pos' depends on axioms: [propext, Classical.choice, Quot.sound]
'Verif.CfgBuild.nodeFreq_spec' depends on axioms: [propext, Classical.choice, Quot.sound]
'Verif.CfgOps.allClones_spec' depends on axioms: [propext, Classical.choice, Quot.sound]
'Verif.CfgOps.cloneCfg_spec' depends on axioms: [propext, Classical.choice, Quot.sound]
'Verif.CfgOps.clonePath_spec' depends on axioms: [propext, Classical.choice, Quot.sound]
'Verif.CfgOps.copy_paths_violated' depends on axioms: [propext]
'Verif.CfgOps.createOrUpdate_spec' depends on axioms: [propext, Classical.choice, Quot.sound]
'Verif.CfgOps.decrement_spec' depends on axioms: [propext, Classical.choice, Quot.sound]
'Verif.CfgOps.ex_holds' depends on axioms: [propext]
'Verif.CfgOps.ex_reach' depends on axioms: [propext]
'Verif.CfgOps.freqStats_spec' depends on axioms: [propext, Classical.choice, Quot.sound]
'Verif.CfgOps.frequency_spec' depends on axioms: [propext, Quot.sound]
'Verif.CfgOps.frequency_zero' depends on axioms: [propext, Classical.choice, Quot.sound]
'Verif.CfgOps.getNode_iff' depends on axioms: [propext, Classical.choice, Quot.sound]
'Verif.CfgOps.hotJoin_spec' depends on axioms: [propext, Classical.choice, Quot.sound]
'Verif.CfgOps.id_unique' depends on axioms: [propext, Classical.choice, Quot.sound]
'Verif.CfgOps.kinds_violated' depends on axioms: [propext]
'Verif.CfgOps.order_violated' depends on axioms: [propext]
'Verif.CfgOps.reach_ok' depends on axioms: [propext, Classical.choice, Quot.sound]
'Verif.CfgProto.calls_violated' depends on axioms: [propext]
'Verif.CfgProto.clones_violated' depends on axioms: [propext]
'Verif.CfgProto.ex_trip' depends on axioms: [propext]
'Verif.CfgProto.ex_wf' depends on axioms: [propext, Classical.choice, Quot.sound]
'Verif.CfgProto.fallthrough_violated' depends on axioms: [propext]
'Verif.CfgProto.ids_violated' depends on axioms: [propext]
'Verif.CfgProto.int_trip' depends on axioms: [propext, Classical.choice, Quot.sound]
'Verif.CfgProto.read_iff' depends on axioms: [propext, Classical.choice, Quot.sound]
'Verif.CfgProto.reread_edges' depends on axioms: [propext, Classical.choice, Quot.sound]
'Verif.CfgProto.round_trip' depends on axioms: [propext, Classical.choice, Quot.sound]
'Verif.CfgProto.valid_written' depends on axioms: [propext, Quot.sound]
'Verif.CfgProto.write_iff' depends on axioms: [propext, Quot.sound]
'Verif.CfgStats.add_spec' depends on axioms: [propext, Quot.sound]
'Verif.CfgStats.ex_stats' depends on axioms: [propext, Classical.choice, Quot.sound]
'Verif.CfgStats.kinds_violated' depends on axioms: [propext, Classical.choice, Quot.sound]
'Verif.CfgStats.stats_describe' depends on axioms: [propext, Classical.choice, Quot.sound]
'Verif.Chain.addChains_spec' depends on axioms: [propext, Classical.choice, Quot.sound]
'Verif.Chain.asmKey_inj' depends on axioms: [propext, Quot.sound]
'Verif.Chain.best_perm' depends on axioms: [propext, Classical.choice, Quot.sound]
'Verif.Chain.best_spec' depends on axioms: [propext, Classical.choice, Quot.sound]
'Verif.Chain.buildAsm_ok' depends on axioms: [propext, Classical.choice, Quot.sound]
'Verif.Chain.buildC_spec' depends on axioms: [propext, Classical.choice, Quot.sound]
'Verif.Chain.buildChains_ok' depends on axioms: [propext, Classical.choice, Quot.sound]
'Verif.Chain.buildLoopC_spec' depends on axioms: [propext, Classical.choice, Quot.sound]
'Verif.Chain.buildLoop_ok' depends on axioms: [propext, Classical.choice, Quot.sound]
'Verif.Chain.build_ok' depends on axioms: [propext, Classical.choice, Quot.sound]
'Verif.Chain.built_good' depends on axioms: [propext, Classical.choice, Quot.sound]
'Verif.Chain.chain_score_eq' depends on axioms: [propext, Classical.choice, Quot.sound]
'Verif.Chain.chains_partition' depends on axioms: [propext, Classical.choice, Quot.sound]
'Verif.Chain.coalesceC_spec' depends on axioms: [propext, Classical.choice, Quot.sound]
'Verif.Chain.coalesce_ok' depends on axioms: [propext, Classical.choice, Quot.sound]
'Verif.Chain.edgeDist_spec' depends on axioms: [propext, Classical.choice, Quot.sound]
'Verif.Chain.entry_first' depends on axioms: [propext, Classical.choice, Quot.sound]
'Verif.Chain.entry_first_violated' depends on axioms: [propext, Classical.choice, Quot.sound]
'Verif.Chain.entry_merged' depends on axioms: [propext, Classical.choice, Quot.sound]
'Verif.Chain.ex_nested' depends on axioms: [propext, Classical.choice, Quot.sound]
'Verif.Chain.ex_stats' depends on axioms: [propext, Classical.choice, Quot.sound]
'Verif.Chain.findSlice_spec' depends on axioms: [propext, Classical.choice, Quot.sound]
'Verif.Chain.forced_nodes' depends on axioms: [propext, Classical.choice, Quot.sound]
'Verif.Chain.getEdgeScore_nonneg' depends on axioms: [propext, Classical.choice, Quot.sound]
'Verif.Chain.inSlice_iff' depends on axioms: [propext, Classical.choice, Quot.sound]
'Verif.Chain.initChains_spec' depends on axioms: [propext, Classical.choice, Quot.sound]
'Verif.Chain.initEdges_ok' depends on axioms: [propext, Classical.choice, Quot.sound]
'Verif.Chain.init_good' depends on axioms: [propext, Classical.choice, Quot.sound]
'Verif.Chain.mem_wanted' depends on axioms: [propext, Quot.sound]
'Verif.Chain.mergeAsm_ok' depends on axioms: [propext, Classical.choice, Quot.sound]
'Verif.Chain.mergeNodes_spec' depends on axioms: [propext, Classical.choice, Quot.sound]
'Verif.Chain.merge_ok' depends on axioms: [propext, Classical.choice, Quot.sound]
'Verif.Chain.merged_order' depends on axioms: [propext, Classical.choice, Quot.sound]
'Verif.Chain.merges_spec' depends on axioms: [propext, Classical.choice, Quot.sound]
'Verif.Chain.no_better_concatenation' depends on axioms: [propext, Classical.choice, Quot.sound]
'Verif.Chain.predicted_gain' depends on axioms: [propext, Classical.choice, Quot.sound]
'Verif.Chain.predicted_gain_violated_initial_chains' depends on axioms: [propext, Classical.choice, Quot.sound]
'Verif.Chain.queues_agree' depends on axioms: [propext, Classical.choice, Quot.sound]
'Verif.Chain.scoreGain_exact' depends on axioms: [propext, Classical.choice, Quot.sound]
'Verif.Chain.stats_conserved' depends on axioms: [propext, Classical.choice, Quot.sound]
'Verif.Chain.sub_ok' depends on axioms: [propext, Classical.choice, Quot.sound]
'Verif.Cleanup.cleanup_spec' depends on axioms: [propext, Classical.choice, Quot.sound]
'Verif.Cleanup.endSplit_stack' depends on axioms: [propext, Classical.choice, Quot.sound]
'Verif.Cleanup.ex_circle' does not depend on any axioms
'Verif.Cleanup.ex_cleanup' depends on axioms: [propext]
'Verif.Cleanup.marked_handler' depends on axioms: [propext, Classical.choice, Quot.sound]
'Verif.Cleanup.marked_init' depends on axioms: [propext, Quot.sound]
'Verif.Cleanup.reference_violated' does not depend on any axioms
'Verif.Cluster.bestPred_spec' depends on axioms: [propext, Classical.choice, Quot.sound]
'Verif.Cluster.buildClusters_ok' depends on axioms: [propext, Classical.choice, Quot.sound]
'Verif.Cluster.buildClusters_perm' depends on axioms: [propext, Classical.choice, Quot.sound]
'Verif.Cluster.buildClusters_violated' depends on axioms: [propext, Classical.choice, Quot.sound]
'Verif.Cluster.inspectEdge_spec' depends on axioms: [propext, Classical.choice, Quot.sound]
'Verif.Cluster.mergeWithBest_spec' depends on axioms: [propext, Classical.choice, Quot.sound]
'Verif.CommaFormat.base_violated' depends on axioms: [propext, Quot.sound]
'Verif.CommaFormat.ex_print' depends on axioms: [propext, Quot.sound]
'Verif.CommaFormat.left_violated' depends on axioms: [propext, Classical.choice, Quot.sound]
'Verif.CommaFormat.print_injective' depends on axioms: [propext, Classical.choice, Quot.sound]
'Verif.CommaFormat.print_spec' depends on axioms: [propext, Classical.choice, Quot.sound]
'Verif.CommaFormat.width_violated' depends on axioms: [propext, Classical.choice, Quot.sound]
'Verif.Compute.aggregate_spec' depends on axioms: [propext, Classical.choice, Quot.sound]
'Verif.Compute.alias_collision_violated' depends on axioms: [propext, Classical.choice, Quot.sound]
'Verif.Compute.alias_elide' depends on axioms: [propext, Classical.choice, Quot.sound]
'Verif.Compute.alias_profile' depends on axioms: [propext, Classical.choice, Quot.sound]
'Verif.Compute.alias_suffix_violated' depends on axioms: [propext, Classical.choice, Quot.sound]
'Verif.Compute.alias_total' depends on axioms: [propext, Classical.choice, Quot.sound]
'Verif.Compute.computeOrder_history' depends on axioms: [propext, Classical.choice, Quot.sound]
'Verif.Compute.compute_profile' depends on axioms: [propext, Classical.choice, Quot.sound]
'Verif.Compute.compute_profile_duplicate_names_violated' depends on axioms: [propext, Classical.choice, Quot.sound]
'Verif.Compute.exAlias_ok' depends on axioms: [propext]
'Verif.CreateGcov.create_gcov' depends on axioms: [propext, Classical.choice, Quot.sound]
'Verif.CreateGcov.create_gcov_fails' depends on axioms: [propext, Classical.choice, Quot.sound]
'Verif.CreateGcov.create_gcov_prefetch' depends on axioms: [propext, Classical.choice, Quot.sound]
'Verif.CreateGcov.cut_name' depends on axioms: [propext, Classical.choice, Quot.sound]
'Verif.CreateGcov.dot_violated' depends on axioms: [propext, Classical.choice, Quot.sound]
'Verif.CreateGcov.ex_fits' depends on axioms: [propext, Classical.choice, Quot.sound]
'Verif.CreateGcov.ex_run' depends on axioms: [propext, Classical.choice, Quot.sound]
'Verif.CreateGcov.ex_written' depends on axioms: [propext, Classical.choice, Quot.sound]
'Verif.CreateGcov.read_sample' depends on axioms: [propext, Classical.choice, Quot.sound]
'Verif.CreateGcov.selected' depends on axioms: [propext, Classical.choice, Quot.sound]
'Verif.CreateGcov.summary_spec' depends on axioms: [propext, Classical.choice, Quot.sound]
'Verif.CreateGcov.unstripped_violated' depends on axioms: [propext, Classical.choice, Quot.sound]
'Verif.CreateGcov.written_file' depends on axioms: [propext, Classical.choice, Quot.sound]
'Verif.CreateLlvm.bin_spec' depends on axioms: [propext, Classical.choice, Quot.sound]
'Verif.CreateLlvm.create_llvm' depends on axioms: [propext, Classical.choice, Quot.sound]
'Verif.CreateLlvm.create_llvm_fails' depends on axioms: [propext, Classical.choice, Quot.sound]
'Verif.CreateLlvm.create_llvm_prefetch' depends on axioms: [propext, Classical.choice, Quot.sound]
'Verif.CreateLlvm.create_llvm_propeller' depends on axioms: [propext, Classical.choice, Quot.sound]
'Verif.CreateLlvm.ex_discr' does not depend on any axioms
'Verif.CreateLlvm.ex_fits' depends on axioms: [propext, Classical.choice, Quot.sound]
'Verif.CreateLlvm.ex_run' depends on axioms: [propext, Classical.choice, Quot.sound]
'Verif.CreateLlvm.ex_small' depends on axioms: [propext, Classical.choice, Quot.sound]
'Verif.CreateLlvm.ex_usage' depends on axioms: [propext, Classical.choice, Quot.sound]
'Verif.CreateLlvm.ex_written' depends on axioms: [propext, Classical.choice, Quot.sound]
'Verif.CreateLlvm.missing_hints_violated' depends on axioms: [propext, Classical.choice, Quot.sound]
'Verif.CreateLlvm.read_sample' depends on axioms: [propext, Classical.choice, Quot.sound]
'Verif.CreateLlvm.write_spec' depends on axioms: [propext, Classical.choice, Quot.sound]
'Verif.Diff.compare_hot' depends on axioms: [propext, Classical.choice, Quot.sound]
'Verif.Diff.compare_lists' depends on axioms: [propext, Classical.choice, Quot.sound]
'Verif.Diff.compare_missing_violated' depends on axioms: [propext, Classical.choice, Quot.sound]
'Verif.Diff.compare_sorted' depends on axioms: [propext, Classical.choice, Quot.sound]
'Verif.Diff.exD_rows' depends on axioms: [propext, Classical.choice, Quot.sound]
'Verif.Dump.colon_violated' depends on axioms: [propext, Classical.choice, Quot.sound]
'Verif.Dump.dump_written' depends on axioms: [propext, Classical.choice, Quot.sound]
'Verif.Dump.empty_unlisted' depends on axioms: [propext, Classical.choice, Quot.sound]
'Verif.Dump.ex_fits' depends on axioms: [propext, Classical.choice, Quot.sound]
'Verif.Dump.ex_text' depends on axioms: [propext, Classical.choice, Quot.sound]
'Verif.Dump.ex_written' depends on axioms: [propext, Classical.choice, Quot.sound]
'Verif.Dump.line_violated' depends on axioms: [propext, Classical.choice, Quot.sound]
'Verif.Dump.listing' depends on axioms: [propext, Classical.choice, Quot.sound]
'Verif.Dump.listing_eq_iff' depends on axioms: [propext, Classical.choice, Quot.sound]
'Verif.DwarfInfo.abbrev_codes_violated' depends on axioms: [propext, Classical.choice, Quot.sound]
'Verif.DwarfInfo.abbrevs_ok' depends on axioms: [propext, Classical.choice, Quot.sound]
'Verif.DwarfInfo.addr_by_number' depends on axioms: [propext, Quot.sound]
'Verif.DwarfInfo.addrx2_violated' depends on axioms: [propext, Quot.sound]
'Verif.DwarfInfo.addrx_violated' depends on axioms: [propext, Classical.choice, Quot.sound]
'Verif.DwarfInfo.by_number_ex' depends on axioms: [propext, Classical.choice, Quot.sound]
'Verif.DwarfInfo.data16_violated' depends on axioms: [propext, Quot.sound]
'Verif.DwarfInfo.dies_forest' depends on axioms: [propext, Classical.choice, Quot.sound]
'Verif.DwarfInfo.dies_unit' depends on axioms: [propext, Classical.choice, Quot.sound]
'Verif.DwarfInfo.exInfo_decoded' depends on axioms: [propext, Classical.choice, Quot.sound]
'Verif.DwarfInfo.exUnits_at' depends on axioms: [propext, Classical.choice, Quot.sound]
'Verif.DwarfInfo.formVal_ok' depends on axioms: [propext, Classical.choice, Quot.sound]
'Verif.DwarfInfo.forms_violated' depends on axioms: [propext, Classical.choice, Quot.sound]
'Verif.DwarfInfo.implicit_const_violated' depends on axioms: [propext, Classical.choice, Quot.sound]
'Verif.DwarfInfo.info_decoded_partial' depends on axioms: [propext, Classical.choice, Quot.sound]
'Verif.DwarfInfo.readHeader_ok' depends on axioms: [propext, Classical.choice, Quot.sound]
'Verif.DwarfInfo.readUnit_ok' depends on axioms: [propext, Classical.choice, Quot.sound]
'Verif.DwarfInfo.recorder_wants' depends on axioms: [propext]
'Verif.DwarfInfo.skipForm_ok' depends on axioms: [propext, Classical.choice, Quot.sound]
'Verif.DwarfInfo.str_by_number' depends on axioms: [propext, Classical.choice, Quot.sound]
'Verif.DwarfInfo.table_format_violated' depends on axioms: [propext, Classical.choice, Quot.sound]
'Verif.DwarfInfo.unclosed_violated' depends on axioms: [propext, Classical.choice, Quot.sound]
'Verif.DwarfLine.exU5_enc' depends on axioms: [propext, Classical.choice, Quot.sound]
'Verif.DwarfLine.exU5_ok' depends on axioms: [propext, Classical.choice, Quot.sound]
'Verif.DwarfLine.exUnit_decoded' depends on axioms: [propext]
'Verif.DwarfLine.exUnit_enc' depends on axioms: [propext, Classical.choice, Quot.sound]
'Verif.DwarfLine.exUnit_ok' depends on axioms: [propext, Classical.choice, Quot.sound]
'Verif.DwarfLine.header_length_ignored_violated' depends on axioms: [propext]
'Verif.DwarfLine.lines_decoded' depends on axioms: [propext, Classical.choice, Quot.sound]
'Verif.DwarfLine.max_ops_ignored_violated' depends on axioms: [propext]
'Verif.DwarfLine.section_decoded' depends on axioms: [propext, Classical.choice, Quot.sound]
'Verif.DwarfLine.unit5_decoded_partial' depends on axioms: [propext, Classical.choice, Quot.sound]
'Verif.DwarfLine.unit5_md5_violated' depends on axioms: [propext]
'Verif.DwarfLine.unit5_numbering_violated' depends on axioms: [propext]
'Verif.DwarfLine.unit_decoded' depends on axioms: [propext, Classical.choice, Quot.sound]
'Verif.DwarfLine.unterminated_sequence_violated' depends on axioms: [propext]
'Verif.Dwp.exPackage1_holds' depends on axioms: [propext, Classical.choice, Quot.sound]
'Verif.Dwp.exPackage_find' depends on axioms: [propext, Classical.choice, Quot.sound]
'Verif.Dwp.exPackage_holds' depends on axioms: [propext, Classical.choice, Quot.sound]
'Verif.Dwp.find_package' depends on axioms: [propext, Classical.choice, Quot.sound]
'Verif.Dwp.find_package1' depends on axioms: [propext, Classical.choice, Quot.sound]
'Verif.Dwp.find_version' depends on axioms: [propext, Classical.choice, Quot.sound]
'Verif.Dwp.full_violated' depends on axioms: [propext, Classical.choice, Quot.sound]
'Verif.Dwp.lookup_slot' depends on axioms: [propext, Classical.choice, Quot.sound]
'Verif.Dwp.slot_surj' depends on axioms: [propext, Classical.choice, Quot.sound]
'Verif.Dwp.walk_at' depends on axioms: [propext, Classical.choice, Quot.sound]
'Verif.Dwp.walk_stop' depends on axioms: [propext, Classical.choice, Quot.sound]
'Verif.Elf.address_of_name' depends on axioms: [propext, Classical.choice, Quot.sound]
'Verif.Elf.address_of_name_ex' depends on axioms: [propext, Classical.choice, Quot.sound]
'Verif.Elf.big_symtab_violated' depends on axioms: [propext]
'Verif.Elf.build_id_read' depends on axioms: [propext, Classical.choice, Quot.sound]
'Verif.Elf.dso' depends on axioms: [propext, Classical.choice, Quot.sound]
'Verif.Elf.empty_section_fatal' depends on axioms: [propext, Classical.choice, Quot.sound]
'Verif.Elf.exDyn_of' depends on axioms: [propext, Classical.choice, Quot.sound]
'Verif.Elf.exFile_build_id' depends on axioms: [propext, Classical.choice, Quot.sound]
'Verif.Elf.exFile_debug' depends on axioms: [propext, Classical.choice, Quot.sound]
'Verif.Elf.exFile_elf' depends on axioms: [propext, Classical.choice, Quot.sound]
'Verif.Elf.exFile_function' depends on axioms: [propext, Classical.choice, Quot.sound]
'Verif.Elf.exFile_not_stripped' depends on axioms: [propext, Classical.choice, Quot.sound]
'Verif.Elf.exFile_notes' depends on axioms: [propext, Classical.choice, Quot.sound]
'Verif.Elf.exFile_segments' depends on axioms: [propext, Classical.choice, Quot.sound]
'Verif.Elf.exFile_stack' depends on axioms: [propext, Classical.choice, Quot.sound]
'Verif.Elf.exFile_symbols' depends on axioms: [propext, Classical.choice, Quot.sound]
'Verif.Elf.exFile_symbols_spec' depends on axioms: [propext, Classical.choice, Quot.sound]
'Verif.Elf.exShort' depends on axioms: [propext, Classical.choice, Quot.sound]
'Verif.Elf.exSyms_of' depends on axioms: [propext, Classical.choice, Quot.sound]
'Verif.Elf.exec_addresses' depends on axioms: [propext, Classical.choice, Quot.sound]
'Verif.Elf.exec_segments' depends on axioms: [propext, Classical.choice, Quot.sound]
'Verif.Elf.file_stacks' depends on axioms: [propext, Classical.choice, Quot.sound]
'Verif.Elf.first_load_vaddr' depends on axioms: [propext, Classical.choice, Quot.sound]
'Verif.Elf.fs_discriminator_partial' depends on axioms: [propext, Classical.choice, Quot.sound]
'Verif.Elf.function_at_partial' depends on axioms: [propext, Classical.choice, Quot.sound]
'Verif.Elf.long_build_id_ignored' depends on axioms: [propext, Quot.sound]
'Verif.Elf.many_segments_violated' depends on axioms: [propext, Quot.sound]
'Verif.Elf.module_segment' depends on axioms: [propext, Classical.choice, Quot.sound]
'Verif.Elf.namesMatch_iff' depends on axioms: [propext, Classical.choice, Quot.sound]
'Verif.Elf.no_sections_null' depends on axioms: [propext, Classical.choice, Quot.sound]
'Verif.Elf.not_debug_stripped' depends on axioms: [propext, Classical.choice, Quot.sound]
'Verif.Elf.not_elf' depends on axioms: [propext, Classical.choice, Quot.sound]
'Verif.Elf.not_stripped' depends on axioms: [propext, Classical.choice, Quot.sound]
'Verif.Elf.noteIds_ok' depends on axioms: [propext, Quot.sound]
'Verif.Elf.section_by_name' depends on axioms: [propext, Classical.choice, Quot.sound]
'Verif.Elf.section_info_by_name' depends on axioms: [propext, Classical.choice, Quot.sound]
'Verif.Elf.sections_of_file' depends on axioms: [propext, Classical.choice, Quot.sound]
'Verif.Elf.segments_read' depends on axioms: [propext, Classical.choice, Quot.sound]
'Verif.Elf.shared_name_violated' depends on axioms: [propext, Classical.choice, Quot.sound]
'Verif.Elf.short_name_violated' depends on axioms: [propext, Classical.choice, Quot.sound]
'Verif.Elf.stripped_not_elf' depends on axioms: [propext, Classical.choice, Quot.sound]
'Verif.Elf.symbol_map_built_partial' depends on axioms: [propext, Classical.choice, Quot.sound]
'Verif.Elf.symbols_visited' depends on axioms: [propext, Classical.choice, Quot.sound]
'Verif.Elf.zdebug_violated' depends on axioms: [propext, Classical.choice, Quot.sound]
'Verif.FileNames.alias_violated' depends on axioms: [propext, Classical.choice, Quot.sound]
'Verif.FileNames.ex_listed' depends on axioms: [propext, Classical.choice, Quot.sound]
'Verif.FileNames.ex_read' depends on axioms: [propext, Classical.choice, Quot.sound]
'Verif.FileNames.ex_run' depends on axioms: [propext, Classical.choice, Quot.sound]
'Verif.FileNames.ex_stacks' depends on axioms: [propext, Classical.choice, Quot.sound]
'Verif.FileNames.ex_table' depends on axioms: [propext, Classical.choice, Quot.sound]
'Verif.FileNames.first_empty_violated' depends on axioms: [propext, Classical.choice, Quot.sound]
'Verif.FileNames.keys_of_matches' depends on axioms: [propext, Classical.choice, Quot.sound]
'Verif.FileNames.listed_files' depends on axioms: [propext, Classical.choice, Quot.sound]
'Verif.FileNames.matches_merge' depends on axioms: [propext, Classical.choice, Quot.sound]
'Verif.FileNames.matches_traverse' depends on axioms: [propext, Quot.sound]
'Verif.FileNames.merge_source' depends on axioms: [propext, Quot.sound]
'Verif.FileNames.path_spec' depends on axioms: [propext]
'Verif.FileNames.read_by_name' depends on axioms: [propext, Classical.choice, Quot.sound]
'Verif.FileNames.reread_violated' depends on axioms: [propext, Quot.sound]
'Verif.FileNames.run_by_name' depends on axioms: [propext, Classical.choice, Quot.sound]
'Verif.FileNames.run_function' depends on axioms: [propext, Quot.sound]
'Verif.FileNames.run_inlined' depends on axioms: [propext, Classical.choice, Quot.sound]
'Verif.FileNames.static_violated' depends on axioms: [propext, Classical.choice, Quot.sound]
'Verif.FileNames.table_by_name' depends on axioms: [propext, Classical.choice, Quot.sound]
'Verif.FileNames.table_files' depends on axioms: [propext, Classical.choice, Quot.sound]
'Verif.FileNames.table_get' depends on axioms: [propext, Classical.choice, Quot.sound]
'Verif.FileNames.table_last' depends on axioms: [propext, Classical.choice, Quot.sound]
'Verif.FileProvider.delivers_all' depends on axioms: [propext, Quot.sound]
'Verif.FileProvider.delivers_in_order' depends on axioms: [propext, Quot.sound]
'Verif.FileProvider.end_is_final' depends on axioms: [propext]
'Verif.FileProvider.error_retries' depends on axioms: [propext]
'Verif.FileProvider.getAll_complete_partial' depends on axioms: [propext, Quot.sound]
'Verif.FileProvider.getAll_complete_violated' depends on axioms: [propext]
'Verif.FileProvider.getAll_terminates' depends on axioms: [propext, Quot.sound]
'Verif.FloatUses.cost32_spec' depends on axioms: [propext, Classical.choice, Quot.sound]
'Verif.FloatUses.cost_violated' depends on axioms: [propext, Classical.choice, Quot.sound]
'Verif.FloatUses.emit64_monotone_partial' depends on axioms: [propext, Classical.choice, Quot.sound]
'Verif.FloatUses.emitted64_above_fraction' depends on axioms: [propext, Classical.choice, Quot.sound]
'Verif.FloatUses.emitted64_iff' depends on axioms: [propext, Classical.choice, Quot.sound]
'Verif.FloatUses.ex_fillList64' depends on axioms: [propext, Classical.choice, Quot.sound]
'Verif.FloatUses.ex_threshold64' depends on axioms: [propext, Classical.choice, Quot.sound]
'Verif.FloatUses.fillList64_eq' depends on axioms: [propext, Classical.choice, Quot.sound]
'Verif.FloatUses.inclusive_counts32_acyclic_partial' depends on axioms: [propext, Classical.choice, Quot.sound]
'Verif.FloatUses.size_violated' depends on axioms: [propext, Classical.choice, Quot.sound]
'Verif.FloatUses.threshold_bounds' depends on axioms: [propext, Classical.choice, Quot.sound]
'Verif.ForcedPath.breakCycles_spec' depends on axioms: [propext, Classical.choice, Quot.sound]
'Verif.ForcedPath.forcedEdges_spec' depends on axioms: [propext, Classical.choice, Quot.sound]
'Verif.ForcedPath.forcedPaths_example' depends on axioms: [propext]
'Verif.ForcedPath.forcedPaths_spec' depends on axioms: [propext, Classical.choice, Quot.sound]
'Verif.Gcov.buffered_open_eq' depends on axioms: [propext, Quot.sound]
'Verif.Gcov.buffered_read_refines' depends on axioms: [propext, Quot.sound]
'Verif.Gcov.buffered_run_eq' depends on axioms: [propext, Quot.sound]
'Verif.Gcov.gcov_long_string_aborts' depends on axioms: [propext, Classical.choice, Quot.sound]
'Verif.Gcov.gcov_roundtrip' depends on axioms: [propext, Classical.choice, Quot.sound]
'Verif.Gcov.reads_after_eof_are_zero' depends on axioms: [propext]
'Verif.InferFT.canFallThrough_iff' depends on axioms: [propext, Classical.choice, Quot.sound]
'Verif.InferFT.computeWeights_actual' depends on axioms: [propext, Classical.choice, Quot.sound]
'Verif.InferFT.computeWeights_sums' depends on axioms: [propext, Classical.choice, Quot.sound]
'Verif.InferFT.infer_exact' depends on axioms: [propext, Classical.choice, Quot.sound]
'Verif.InferFT.infer_map_sound' depends on axioms: [propext, Classical.choice, Quot.sound]
'Verif.InferFT.infer_sound' depends on axioms: [propext, Classical.choice, Quot.sound]
'Verif.Inline.circular_references_violated' depends on axioms: [propext, Classical.choice, Quot.sound]
'Verif.Inline.clean_kept' depends on axioms: [propext, Classical.choice, Quot.sound]
'Verif.Inline.declLoop_iff' depends on axioms: [propext, Classical.choice, Quot.sound]
'Verif.Inline.decl_total' depends on axioms: [propext, Classical.choice, Quot.sound]
'Verif.Inline.exClean_clean' depends on axioms: [propext]
'Verif.Inline.exInfo_ok' depends on axioms: [propext, Quot.sound]
'Verif.Inline.exInfo_refs' depends on axioms: [propext, Quot.sound]
'Verif.Inline.exInfo_tidy' depends on axioms: [propext, Quot.sound]
'Verif.Inline.exStack' depends on axioms: [propext, Classical.choice, Quot.sound]
'Verif.Inline.exSubs_bad' depends on axioms: [propext]
'Verif.Inline.exSubs_parents' depends on axioms: [propext]
'Verif.Inline.exSubs_single' depends on axioms: [propext]
'Verif.Inline.expand_spec' depends on axioms: [propext, Classical.choice, Quot.sound]
'Verif.Inline.high_before_low_violated' depends on axioms: [propext]
'Verif.Inline.inline_stack' depends on axioms: [propext, Classical.choice, Quot.sound]
'Verif.Inline.kept_disjoint' depends on axioms: [propext, Classical.choice, Quot.sound]
'Verif.Inline.kept_parent' depends on axioms: [propext, Classical.choice, Quot.sound]
'Verif.Inline.kept_single' depends on axioms: [propext, Classical.choice, Quot.sound]
'Verif.Inline.lookup_innermost' depends on axioms: [propext, Classical.choice, Quot.sound]
'Verif.Inline.low_without_high_violated' depends on axioms: [propext]
'Verif.Inline.name_lost_violated' depends on axioms: [propext, Classical.choice, Quot.sound]
'Verif.Inline.nested_function_lost_violated' depends on axioms: [propext]
'Verif.Inline.no_call_file_violated' depends on axioms: [propext, Classical.choice, Quot.sound]
'Verif.Inline.overlapping_siblings_violated' depends on axioms: [propext]
'Verif.Inline.reversed_range_violated' depends on axioms: [propext]
'Verif.Inline.singleton_range' depends on axioms: [propext]
'Verif.Inline.singleton_range_offset' depends on axioms: [propext, Quot.sound]
'Verif.Inline.sortAndMerge_ex' depends on axioms: [propext, Quot.sound]
'Verif.Inline.sortAndMerge_own' depends on axioms: [propext, Classical.choice, Quot.sound]
'Verif.Inline.sortAndMerge_spec' depends on axioms: [propext, Classical.choice, Quot.sound]
'Verif.Inline.split_function_lost_violated' depends on axioms: [propext]
'Verif.InlineHandler.call_line_forms_violated' depends on axioms: [propext, Quot.sound]
'Verif.InlineHandler.comp_dir_violated' depends on axioms: [propext, Quot.sound]
'Verif.InlineHandler.decl_line_const_violated' depends on axioms: [propext, Quot.sound]
'Verif.InlineHandler.fn_cell' depends on axioms: [propext, Classical.choice, Quot.sound]
'Verif.InlineHandler.hxInfo_ok' depends on axioms: [propext, Quot.sound]
'Verif.InlineHandler.hxUnits_at' depends on axioms: [propext, Classical.choice, Quot.sound]
'Verif.InlineHandler.hx_decoded' depends on axioms: [propext, Classical.choice, Quot.sound]
'Verif.InlineHandler.hx_desc' depends on axioms: [propext, Classical.choice, Quot.sound]
'Verif.InlineHandler.inline_stacks_decoded' depends on axioms: [propext, Classical.choice, Quot.sound]
'Verif.InlineHandler.marks_iff' depends on axioms: [propext, Quot.sound]
'Verif.InlineHandler.nested_code_violated' depends on axioms: [propext]
'Verif.InlineHandler.parents' depends on axioms: [propext, Classical.choice, Quot.sound]
'Verif.InlineHandler.parents_later' depends on axioms: [propext, Classical.choice, Quot.sound]
'Verif.InlineHandler.ref_forms_violated' depends on axioms: [propext, Quot.sound]
'Verif.InlineHandler.report_cu' depends on axioms: [propext, Classical.choice, Quot.sound]
'Verif.InlineHandler.section_walk' depends on axioms: [propext, Classical.choice, Quot.sound]
'Verif.InlineHandler.subprograms_decoded' depends on axioms: [propext, Classical.choice, Quot.sound]
'Verif.InlineHandler.unit_rnglistx_violated' depends on axioms: [propext, Quot.sound]
'Verif.InlineHandler.unit_walk' depends on axioms: [propext, Classical.choice, Quot.sound]
'Verif.Layout.Runs.unique' depends on axioms: [propext, Classical.choice, Quot.sound]
'Verif.Layout.allChains_ok' depends on axioms: [propext, Classical.choice, Quot.sound]
'Verif.Layout.coldOrder_ok' depends on axioms: [propext, Classical.choice, Quot.sound]
'Verif.Layout.coldSymbols_ok' depends on axioms: [propext, Quot.sound]
'Verif.Layout.emit_ok' depends on axioms: [propext, Classical.choice, Quot.sound]
'Verif.Layout.layoutAddrs_ok' depends on axioms: [propext, Quot.sound]
'Verif.Layout.layout_byId' depends on axioms: [propext, Classical.choice, Quot.sound]
'Verif.Layout.layout_cold' depends on axioms: [propext, Classical.choice, Quot.sound]
'Verif.Layout.layout_entry' depends on axioms: [propext, Quot.sound]
'Verif.Layout.layout_indices' depends on axioms: [propext, Quot.sound]
'Verif.Layout.layout_once' depends on axioms: [propext, Classical.choice, Quot.sound]
'Verif.Layout.layout_order' depends on axioms: [propext, Classical.choice, Quot.sound]
'Verif.Layout.ldSymbols_nodup' depends on axioms: [propext, Classical.choice, Quot.sound]
'Verif.Layout.orderAll_ok' depends on axioms: [propext, Classical.choice, Quot.sound]
'Verif.Layout.readCc_ccText' depends on axioms: [propext, Classical.choice, Quot.sound]
'Verif.Layout.symbolOrder_ok' depends on axioms: [propext, Classical.choice, Quot.sound]
'Verif.Lazy.lazy_const' depends on axioms: [propext]
'Verif.Lazy.lazy_once' depends on axioms: [propext]
'Verif.Lazy.lazy_unused' depends on axioms: [propext]
'Verif.Lbr.append_counts' depends on axioms: [propext, Classical.choice, Quot.sound]
'Verif.Lbr.branches_exact_violated' depends on axioms: [propext, Quot.sound]
'Verif.Lbr.branches_sound' depends on axioms: [propext, Classical.choice, Quot.sound]
'Verif.Lbr.clean_stack_exact_partial' depends on axioms: [propext, Classical.choice, Quot.sound]
'Verif.Lbr.range_ends_real_violated' depends on axioms: [propext, Quot.sound]
'Verif.Lbr.ranges_sound' depends on axioms: [propext, Quot.sound]
'Verif.LineMap.address_to_line' depends on axioms: [propext, Classical.choice, Quot.sound]
'Verif.LineMap.address_to_line_ex' depends on axioms: [propext, Classical.choice, Quot.sound]
'Verif.LineMap.adjacent_sequence_violated' depends on axioms: [propext]
'Verif.LineMap.ans_sequences' depends on axioms: [propext, Classical.choice, Quot.sound]
'Verif.LineMap.ex_described' depends on axioms: [propext, Classical.choice, Quot.sound]
'Verif.LineMap.ex_described_dead' depends on axioms: [propext, Classical.choice, Quot.sound]
'Verif.LineMap.ex_disj' depends on axioms: [propext, Quot.sound]
'Verif.LineMap.found_iff' depends on axioms: [propext, Quot.sound]
'Verif.LineMap.lookup_defined' depends on axioms: [propext, Quot.sound]
'Verif.LineMap.lookup_iff' depends on axioms: [propext, Classical.choice, Quot.sound]
'Verif.LineMap.unit5_file_violated' depends on axioms: [propext]
'Verif.LlvmLine.context_iff' depends on axioms: [propext, Quot.sound]
'Verif.LlvmLine.dir_violated' depends on axioms: [propext, Quot.sound]
'Verif.LlvmLine.ex_section' depends on axioms: [propext, Quot.sound]
'Verif.LlvmLine.ex_small' depends on axioms: [propext, Quot.sound]
'Verif.LlvmLine.ex_stack' depends on axioms: [propext, Quot.sound]
'Verif.LlvmLine.offset_violated' depends on axioms: [propext]
'Verif.LlvmLine.section_spec' depends on axioms: [propext, Classical.choice, Quot.sound]
'Verif.LlvmLine.stack_empty' depends on axioms: [propext, Classical.choice, Quot.sound]
'Verif.LlvmLine.stack_spec' depends on axioms: [propext, Classical.choice, Quot.sound]
'Verif.LlvmLine.unitName_spec' depends on axioms: [propext, Quot.sound]
'Verif.MMapSelector.buildIdNames_none' depends on axioms: [propext, Classical.choice, Quot.sound]
'Verif.MMapSelector.buildIdNames_spec' depends on axioms: [propext, Classical.choice, Quot.sound]
'Verif.MMapSelector.choose_build_id' depends on axioms: [propext, Classical.choice, Quot.sound]
'Verif.MMapSelector.choose_name' depends on axioms: [propext, Classical.choice, Quot.sound]
'Verif.MMapSelector.toHex_injective' depends on axioms: [propext, Quot.sound]
'Verif.Mapper.build_isSome_iff' depends on axioms: [propext, Quot.sound]
'Verif.Mapper.build_ordered' depends on axioms: [propext, Quot.sound]
'Verif.Mapper.find_covers' depends on axioms: [propext, Classical.choice, Quot.sound]
'Verif.Mapper.find_from' depends on axioms: [propext, Classical.choice, Quot.sound]
'Verif.Mapper.find_none_iff' depends on axioms: [propext, Classical.choice, Quot.sound]
'Verif.Mapper.find_to' depends on axioms: [propext, Classical.choice, Quot.sound]
'Verif.MapperSelect.filterDup_distinct' depends on axioms: [propext, Classical.choice, Quot.sound]
'Verif.MapperSelect.filterDup_iff' depends on axioms: [propext, Classical.choice, Quot.sound]
'Verif.MapperSelect.filterDup_keeps' depends on axioms: [propext, Quot.sound]
'Verif.MapperSelect.filterDup_keeps_first' depends on axioms: [propext, Quot.sound]
'Verif.MapperSelect.hotFunctions_iff' depends on axioms: [propext, Classical.choice, Quot.sound]
'Verif.MapperSelect.select_spec' depends on axioms: [propext, Classical.choice, Quot.sound]
'Verif.MapperSyms.exSyms_info' depends on axioms: [propext, Quot.sound]
'Verif.MapperSyms.first_exists' depends on axioms: [propext, Quot.sound]
'Verif.MapperSyms.names_spec' depends on axioms: [propext, Classical.choice, Quot.sound]
'Verif.MapperSyms.readBinary_spec' depends on axioms: [propext, Classical.choice, Quot.sound]
'Verif.MapperSyms.selected_named' depends on axioms: [propext, Classical.choice, Quot.sound]
'Verif.MapperSyms.storedSection_text' depends on axioms: [propext, Classical.choice, Quot.sound]
'Verif.MapperSyms.table_exact' depends on axioms: [propext, Classical.choice, Quot.sound]
'Verif.Merger.merge_gcov' depends on axioms: [propext, Classical.choice, Quot.sound]
'Verif.Merger.merge_gcov_missing' depends on axioms: [propext, Classical.choice, Quot.sound]
'Verif.Merger.merge_gcov_order' depends on axioms: [propext, Classical.choice, Quot.sound]
'Verif.Merger.merge_targets_violated' depends on axioms: [propext, Classical.choice, Quot.sound]
'Verif.Merger.merge_version_violated' depends on axioms: [propext, Classical.choice, Quot.sound]
'Verif.Merger.profile_fits' depends on axioms: [propext, Classical.choice, Quot.sound]
'Verif.Merger.read_inputs' depends on axioms: [propext, Classical.choice, Quot.sound]
'Verif.Merger.sample_ok' depends on axioms: [propext, Classical.choice, Quot.sound]
'Verif.Merger.staged_merge_loses' depends on axioms: [propext, Classical.choice, Quot.sound]
'Verif.MergerLlvm.exFile_ok' depends on axioms: [propext, Classical.choice, Quot.sound]
'Verif.MergerLlvm.exMerge_error' depends on axioms: [propext, Classical.choice, Quot.sound]
'Verif.MergerLlvm.exMerge_limits' depends on axioms: [propext, Classical.choice, Quot.sound]
'Verif.MergerLlvm.exMerge_ok' depends on axioms: [propext, Classical.choice, Quot.sound]
'Verif.MergerLlvm.exMerge_result' depends on axioms: [propext, Classical.choice, Quot.sound]
'Verif.MergerLlvm.limited_function_lost' depends on axioms: [propext, Classical.choice, Quot.sound]
'Verif.MergerLlvm.merge_llvm' depends on axioms: [propext, Classical.choice, Quot.sound]
'Verif.MergerLlvm.merge_llvm_missing' depends on axioms: [propext, Classical.choice, Quot.sound]
'Verif.MergerLlvm.merge_llvm_sums' depends on axioms: [propext, Classical.choice, Quot.sound]
'Verif.MergerLlvm.merge_llvm_within' depends on axioms: [propext, Classical.choice, Quot.sound]
'Verif.MergerLlvm.removed_function_written' depends on axioms: [propext, Classical.choice, Quot.sound]
'Verif.MergerLlvm.sums_fit' depends on axioms: [propext, Classical.choice, Quot.sound]
'Verif.MergerLlvm.writeProfiles_iff' depends on axioms: [propext, Classical.choice, Quot.sound]
'Verif.Overlap.above_one_violated' depends on axioms: [propext, Classical.choice, Quot.sound]
'Verif.Overlap.below_one_violated' depends on axioms: [propext, Classical.choice, Quot.sound]
'Verif.Overlap.ex_overlap' depends on axioms: [propext, Classical.choice, Quot.sound]
'Verif.Overlap.overlap32_comm' depends on axioms: [propext, Classical.choice, Quot.sound]
'Verif.Overlap.overlap32_error' depends on axioms: [propext, Classical.choice, Quot.sound]
'Verif.Overlap.overlap32_near' depends on axioms: [propext, Classical.choice, Quot.sound]
'Verif.Overlap.overlap32_range' depends on axioms: [propext, Classical.choice, Quot.sound]
'Verif.Overlap.overlap32_self' depends on axioms: [propext, Classical.choice, Quot.sound]
'Verif.Overlap.overlap32_zero_iff' depends on axioms: [propext, Classical.choice, Quot.sound]
'Verif.Overlap.overlap_comm' depends on axioms: [propext, Classical.choice, Quot.sound]
'Verif.Overlap.overlap_one_iff' depends on axioms: [propext, Classical.choice, Quot.sound]
'Verif.Overlap.overlap_range' depends on axioms: [propext, Classical.choice, Quot.sound]
'Verif.Overlap.overlap_self' depends on axioms: [propext, Classical.choice, Quot.sound]
'Verif.Overlap.overlap_spec_partial' depends on axioms: [propext, Classical.choice, Quot.sound]
'Verif.Overlap.overlap_zero_iff' depends on axioms: [propext, Classical.choice, Quot.sound]
'Verif.Overlap.stagnation_violated' depends on axioms: [propext, Classical.choice, Quot.sound]
'Verif.Percentile.threshold_monotone' depends on axioms: [propext, Classical.choice, Quot.sound]
'Verif.Percentile.threshold_rank' depends on axioms: [propext, Classical.choice, Quot.sound]
'Verif.Percentile.threshold_rejects' depends on axioms: [propext, Quot.sound]
'Verif.PerfAgg.aggregateAll_order' depends on axioms: [propext, Classical.choice, Quot.sound]
'Verif.PerfAgg.aggregateAll_spec' depends on axioms: [propext, Classical.choice, Quot.sound]
'Verif.PerfAgg.aggregateLBR_spec' depends on axioms: [propext, Classical.choice, Quot.sound]
'Verif.PerfAgg.aggregateSpe_spec' depends on axioms: [propext, Classical.choice, Quot.sound]
'Verif.PerfAgg.counts_perm' depends on axioms: [propext, Quot.sound]
'Verif.PerfAgg.numBranches_exact' depends on axioms: [propext, Quot.sound]
'Verif.PerfMMap.clash_iff_overlap' depends on axioms: [propext, Quot.sound]
'Verif.PerfMMap.goodMaps_of_select' depends on axioms: [propext, Classical.choice, Quot.sound]
'Verif.PerfMMap.select_none_iff' depends on axioms: [propext, Classical.choice, Quot.sound]
'Verif.PerfMMap.select_ok' depends on axioms: [propext, Classical.choice, Quot.sound]
'Verif.PerfMMap.toBinary_difference' depends on axioms: [propext, Classical.choice, Quot.sound]
'Verif.PerfMMap.toBinary_kernel' depends on axioms: [propext, Classical.choice, Quot.sound]
'Verif.PerfMMap.toBinary_nonpie' depends on axioms: [propext, Quot.sound]
'Verif.PerfMMap.toBinary_pie' depends on axioms: [propext, Quot.sound]
'Verif.PerfMMap.toBinary_unmapped' depends on axioms: [propext, Quot.sound]
'Verif.PerfMMap.toEntry_iff' depends on axioms: [propext]
'Verif.PerfRead.append_bad' depends on axioms: [propext, Classical.choice, Quot.sound]
'Verif.PerfRead.append_files_partial' depends on axioms: [propext, Classical.choice, Quot.sound]
'Verif.PerfRead.append_stale_cache_violated' depends on axioms: [propext, Classical.choice, Quot.sound]
'Verif.PerfRead.exFile_read' depends on axioms: [propext, Classical.choice, Quot.sound]
'Verif.PerfRead.exFiles_compatible' depends on axioms: [propext, Classical.choice, Quot.sound]
'Verif.PerfRead.exKernel' depends on axioms: [propext, Classical.choice, Quot.sound]
'Verif.PerfRead.focusBins_empty' depends on axioms: [propext, Classical.choice, Quot.sound]
'Verif.PerfRead.mem_focusBins' depends on axioms: [propext, Classical.choice, Quot.sound]
'Verif.PerfRead.merge_perf_files' depends on axioms: [propext, Classical.choice, Quot.sound]
'Verif.PerfRead.read_file' depends on axioms: [propext, Classical.choice, Quot.sound]
'Verif.PerfRead.recorded_sound' depends on axioms: [propext, Classical.choice, Quot.sound]
'Verif.Pipeline.create_bad_text' depends on axioms: [propext, Classical.choice, Quot.sound]
'Verif.Pipeline.create_profile' depends on axioms: [propext, Classical.choice, Quot.sound]
'Verif.Pipeline.exProgram_created' depends on axioms: [propext, Classical.choice, Quot.sound]
'Verif.Pipeline.exS_covered' depends on axioms: [propext, Classical.choice, Quot.sound]
'Verif.Pipeline.exS_ok' depends on axioms: [propext, Classical.choice, Quot.sound]
'Verif.Prefetch.HintProfile.all' depends on axioms: [propext, Classical.choice, Quot.sound]
'Verif.Prefetch.HintProfile.written' depends on axioms: [propext, Classical.choice, Quot.sound]
'Verif.Prefetch.convert_hints' depends on axioms: [propext, Classical.choice, Quot.sound]
'Verif.Prefetch.create_prefetch' depends on axioms: [propext, Classical.choice, Quot.sound]
'Verif.Prefetch.delta_recovered' depends on axioms: [propext, Quot.sound]
'Verif.Prefetch.dot_violated' depends on axioms: [propext, Classical.choice, Quot.sound]
'Verif.Prefetch.elided_violated' depends on axioms: [propext, Classical.choice, Quot.sound]
'Verif.Prefetch.exHints_fit' depends on axioms: [propext, Classical.choice, Quot.sound]
'Verif.Prefetch.exPrefetch_created' depends on axioms: [propext, Classical.choice, Quot.sound]
'Verif.Prefetch.first_hint_violated' depends on axioms: [propext, Classical.choice, Quot.sound]
'Verif.Prefetch.long_type_violated' depends on axioms: [propext, Classical.choice, Quot.sound]
'Verif.Prefetch.many_hints_violated' depends on axioms: [propext, Classical.choice, Quot.sound]
'Verif.Prefetch.missing_file' depends on axioms: [propext, Classical.choice, Quot.sound]
'Verif.Prefetch.read_hints' depends on axioms: [propext, Classical.choice, Quot.sound]
'Verif.Prefetch.same_line_violated' depends on axioms: [propext, Classical.choice, Quot.sound]
'Verif.Progress.done_iff_all' depends on axioms: [propext, Quot.sound]
'Verif.Progress.done_monotone' depends on axioms: [propext, Quot.sound]
'Verif.Progress.done_progress' depends on axioms: [propext, Quot.sound]
'Verif.Progress.done_progress32' depends on axioms: [propext, Classical.choice, Quot.sound]
'Verif.Progress.ex_progress32' depends on axioms: [propext, Classical.choice, Quot.sound]
'Verif.Progress.multi_done_iff' depends on axioms: [propext, Quot.sound]
'Verif.Progress.progress32_100_iff_done' depends on axioms: [propext, Classical.choice, Quot.sound]
'Verif.Progress.progress32_in_range' depends on axioms: [propext, Classical.choice, Quot.sound]
'Verif.Progress.progress32_monotone' depends on axioms: [propext, Classical.choice, Quot.sound]
'Verif.Progress.progress_100_iff_done' depends on axioms: [propext, Classical.choice, Quot.sound]
'Verif.Progress.progress_in_range' depends on axioms: [propext, Classical.choice, Quot.sound]
'Verif.Progress.progress_monotone' depends on axioms: [propext, Classical.choice, Quot.sound]
'Verif.Progress.rounding_violated' depends on axioms: [propext, Classical.choice, Quot.sound]
'Verif.Progress.set_done_completes' depends on axioms: [propext]
'Verif.Progress.weighted_mean32_partial' depends on axioms: [propext, Classical.choice, Quot.sound]
'Verif.Progress.weighted_mean_partial' depends on axioms: [propext, Quot.sound]
'Verif.Progress.weighted_mean_violated' does not depend on any axioms
'Verif.PropCli.api_names' depends on axioms: [propext]
'Verif.PropCli.cli_partial' depends on axioms: [propext, Classical.choice, Quot.sound]
'Verif.PropCli.computerFiles_iff' depends on axioms: [propext, Classical.choice, Quot.sound]
'Verif.PropCli.dispatch_iff' depends on axioms: [propext, Classical.choice, Quot.sound]
'Verif.PropCli.ex_hyps' depends on axioms: [propext, Classical.choice, Quot.sound]
'Verif.PropCli.ex_plan' depends on axioms: [propext, Classical.choice, Quot.sound]
'Verif.PropCli.ignore_build_id_violated' depends on axioms: [propext, Quot.sound]
'Verif.PropCli.inputs_file' depends on axioms: [propext, Classical.choice, Quot.sound]
'Verif.PropCli.inputs_semicolon' depends on axioms: [propext, Quot.sound]
'Verif.PropCli.plan_refuses_iff' depends on axioms: [propext, Classical.choice, Quot.sound]
'Verif.PropCli.plan_spec' depends on axioms: [propext, Classical.choice, Quot.sound]
'Verif.PropCli.profileType_iff' depends on axioms: [propext, Classical.choice, Quot.sound]
'Verif.PropCli.spe_type_violated' depends on axioms: [propext]
'Verif.PropFiles.checkLbr_spec' depends on axioms: [propext, Classical.choice, Quot.sound]
'Verif.PropFiles.disassembleOne_iff' depends on axioms: [propext, Quot.sound]
'Verif.PropFiles.ex_lbr' depends on axioms: [propext, Classical.choice, Quot.sound]
'Verif.PropFiles.ex_lbr_ok' depends on axioms: [propext, Classical.choice, Quot.sound]
'Verif.PropFiles.freq_spec' depends on axioms: [propext, Classical.choice, Quot.sound]
'Verif.PropFiles.lbr_fails_iff' depends on axioms: [propext, Classical.choice, Quot.sound]
'Verif.PropFiles.lbr_spec' depends on axioms: [propext, Classical.choice, Quot.sound]
'Verif.PropFiles.provider_error' depends on axioms: [propext, Classical.choice, Quot.sound]
'Verif.PropFiles.section_end_violated' depends on axioms: [propext]
'Verif.PropFiles.skipped' depends on axioms: [propext, Classical.choice, Quot.sound]
'Verif.PropFiles.stats_reused_violated' depends on axioms: [propext, Classical.choice, Quot.sound]
'Verif.PropRun.cluster_of' depends on axioms: [propext, Classical.choice, Quot.sound]
'Verif.PropRun.config_spec' depends on axioms: [propext, Classical.choice, Quot.sound]
'Verif.PropRun.dispatch_cases' depends on axioms: [propext, Classical.choice, Quot.sound]
'Verif.PropRun.ex_data' depends on axioms: [propext, Classical.choice, Quot.sound]
'Verif.PropRun.ex_good' depends on axioms: [propext, Classical.choice, Quot.sound]
'Verif.PropRun.ex_run' depends on axioms: [propext, Classical.choice, Quot.sound]
'Verif.PropRun.files_kept' depends on axioms: [propext, Classical.choice, Quot.sound]
'Verif.PropRun.lbr_sampled' depends on axioms: [propext, Classical.choice, Quot.sound]
'Verif.PropRun.run_spec' depends on axioms: [propext, Classical.choice, Quot.sound]
'Verif.PropRun.spe_sampled' depends on axioms: [propext, Classical.choice, Quot.sound]
'Verif.PropRun.unwritable' depends on axioms: [propext, Classical.choice, Quot.sound]
'Verif.PropRun.unwritable_violated' depends on axioms: [propext, Classical.choice, Quot.sound]
'Verif.PropRun.version_crash' depends on axioms: [propext, Classical.choice, Quot.sound]
'Verif.PropRun.version_violated' depends on axioms: [propext, Classical.choice, Quot.sound]
'Verif.Propeller.buildGraph_spec' depends on axioms: [propext, Classical.choice, Quot.sound]
'Verif.Propeller.clusterFile_ok' depends on axioms: [propext, Classical.choice, Quot.sound]
'Verif.Propeller.cluster_file' depends on axioms: [propext, Classical.choice, Quot.sound]
'Verif.Propeller.computeProfile_ok' depends on axioms: [propext, Classical.choice, Quot.sound]
'Verif.Propeller.example_ok' depends on axioms: [propext, Classical.choice, Quot.sound]
'Verif.Propeller.faithful' depends on axioms: [propext, Classical.choice, Quot.sound]
'Verif.Propeller.graph_ok' depends on axioms: [propext, Classical.choice, Quot.sound]
'Verif.Propeller.samples_counts' depends on axioms: [propext, Classical.choice, Quot.sound]
'Verif.Propeller.section_ok' depends on axioms: [propext, Classical.choice, Quot.sound]
'Verif.Propeller.selected' depends on axioms: [propext, Classical.choice, Quot.sound]
'Verif.RangeMap.find_spec' depends on axioms: [propext, Classical.choice, Quot.sound]
'Verif.RangeMap.history_nonoverlapping' depends on axioms: [propext, Classical.choice, Quot.sound]
'Verif.RangeMap.insertRange_accepts' depends on axioms: [propext, Classical.choice, Quot.sound]
'Verif.RangeMap.insertRange_spec' depends on axioms: [propext, Classical.choice, Quot.sound]
'Verif.Ranges.v4_range_list' depends on axioms: [propext, Classical.choice, Quot.sound]
'Verif.Ranges.v5_meaning_partial' depends on axioms: [propext, Classical.choice, Quot.sound]
'Verif.Ranges.v5_meaning_violated' depends on axioms: [propext]
'Verif.Ranges.v5_range_list' depends on axioms: [propext, Classical.choice, Quot.sound]
'Verif.Registry.ex_once' depends on axioms: [propext, Quot.sound]
'Verif.Registry.ex_over' depends on axioms: [propext]
'Verif.Registry.ex_reach' depends on axioms: [propext]
'Verif.Registry.late_reach_violated' depends on axioms: [propext]
'Verif.Registry.late_violated' does not depend on any axioms
'Verif.Registry.once_of' depends on axioms: [propext, Quot.sound]
'Verif.Registry.program_order' depends on axioms: [propext]
'Verif.Registry.progress' depends on axioms: [propext, Quot.sound]
'Verif.Registry.provider_alive' depends on axioms: [propext, Quot.sound]
'Verif.Registry.received_spec' depends on axioms: [propext, Quot.sound]
'Verif.Registry.run_over' depends on axioms: [propext, Classical.choice, Quot.sound]
'Verif.RngLists.empty_table_violated' depends on axioms: [propext]
'Verif.RngLists.exC_ok' depends on axioms: [propext]
'Verif.RngLists.ex_by_number' depends on axioms: [propext, Classical.choice, Quot.sound]
'Verif.RngLists.headers_read' depends on axioms: [propext, Classical.choice, Quot.sound]
'Verif.RngLists.list_by_number' depends on axioms: [propext, Classical.choice, Quot.sound]
'Verif.RngLists.list_by_offset4' depends on axioms: [propext, Classical.choice, Quot.sound]
'Verif.RngLists.list_by_offset5' depends on axioms: [propext, Classical.choice, Quot.sound]
'Verif.RngLists.number_without_array_violated' depends on axioms: [propext]
'Verif.RngLists.readHeader_ok' depends on axioms: [propext, Classical.choice, Quot.sound]
'Verif.RngLists.readHeaders_ok' depends on axioms: [propext, Classical.choice, Quot.sound]
'Verif.RunProgress.complete_iff' depends on axioms: [propext, Classical.choice, Quot.sound]
'Verif.RunProgress.early_violated' depends on axioms: [propext, Classical.choice, Quot.sound]
'Verif.RunProgress.ex_run' depends on axioms: [propext, Classical.choice, Quot.sound]
'Verif.RunProgress.in_range' depends on axioms: [propext, Classical.choice, Quot.sound]
'Verif.RunProgress.job_spec' depends on axioms: [propext, Classical.choice, Quot.sound]
'Verif.RunProgress.polls_monotone' depends on axioms: [propext, Classical.choice, Quot.sound]
'Verif.RunProgress.told' depends on axioms: [propext, Quot.sound]
'Verif.Sample.append_file_eq_merge' depends on axioms: [propext, Classical.choice, Quot.sound]
'Verif.Sample.covered_bytes_merge' depends on axioms: [propext, Classical.choice, Quot.sound]
'Verif.Sample.merge_assoc' depends on axioms: [propext, Classical.choice, Quot.sound]
'Verif.Sample.merge_sample_count' depends on axioms: [propext, Classical.choice, Quot.sound]
'Verif.Sample.merge_sample_order' depends on axioms: [propext, Classical.choice, Quot.sound]
'Verif.Sample.merge_sample_sums' depends on axioms: [propext, Classical.choice, Quot.sound]
'Verif.Sample.readText_writeText' depends on axioms: [propext, Classical.choice, Quot.sound]
'Verif.Sample.text_profile_roundtrip' depends on axioms: [propext, Classical.choice, Quot.sound]
'Verif.Sample.total_count_correct' depends on axioms: [propext, Quot.sound]
'Verif.Sample.total_count_exact' depends on axioms: [propext, Quot.sound]
'Verif.Sample.total_sample_count' depends on axioms: [propext, Quot.sound]
'Verif.SampleMerger.ex_before' depends on axioms: [propext, Classical.choice, Quot.sound]
'Verif.SampleMerger.ex_fits' depends on axioms: [propext, Classical.choice, Quot.sound]
'Verif.SampleMerger.ex_read' depends on axioms: [propext, Classical.choice, Quot.sound]
'Verif.SampleMerger.ex_run' depends on axioms: [propext, Classical.choice, Quot.sound]
'Verif.SampleMerger.full_disk_violated' depends on axioms: [propext, Classical.choice, Quot.sound]
'Verif.SampleMerger.inputs_spec' depends on axioms: [propext]
'Verif.SampleMerger.isMerge_unique' depends on axioms: [propext, Classical.choice, Quot.sound]
'Verif.SampleMerger.overflow_violated' depends on axioms: [propext, Classical.choice, Quot.sound]
'Verif.SampleMerger.readSample_ok' depends on axioms: [propext, Classical.choice, Quot.sound]
'Verif.SampleMerger.sample_merger' depends on axioms: [propext, Classical.choice, Quot.sound]
'Verif.SampleMerger.sample_merger_fails' depends on axioms: [propext, Classical.choice, Quot.sound]
'Verif.SampleMerger.sample_merger_order' depends on axioms: [propext, Classical.choice, Quot.sound]
'Verif.SampleMerger.sample_merger_twice' depends on axioms: [propext, Classical.choice, Quot.sound]
'Verif.Sampled.ex_holds' depends on axioms: [propext, Quot.sound]
'Verif.Sampled.gap_violated' depends on axioms: [propext]
'Verif.Sampled.order_violated' depends on axioms: [propext]
'Verif.Sampled.sampledAddrs_spec' depends on axioms: [propext, Quot.sound]
'Verif.Sampled.sampledSymbols_exact' depends on axioms: [propext, Classical.choice, Quot.sound]
'Verif.Sampled.sampled_exact' depends on axioms: [propext, Classical.choice, Quot.sound]
'Verif.Sampled.sampled_included' depends on axioms: [propext, Classical.choice, Quot.sound]
'Verif.Scale.alias_violated' depends on axioms: [propext, Classical.choice, Quot.sound]
'Verif.Scale.ex_inv' depends on axioms: [propext, Classical.choice, Quot.sound]
'Verif.Scale.ex_scale' depends on axioms: [propext, Classical.choice, Quot.sound]
'Verif.Scale.large_violated' depends on axioms: [propext, Classical.choice, Quot.sound]
'Verif.Scale.scaleN_err' depends on axioms: [propext, Classical.choice, Quot.sound]
'Verif.Scale.scaleN_exact' depends on axioms: [propext, Classical.choice, Quot.sound]
'Verif.Scale.scaleN_mono' depends on axioms: [propext, Classical.choice, Quot.sound]
'Verif.Scale.scaleN_zero' depends on axioms: [propext, Classical.choice, Quot.sound]
'Verif.Scale.scale_inv' depends on axioms: [propext, Classical.choice, Quot.sound]
'Verif.Scale.scale_spec' depends on axioms: [propext, Classical.choice, Quot.sound]
'Verif.Scale.store_scale' depends on axioms: [propext, Classical.choice, Quot.sound]
'Verif.Scale.store_scale_once' depends on axioms: [propext, Classical.choice, Quot.sound]
'Verif.Scale.sum_violated' depends on axioms: [propext, Classical.choice, Quot.sound]
'Verif.Scale.totalSum_once' depends on axioms: [propext, Classical.choice, Quot.sound]
'Verif.Scale.totalSum_spec' depends on axioms: [propext, Classical.choice, Quot.sound]
'Verif.Scc.collapse_ok' depends on axioms: [propext, Classical.choice, Quot.sound]
'Verif.Scc.findScc_ok' depends on axioms: [propext, Classical.choice, Quot.sound]
'Verif.Scc.inclusive_counts_acyclic_partial' depends on axioms: [propext, Classical.choice, Quot.sound]
'Verif.Scc.inclusive_counts_partial' depends on axioms: [propext, Classical.choice, Quot.sound]
'Verif.Scc.inclusive_counts_violated' depends on axioms: [propext, Quot.sound]
'Verif.Scc.topoSort_ok' depends on axioms: [propext, Classical.choice, Quot.sound]
'Verif.Scorer.fallthrough_is_best_partial' depends on axioms: [propext, Classical.choice, Quot.sound]
'Verif.Scorer.fallthrough_is_best_violated' depends on axioms: [propext, Classical.choice, Quot.sound]
'Verif.Scorer.score_antitone' depends on axioms: [propext, Classical.choice, Quot.sound]
'Verif.Scorer.score_bounds' depends on axioms: [propext, Classical.choice, Quot.sound]
'Verif.Scorer.score_value' depends on axioms: [propext, Classical.choice, Quot.sound]
'Verif.SourceOffset.compressed_roundtrip' depends on axioms: [propext, Classical.choice, Quot.sound]
'Verif.SourceOffset.compressed_roundtrip_violated' depends on axioms: [propext, Quot.sound]
'Verif.SourceOffset.discriminator_roundtrip' depends on axioms: [propext, Classical.choice, Quot.sound]
'Verif.SourceOffset.generateOffset_injective' depends on axioms: [propext, Classical.choice, Quot.sound]
'Verif.SourceOffset.line_roundtrip_partial' depends on axioms: [propext, Classical.choice, Quot.sound]
'Verif.SourceOffset.line_roundtrip_violated' depends on axioms: [propext, Quot.sound]
'Verif.SpeFreq.toBranches_get0' depends on axioms: [propext, Classical.choice, Quot.sound]
'Verif.SpeFreq.toRanges_complete' depends on axioms: [propext, Classical.choice, Quot.sound]
'Verif.SpeFreq.toRanges_ok' depends on axioms: [propext, Classical.choice, Quot.sound]
'Verif.SpePid.convert_exact' depends on axioms: [propext, Classical.choice, Quot.sound]
'Verif.SpePid.convert_monotone' depends on axioms: [propext, Classical.choice, Quot.sound]
'Verif.SpePid.convert_short' depends on axioms: [propext, Classical.choice, Quot.sound]
'Verif.SpePid.pid_resolution_out_of_order_violated' depends on axioms: [propext, Quot.sound]
'Verif.SpePid.pid_resolution_partial' depends on axioms: [propext, Classical.choice, Quot.sound]
'Verif.SpePid.pid_resolution_tie_violated' depends on axioms: [propext, Quot.sound]
'Verif.SpePid.pid_without_context' depends on axioms: [propext, Classical.choice, Quot.sound]
'Verif.SpeRanges.rangeCounts_spec' depends on axioms: [propext, Classical.choice, Quot.sound]
'Verif.SpeRanges.synthesize_complete' depends on axioms: [propext, Classical.choice, Quot.sound]
'Verif.SpeRanges.synthesize_ok' depends on axioms: [propext, Classical.choice, Quot.sound]
'Verif.SpeReader.append_spec' depends on axioms: [propext, Classical.choice, Quot.sound]
'Verif.SpeReader.ex_append' depends on axioms: [propext, Classical.choice, Quot.sound]
'Verif.SpeReader.ex_stop_violated' depends on axioms: [propext, Classical.choice, Quot.sound]
'Verif.SpeReader.mkReader_spec' depends on axioms: [propext, Classical.choice, Quot.sound]
'Verif.SpeReader.no_match_fails' depends on axioms: [propext, Classical.choice, Quot.sound]
'Verif.SpeReader.s64_spec' depends on axioms: [propext, Classical.choice, Quot.sound]
'Verif.SpeReader.sampling_spec' depends on axioms: [propext, Classical.choice, Quot.sound]
'Verif.SpeSimple.append_spec' depends on axioms: [propext, Classical.choice, Quot.sound]
'Verif.SpeSimple.ex_arm' depends on axioms: [propext, Classical.choice, Quot.sound]
'Verif.SpeSimple.ex_read' depends on axioms: [propext, Classical.choice, Quot.sound]
'Verif.SpeSimple.findMMap_none' depends on axioms: [propext, Quot.sound]
'Verif.SpeSimple.findMMap_some' depends on axioms: [propext, Quot.sound]
'Verif.SpeSimple.read_spec' depends on axioms: [propext, Classical.choice, Quot.sound]
'Verif.SpeSimple.second_mapping_violated' depends on axioms: [propext, Classical.choice, Quot.sound]
'Verif.SpeSimple.total_count_partial' depends on axioms: [propext, Classical.choice, Quot.sound]
'Verif.SpeSimple.total_count_violated' depends on axioms: [propext, Classical.choice, Quot.sound]
'Verif.SplitDwarf.chosen_unique' depends on axioms: [propext]
'Verif.SplitDwarf.ex_partial' depends on axioms: [propext]
'Verif.SplitDwarf.ex_sources' depends on axioms: [propext]
'Verif.SplitDwarf.no_info_fails' depends on axioms: [propext]
'Verif.SplitDwarf.own_ranges_partial' depends on axioms: [propext, Quot.sound]
'Verif.SplitDwarf.own_ranges_violated' depends on axioms: [propext]
'Verif.SplitDwarf.ranges_in_force' depends on axioms: [propext, Quot.sound]
'Verif.SplitDwarf.relative_violated' depends on axioms: [propext]
'Verif.SplitDwarf.run_total' depends on axioms: [propext, Quot.sound]
'Verif.SplitDwarf.split_accepted' depends on axioms: [propext, Quot.sound]
'Verif.SplitDwarf.split_source' depends on axioms: [propext, Quot.sound]
'Verif.Stamp.exBin_stamp' depends on axioms: [propext, Classical.choice, Quot.sound]
'Verif.Stamp.first_mem' depends on axioms: [propext, Quot.sound]
'Verif.Stamp.stamp_earliest_partial' depends on axioms: [propext, Classical.choice, Quot.sound]
'Verif.Stamp.stamp_earliest_violated' depends on axioms: [propext, Classical.choice, Quot.sound]
'Verif.Stamp.stamp_exact' depends on axioms: [propext, Classical.choice, Quot.sound]
'Verif.Stamp.stamp_suffix_violated' depends on axioms: [propext, Classical.choice, Quot.sound]
'Verif.Stamp.stamps_written' depends on axioms: [propext, Classical.choice, Quot.sound]
'Verif.Summary.asserts_hold' depends on axioms: [propext, Classical.choice, Quot.sound]
'Verif.Summary.defaultCutoffs_ok' does not depend on any axioms
'Verif.Summary.detailed_monotone' depends on axioms: [propext, Classical.choice, Quot.sound]
'Verif.Summary.detailed_summary' depends on axioms: [propext, Classical.choice, Quot.sound]
'Verif.Summary.maxDesired_sorted' depends on axioms: [propext, Quot.sound]
'Verif.Summary.summary_totals' depends on axioms: [propext, Quot.sound]
'Verif.SymList.exList' depends on axioms: [propext, Classical.choice, Quot.sound]
'Verif.SymList.exMap_names' depends on axioms: [propext]
'Verif.SymList.fill_list' depends on axioms: [propext, Classical.choice, Quot.sound]
'Verif.SymList.fill_list_all' depends on axioms: [propext, Classical.choice, Quot.sound]
'Verif.SymList.names_in_profile' depends on axioms: [propext, Classical.choice, Quot.sound]
'Verif.SymList.symbol_list' depends on axioms: [propext, Classical.choice, Quot.sound]
'Verif.SymList.symbol_list_suffix_violated' depends on axioms: [propext, Classical.choice, Quot.sound]
'Verif.SymbolMap.Entry.unique' depends on axioms: [propext, Classical.choice, Quot.sound]
'Verif.SymbolMap.add_all_sources_partial' depends on axioms: [propext, Classical.choice, Quot.sound]
'Verif.SymbolMap.add_source_count_empty' depends on axioms: [propext, Classical.choice, Quot.sound]
'Verif.SymbolMap.add_source_count_partial' depends on axioms: [propext, Classical.choice, Quot.sound]
'Verif.SymbolMap.add_source_count_violated' depends on axioms: [propext, Classical.choice, Quot.sound]
'Verif.SymbolMap.buildFlat_ok' depends on axioms: [propext, Classical.choice, Quot.sound]
'Verif.SymbolMap.buildFlat_selective' depends on axioms: [propext, Classical.choice, Quot.sound]
'Verif.SymbolMap.elide_conserves' depends on axioms: [propext, Classical.choice, Quot.sound]
'Verif.SymbolMap.elide_exact' depends on axioms: [propext, Classical.choice, Quot.sound]
'Verif.SymbolMap.elide_exact_aliases' depends on axioms: [propext, Classical.choice, Quot.sound]
'Verif.SymbolMap.entry_est' depends on axioms: [propext, Classical.choice, Quot.sound]
'Verif.SymbolMap.exNested_four' depends on axioms: [propext, Classical.choice, Quot.sound]
'Verif.SymbolMap.exNested_ok' depends on axioms: [propext, Classical.choice, Quot.sound]
'Verif.SymbolMap.exNested_one' depends on axioms: [propext, Classical.choice, Quot.sound]
'Verif.SymbolMap.exNested_two' depends on axioms: [propext, Classical.choice, Quot.sound]
'Verif.SymbolMap.exWs_hyps' depends on axioms: [propext, Classical.choice, Quot.sound]
'Verif.SymbolMap.exWs_sets' depends on axioms: [propext]
'Verif.SymbolMap.flatCount_eq' depends on axioms: [propext, Classical.choice, Quot.sound]
'Verif.SymbolMap.flatOf_obs' depends on axioms: [propext, Classical.choice, Quot.sound]
'Verif.SymbolMap.flatten_into' depends on axioms: [propext, Classical.choice, Quot.sound]
'Verif.SymbolMap.flatten_nested' depends on axioms: [propext, Classical.choice, Quot.sound]
'Verif.SymbolMap.flatten_nested_recursion_violated' depends on axioms: [propext, Classical.choice, Quot.sound]
'Verif.SymbolMap.flatten_nested_totals' depends on axioms: [propext, Classical.choice, Quot.sound]
'Verif.SymbolMap.flatten_nested_within' depends on axioms: [propext, Classical.choice, Quot.sound]
'Verif.SymbolMap.hybridEx_ok' depends on axioms: [propext, Classical.choice, Quot.sound]
'Verif.SymbolMap.hybrid_call_count_lost_violated' depends on axioms: [propext, Classical.choice, Quot.sound]
'Verif.SymbolMap.hybrid_inlined_hot' depends on axioms: [propext, Classical.choice, Quot.sound]
'Verif.SymbolMap.hybrid_profile' depends on axioms: [propext, Classical.choice, Quot.sound]
'Verif.SymbolMap.hybrid_total_counted_twice_violated' depends on axioms: [propext, Classical.choice, Quot.sound]
'Verif.SymbolMap.indirect_target_accumulates_violated' depends on axioms: [propext, Classical.choice, Quot.sound]
'Verif.SymbolMap.indirect_target_partial' depends on axioms: [propext, Classical.choice, Quot.sound]
'Verif.SymbolMap.llvmEx_ok' depends on axioms: [propext, Classical.choice, Quot.sound]
'Verif.SymbolMap.llvm_long_lines_violated' depends on axioms: [propext, Classical.choice, Quot.sound]
'Verif.SymbolMap.llvm_merge_order_violated' depends on axioms: [propext, Classical.choice, Quot.sound]
'Verif.SymbolMap.llvm_merge_targets_violated' depends on axioms: [propext, Classical.choice, Quot.sound]
'Verif.SymbolMap.llvm_round_trip' depends on axioms: [propext, Classical.choice, Quot.sound]
'Verif.SymbolMap.llvm_round_trip_exact' depends on axioms: [propext, Classical.choice, Quot.sound]
'Verif.SymbolMap.mem_places' depends on axioms: [propext, Classical.choice, Quot.sound]
'Verif.SymbolMap.mergeAll_adds' depends on axioms: [propext, Classical.choice, Quot.sound]
'Verif.SymbolMap.mergeAll_perm' depends on axioms: [propext, Classical.choice, Quot.sound]
'Verif.SymbolMap.merge_adds' depends on axioms: [propext, Classical.choice, Quot.sound]
'Verif.SymbolMap.merge_comm_counts' depends on axioms: [propext, Classical.choice, Quot.sound]
'Verif.SymbolMap.op_effect' depends on axioms: [propext, Classical.choice, Quot.sound]
'Verif.SymbolMap.original_name_all' depends on axioms: [propext, Classical.choice, Quot.sound]
'Verif.SymbolMap.original_name_idem_partial' depends on axioms: [propext, Classical.choice, Quot.sound]
'Verif.SymbolMap.original_name_of_no_dot' depends on axioms: [propext, Classical.choice, Quot.sound]
'Verif.SymbolMap.original_name_selected_violated' does not depend on any axioms
'Verif.SymbolMap.original_name_sublist' depends on axioms: [propext]
'Verif.SymbolMap.readTop_effect' depends on axioms: [propext, Classical.choice, Quot.sound]
'Verif.SymbolMap.read_profiles' depends on axioms: [propext, Classical.choice, Quot.sound]
'Verif.SymbolMap.read_special' depends on axioms: [propext, Classical.choice, Quot.sound]
'Verif.SymbolMap.read_special_ex' depends on axioms: [propext, Classical.choice, Quot.sound]
'Verif.SymbolMap.runOps_history' depends on axioms: [propext, Classical.choice, Quot.sound]
'Verif.SymbolMap.src_effect' depends on axioms: [propext, Classical.choice, Quot.sound]
'Verif.SymbolMap.target_effect' depends on axioms: [propext, Classical.choice, Quot.sound]
'Verif.SymbolMap.throttle_consistent' depends on axioms: [propext, Classical.choice, Quot.sound]
'Verif.SymbolMap.throttle_idem' depends on axioms: [propext, Classical.choice, Quot.sound]
'Verif.SymbolMap.throttle_negative' depends on axioms: [propext, Classical.choice, Quot.sound]
'Verif.SymbolMap.throttle_spec' depends on axioms: [propext, Classical.choice, Quot.sound]
'Verif.SymbolMap.trimTargets_spec' depends on axioms: [propext, Classical.choice, Quot.sound]
'Verif.SymbolMap.trim_negative' depends on axioms: [propext, Classical.choice, Quot.sound]
'Verif.SymbolMap.trim_spec' depends on axioms: [propext, Classical.choice, Quot.sound]
'Verif.SymbolMap.usedPath_eq_callPath' depends on axioms: [propext, Classical.choice, Quot.sound]
'Verif.SymbolMap.working_set_elided_violated' depends on axioms: [propext, Classical.choice, Quot.sound]
'Verif.SymbolMap.working_set_merge' depends on axioms: [propext, Classical.choice, Quot.sound]
'Verif.SymbolMap.working_set_merge_big_violated' depends on axioms: [propext]
'Verif.SymbolMap.working_set_merge_order_violated' depends on axioms: [propext]
'Verif.SymbolMap.working_sets' depends on axioms: [propext, Classical.choice, Quot.sound]
'Verif.SymbolMap.working_sets_empty' depends on axioms: [propext, Classical.choice, Quot.sound]
'Verif.SymbolMap.working_sets_mono' depends on axioms: [propext, Classical.choice, Quot.sound]
'Verif.SymbolMap.writeProfiles_eq' depends on axioms: [propext, Classical.choice, Quot.sound]
'Verif.Threshold.emit_monotone_needs_bound' does not depend on any axioms
'Verif.Threshold.emit_monotone_partial' depends on axioms: [propext, Quot.sound]
'Verif.Threshold.emitted_above_fraction' depends on axioms: [propext, Classical.choice, Quot.sound]
'Verif.Threshold.emitted_iff' depends on axioms: [propext, Classical.choice, Quot.sound]
'Verif.Threshold.ignore_has_no_effect' does not depend on any axioms
'Verif.Threshold.ignore_thresholds_violated' does not depend on any axioms
'Verif.TwoLevel.addStack_spec' depends on axioms: [propext, Classical.choice, Quot.sound]
'Verif.TwoLevel.bad_subprogram_violated' depends on axioms: [propext, Classical.choice, Quot.sound]
'Verif.TwoLevel.cycle_violated' depends on axioms: [propext, Quot.sound]
'Verif.TwoLevel.ex_lookup' depends on axioms: [propext]
'Verif.TwoLevel.ex_ok' depends on axioms: [propext, Classical.choice, Quot.sound]
'Verif.TwoLevel.lookup_spec' depends on axioms: [propext, Quot.sound]
'Verif.TwoLevel.missing_context_violated' depends on axioms: [propext, Quot.sound]
'Verif.TwoLevel.stack_unique' depends on axioms: [propext, Quot.sound]
'Verif.TwoLevel.two_level' depends on axioms: [propext, Classical.choice, Quot.sound]
'Verif.TwoLevelProg.programs_decoded' depends on axioms: [propext, Classical.choice, Quot.sound]
'Verif.TwoLevelProg.readActs_spec' depends on axioms: [propext, Classical.choice, Quot.sound]
'Verif.TwoLevelProg.readLogs_spec' depends on axioms: [propext, Classical.choice, Quot.sound]
'Verif.TwoLevelUnit.end_lost_violated' depends on axioms: [propext]
'Verif.TwoLevelUnit.exUnit2_enc' depends on axioms: [propext, Classical.choice, Quot.sound]
'Verif.TwoLevelUnit.exUnit2_ok' depends on axioms: [propext, Classical.choice, Quot.sound]
'Verif.TwoLevelUnit.ex_section' depends on axioms: [propext]
'Verif.TwoLevelUnit.forward_context_violated' depends on axioms: [propext]
'Verif.TwoLevelUnit.lunit_ok' depends on axioms: [propext, Classical.choice, Quot.sound]
'Verif.TwoLevelUnit.section_stacks' depends on axioms: [propext, Classical.choice, Quot.sound]
'Verif.TwoLevelUnit.unit_decoded' depends on axioms: [propext, Classical.choice, Quot.sound]
'Verif.Validate.entryCount_spec' depends on axioms: [propext, Classical.choice, Quot.sound]
'Verif.Validate.entry_unique' depends on axioms: [propext, Quot.sound]
'Verif.Validate.exSym_valid' depends on axioms: [propext, Classical.choice, Quot.sound]
'Verif.Validate.inlineStack_iff' depends on axioms: [propext, Quot.sound]
'Verif.Validate.order_violated' depends on axioms: [propext]
'Verif.Validate.rnd24_error' depends on axioms: [propext, Quot.sound]
'Verif.Validate.sumTotal_eq' depends on axioms: [propext, Quot.sound]
'Verif.Validate.tooFew_bound' depends on axioms: [propext, Classical.choice, Quot.sound]
'Verif.Validate.validate_spec' depends on axioms: [propext, Classical.choice, Quot.sound]
'Verif.Validate.walk_spec' depends on axioms: [propext, Classical.choice, Quot.sound]
'Verif.Validate.wrap_violated' depends on axioms: [propext, Classical.choice, Quot.sound]
