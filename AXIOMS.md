# Axioms of the property theorems

Generated with `#print axioms` for every theorem of MANIFEST.json. Only `propext`, `Classical.choice` and `Quot.sound` (Lean's standard axioms) occur.

## no axioms (7 theorems)

* `Disco.CppAgenda.C19_stale_priority`
* `Disco.OrderedSet.C16_duplicates`
* `Disco.Partition.C31_rightbranching_empty`
* `Disco.TreeEq.C65_lt_not_transitive`
* `Disco.Search.C68_sents_disagreement`
* `Disco.Search.C68_race_disagreement`
* `Disco.Search.C68_batch_disagreement`

## `propext` (23 theorems)

* `Disco.SplitDisc.C04_bare_terminals_fail`
* `Disco.YieldBits.C41_readYF_lenient`
* `Disco.Ted.C29_dice_root`
* `Disco.Frag.Ex.C49_twoterms_unary`
* `Disco.Frag.Vocab.C53_epsilon`
* `Disco.Lexicon.C56_openclassthreshold`
* `Disco.Ctf.C58_nowhitelist`
* `Disco.Ctf.C58_gap_disagreement`
* `Disco.TreeEq.C65_hash_injective`
* `Disco.TreeEq.C65_insert_changes_frozen`
* `Disco.TreeEq.C65_disctree_eq_ignores_words`
* `Disco.TreeEq.C65_lt_not_asymmetric`
* `Disco.TreeEq.C65_le_incoherent`
* `Disco.Search.C68_none_disagreement`
* `Disco.Search.C68_tgrep_disagreement`
* `Disco.Lines.C69_highlight`
* `Disco.Lines.C69_empty_file_disagreement`
* `Disco.FuncTags.C73_leaves`
* `Disco.CorpusSel.C81_history`
* `Disco.CorpusSel.C81_history_iter`
* `Disco.RuleFiles.C83_modifiers_idem`
* `Disco.Tiger.C85_tiger_two_parents`
* `Disco.AlpinoCorpus.C92_parse_error`

## `Quot.sound`, `propext` (106 theorems)

* `Disco.Binarize.C02_binarize_leaves`
* `Disco.Bits.C10_abitcount`
* `Disco.Bits.C09_getbits`
* `Disco.Bits.C11_getyf_unary_fails`
* `Disco.Bits.C32_ranges`
* `Disco.PyAgenda.C18_peekitem_loses_item`
* `Disco.PyAgenda.C18_clear_fails`
* `Disco.PyAgenda.C18_fifo_fails`
* `Disco.FanoutMark.C07_remove_add`
* `Disco.FanoutMark.C07_add_idempotent`
* `Disco.IntroPreterm.C37_total`
* `Disco.Traversal.C38_subtrees`
* `Disco.Traversal.C38_pos`
* `Disco.Traversal.C38_pos_mixed_order`
* `Disco.Traversal.C38_treepositions_valid`
* `Disco.Traversal.C38_treepositions_preorder`
* `Disco.Traversal.C38_treepositions_postorder`
* `Disco.Traversal.C38_treepositions_postorder_children_first`
* `Disco.Traversal.C38_treepositions_left_to_right`
* `Disco.Traversal.C38_treepositions_bothorder`
* `Disco.Traversal.C38_treepositions_leaves`
* `Disco.Traversal.C38_leaf_treeposition`
* `Disco.Escape.C39_no_paren`
* `Disco.Bracket.C12_parse_str`
* `Disco.Bracket.C12_parse_pprint`
* `Disco.OrderedSet.C16_order_partial`
* `Disco.Cartpi.C33_mem`
* `Disco.Cartpi.C33_number`
* `Disco.Cartpi.C33_once`
* `Disco.Cartpi.C33_order`
* `Disco.Cartpi.C33_natural`
* `Disco.MergeDisc.C05_twins_fail`
* `Disco.Prods.C20_mixed_skipped`
* `Disco.Concat.C41_small_unchecked`
* `Disco.Plcfrs.C25_disagreement_tag`
* `Disco.Cky.C24_dense_disagreement`
* `Disco.Partition.C31_bestsubtree`
* `Disco.Partition.C31_dummy`
* `Disco.Partition.C31_rightbranching`
* `Disco.Kbest.C26_lexical_cost_disagrees`
* `Disco.Factor.C40_threshold`
* `Disco.DDop.C23_unambiguous`
* `Disco.Deps.C36_total`
* `Disco.Deps.C36_one_head`
* `Disco.Deps.C36_getheadpos`
* `Disco.Parented.C15_pop`
* `Disco.Parented.C15_setItem`
* `Disco.Parented.C15_append`
* `Disco.Parented.C15_extend`
* `Disco.Parented.C15_insert`
* `Disco.Parented.C15_new`
* `Disco.Parented.C15_new_twice`
* `Disco.Parented.C15_setSlice_twice`
* `Disco.Parented.C15_append_self`
* `Disco.Export.C14_line`
* `Disco.Export.C14_line_no_lemma`
* `Disco.Export.C14_keys`
* `Disco.Frag.C52_workload`
* `Disco.Frag.C52_workload2`
* `Disco.Disamb.C57_mpp_doubledop`
* `Disco.Disamb.C57_mpd_doubledop`
* `Disco.Ctf.C58_splitprune_disagreement`
* `Disco.Ctf.C58_block`
* `Disco.Ctf.C58_sparse_block_disagreement`
* `Disco.Ctf.Mapping.C58_mapping_incremental`
* `Disco.Ctf.Mapping.C58_rulemapping`
* `Disco.Ctf.Mapping.C58_ruleno_disagreement`
* `Disco.Estimate.C59_consistent`
* `Disco.Estimate.C59_truncation_disagreement`
* `Disco.Astar.C59_max_disagreement`
* `Disco.Estimate.C59_lr_disagreement`
* `Disco.Incr.C64_reader`
* `Disco.Incr.C64_othertext`
* `Disco.Incr.C64_notrees`
* `Disco.Incr.C64_unclosed_disagreement`
* `Disco.TreeEq.C65_eq_structural`
* `Disco.TreeEq.C65_freeze`
* `Disco.TreeEq.C65_immutable`
* `Disco.TreeEq.C65_lt`
* `Disco.Search.C68_trees`
* `Disco.Search.C68_sents_fresh`
* `Disco.Search.C68_race_ok`
* `Disco.Lines.C69_getinfo_disagreement`
* `Disco.Draw.C70_exception_disagreement`
* `Disco.Draw.C70_lost_disagreement`
* `Disco.Draw.C70_not_all`
* `Disco.ParseCmd.C72_tags`
* `Disco.ParseCmd.C72_tags_missing`
* `Disco.FuncTags.C73_between`
* `Disco.Alpino.C75_comment_disagreement`
* `Disco.CorpusSel.C81_eval`
* `Disco.CorpusSel.C81_root`
* `Disco.RuleFiles.C83_modifier_file`
* `Disco.Collapse.C84_compose`
* `Disco.Collapse.C84_fanout_disagreement`
* `Disco.Binarize.C86_saveheads_no_exception`
* `Disco.DopW.C87_render`
* `Disco.DepText.C88_total`
* `Disco.DepText.rows_unique`
* `Disco.Markov.C91_relabel`
* `Disco.AlpinoCorpus.C92_keys`
* `Disco.AlpinoCorpus.C92_wellformed`
* `Disco.AlpinoCorpus.C92_stale_disagreement`
* `Disco.AddIndices.C93_addindices`
* `Disco.AddIndices.C93_frontier_disagreement`
* `Disco.AddIndices.C93_ptsg_disagreement`

## `Classical.choice`, `Quot.sound`, `propext` (477 theorems)

* `Disco.Binarize.C01_unbinarize_binarize`
* `Disco.Binarize.C01_tailmarker_not_restored`
* `Disco.Binarize.C02_binarize_binary`
* `Disco.Binarize.C02_threshold0_empty_node`
* `Disco.Binarize.C03_expand_collapse`
* `Disco.Binarize.C03_collapse_binarize_roundtrip`
* `Disco.Binarize.C03_no_unaries_left`
* `Disco.Bits.C10_nextset`
* `Disco.Bits.C10_nextunset`
* `Disco.Bits.C10_bitlength`
* `Disco.Bits.C10_anextset`
* `Disco.Bits.C10_anextunset`
* `Disco.Bits.C10_iteratesetbits`
* `Disco.Bits.C10_iterateunsetbits`
* `Disco.Bits.C10_abitlength`
* `Disco.Bits.C10_setops`
* `Disco.Bits.C10_single_bit`
* `Disco.Bits.C10_bitnslots`
* `Disco.Bits.C10_pyintbitcount`
* `Disco.Bits.C10_pyintnextset`
* `Disco.Bits.C09_bitsetOf`
* `Disco.Bits.C09_fanout`
* `Disco.Bits.C09_fanout_intervals`
* `Disco.Bits.C11_getyf`
* `Disco.Bits.C32_rangeheads`
* `Disco.Bits.C32_intervals`
* `Disco.Merge.C17_merge`
* `Disco.PyAgenda.C18_agenda`
* `Disco.PyAgenda.C18_fifo`
* `Disco.PyAgenda.C18_peekitem_fails`
* `Disco.CppAgenda.C19_pop_best`
* `Disco.Canon.C06_canonicalize`
* `Disco.Canon.C06_idempotent`
* `Disco.Canon.C06_canonical_form`
* `Disco.Canon.C06_mixed_children_fail`
* `Disco.FanoutMark.C07_addfanoutmarkers`
* `Disco.FanoutMark.C07_underscore_lost`
* `Disco.RmTerm.C08_removeterminals`
* `Disco.RmTerm.C08_no_empty`
* `Disco.RmTerm.C08_removeemptynodes`
* `Disco.RmTerm.C08_bare_terminal_fails`
* `Disco.IntroPreterm.C37_introduced`
* `Disco.IntroPreterm.C37_no_siblings`
* `Disco.Traversal.C38_postorder`
* `Disco.Traversal.C38_spanning_leaves`
* `Disco.Escape.C39_unescape_escape`
* `Disco.Escape.C39_none`
* `Disco.Escape.C39_overlap_not_restored`
* `Disco.Escape.C39_empty_word`
* `Disco.Bracket.C12_empty_label_lost`
* `Disco.Bracket.C13_roundtrip`
* `Disco.Bracket.C13_terminal_with_right_sister`
* `Disco.OrderedSet.C16_set_semantics`
* `Disco.CellIdx.C34_decode`
* `Disco.CellIdx.C34_injective`
* `Disco.CellIdx.C34_range`
* `Disco.CellIdx.C34_decode_fails_256`
* `Disco.SumRuns.C35_sumfrags`
* `Disco.SumRuns.C35_merge_frags`
* `Disco.SumRuns.C35_sumlex`
* `Disco.SumRuns.C35_sumrules_shifted`
* `Disco.SumRuns.C35_sumrules_wrong`
* `Disco.SumRuns.C35_sumrules_partial`
* `Disco.Closure.C30_classes`
* `Disco.Closure.C30_same_class_iff`
* `Disco.Closure.C30_disjoint`
* `Disco.Closure.C30_terminates`
* `Disco.EditDist.C28_least_edits`
* `Disco.EditDist.C28_zero_iff`
* `Disco.EditDist.C28_symm`
* `Disco.EditDist.C28_triangle`
* `Disco.EditDist.C28_bounds`
* `Disco.EditDist.C28_pathscore`
* `Disco.Parseval.C27_recall`
* `Disco.Parseval.C27_bounds`
* `Disco.Parseval.C27_f1`
* `Disco.Parseval.C27_f1_proper`
* `Disco.Parseval.C27_f_between`
* `Disco.Parseval.C27_accuracy`
* `Disco.Parseval.C27_mean`
* `Disco.Parseval.C42_micro_average`
* `Disco.AlignSent.C43_alignsent`
* `Disco.AlignSent.C43_complete`
* `Disco.SplitDisc.C04_continuous`
* `Disco.SplitDisc.C04_root`
* `Disco.SplitDisc.C04_constituents`
* `Disco.MergeDisc.C05_merge_split`
* `Disco.MergeDisc.C05_identity`
* `Disco.Prods.C20_productions`
* `Disco.Prods.C20_linear`
* `Disco.TBGrammar.C21_treebankgrammar`
* `Disco.TBGrammar.C21_relative_frequency`
* `Disco.TBGrammar.C21_sortgrammar`
* `Disco.TBGrammar.C21_extrarules`
* `Disco.Concat.C41_concat_fat`
* `Disco.Concat.C41_concat_small`
* `Disco.YieldBits.C41_readYF`
* `Disco.YieldBits.C41_readYF_limit`
* `Disco.YieldBits.C41_getyf`
* `Disco.YieldBits.C41_yfstr`
* `Disco.YieldBits.C41_injective`
* `Disco.YieldBits.C41_rule_fat`
* `Disco.YieldBits.C41_rule_small`
* `Disco.C44_labels`
* `Disco.C44_noderuleno`
* `Disco.C44_bitpar_unary`
* `Disco.C44_fanout_unchecked`
* `Disco.C45_counts`
* `Disco.C45_normalised`
* `Disco.C45_init`
* `Disco.C45_init_duplicates`
* `Disco.C46_index`
* `Disco.C46_revrulemap`
* `Disco.C47_roundtrip`
* `Disco.C47_grammar`
* `Disco.C47_last_line_ignored`
* `Disco.C47_escaped_collision`
* `Disco.Dop.C22_fragments`
* `Disco.Dop.C22_goodman`
* `Disco.Dop.C22_ewe`
* `Disco.Dop.C22_shortest_bon`
* `Disco.Dop.C22_disagreement_extrarules`
* `Disco.Plcfrs.C25_viterbi`
* `Disco.Plcfrs.C25_goal`
* `Disco.Plcfrs.C25_terminates`
* `Disco.Plcfrs.C25_notags`
* `Disco.Plcfrs.C25_small`
* `Disco.Plcfrs.C25_fat`
* `Disco.Cky.C24_cky`
* `Disco.Cky.C24_nodup`
* `Disco.Cky.C24_terminates`
* `Disco.Cky.C24_notags`
* `Disco.Cky.C24_leftchild_disagreement`
* `Disco.Partition.C31_partition`
* `Disco.Partition.C31_greedy`
* `Disco.Partition.C31_partial_parse`
* `Disco.Partition.C31_noparse_label_loses_words`
* `Disco.Kbest.C26_kbest_sound`
* `Disco.Kbest.C26_kbest_complete`
* `Disco.Kbest.C26_collision_disagrees`
* `Disco.Factor.C40_factor_left`
* `Disco.Factor.C40_factor_right`
* `Disco.Factor.C40_contents`
* `Disco.Factor.C40_short_disagrees`
* `Disco.Factor.C23_unique_ids`
* `Disco.DDop.C23_total`
* `Disco.DDop.C23_aligned`
* `Disco.DDop.C23_exact`
* `Disco.DDop.C23_recover_total`
* `Disco.DDop.C23_yield_disagreement`
* `Disco.Deps.C36_arcs`
* `Disco.Deps.C36_yield`
* `Disco.Deps.C36_tree`
* `Disco.Deps.C36_projective`
* `Disco.Deps.C36_deplen_disagrees`
* `Disco.Deps.C36_deplen_roots`
* `Disco.Deps.C36_headrules`
* `Disco.Deps.C36_headrules_total`
* `Disco.Deps.C36_rule`
* `Disco.Deps.C36_headfinder_rule`
* `Disco.Deps.C36_headfinder_default`
* `Disco.Deps.C36_headfinder_marked`
* `Disco.Ted.C29_geteditstats`
* `Disco.Ted.C29_script`
* `Disco.Ted.C29_metric`
* `Disco.Ted.C29_annotated`
* `Disco.Ted.C29_treedist`
* `Disco.Ted.C29_agree`
* `Disco.Ted.C29_distance`
* `Disco.Ted.C29_zero`
* `Disco.Ted.C29_symm_triangle`
* `Disco.Ted.C29_dice`
* `Disco.Parented.C15_history`
* `Disco.Parented.C15_step`
* `Disco.Parented.C15_setSlice`
* `Disco.Parented.C15_delSlice`
* `Disco.Parented.C15_remove`
* `Disco.Parented.C15_parentIndex`
* `Disco.Parented.C15_siblings`
* `Disco.Parented.C15_detach`
* `Disco.Parented.C15_disown`
* `Disco.Parented.C15_spliceabove`
* `Disco.Parented.C15_splicebelow`
* `Disco.Parented.C15_prune`
* `Disco.Parented.C15_acyclic`
* `Disco.Parented.C15_root`
* `Disco.Parented.C15_history_root`
* `Disco.Parented.C15_reverse`
* `Disco.Parented.C15_spliceabove_root`
* `Disco.Parented.C15_prune_root`
* `Disco.Export.C14_tree`
* `Disco.Export.C14_reader`
* `Disco.Export.C14_exact`
* `Disco.Export.C14_corpus`
* `Disco.Export.C14_morphology`
* `Disco.Export.C14_too_many`
* `Disco.Export.C14_add_twice`
* `Disco.Export.C14_word_number`
* `Disco.Export.C14_word_percent`
* `Disco.Export.C14_paren_label`
* `Disco.Export.C14_edge_zero`
* `Disco.Export.C14_line_comment`
* `Disco.Punct.C48_punctraise`
* `Disco.Punct.C48_punctraise_position`
* `Disco.Punct.C48_balancedpunctraise`
* `Disco.Punct.C48_balanced_pair`
* `Disco.Punct.C48_move`
* `Disco.Punct.C48_remove`
* `Disco.Punct.C48_removeall`
* `Disco.Punct.C48_prune_sentence`
* `Disco.Punct.C48_prune`
* `Disco.Punct.C48_root`
* `Disco.Punct.C48_root_words`
* `Disco.Punct.C48_prune_empty`
* `Disco.Punct.C48_lower_loses_period`
* `Disco.Punct.C48_lower_stale_positions`
* `Disco.Punct.C48_guillemets`
* `Disco.Punct.C48_guillemets_not_moved`
* `Disco.Punct.C48_raise_out_of_order`
* `Disco.Frag.C49_maximal_fragments`
* `Disco.Frag.C49_covers`
* `Disco.Frag.C50_occurrences`
* `Disco.Frag.C50_recurring`
* `Disco.Frag.C51_general`
* `Disco.Frag.C51_allfragments`
* `Disco.Frag.Ex.C51_unary_frontiers`
* `Disco.Frag.C52_treebank`
* `Disco.Frag.C52_two_treebanks`
* `Disco.Frag.Vocab.C53_getprod`
* `Disco.Frag.Vocab.C53_lookup`
* `Disco.Frag.Vocab.C53_file`
* `Disco.Frag.C54_addtrees`
* `Disco.Frag.C54_represents`
* `Disco.Frag.C54_getctrees`
* `Disco.Frag.C54_comparable`
* `Disco.Frag.C54_extract`
* `Disco.Frag.C54_extractsent`
* `Disco.Frag.C54_agree`
* `Disco.Inside.C55_inside`
* `Disco.Inside.C55_outside`
* `Disco.Inside.C55_threshold`
* `Disco.Inside.C55_chart`
* `Disco.Inside.C55_unary_disagreement`
* `Disco.Inside.C55_lexprob`
* `Disco.Inside.C55_lexprob_disagreement`
* `Disco.Lexicon.C56_lexicon`
* `Disco.Lexicon.C56_year_number`
* `Disco.Lexicon.C56_train`
* `Disco.Lexicon.C56_smooth`
* `Disco.Lexicon.C56_covered`
* `Disco.Lexicon.C56_disk`
* `Disco.Lexicon.C56_known`
* `Disco.Lexicon.C56_signature`
* `Disco.Lexicon.C56_number_disagreement`
* `Disco.Lexicon.C56_year_disagreement`
* `Disco.Lexicon.C56_paren_disagreement`
* `Disco.LogProb.C57_logprobsum`
* `Disco.Disamb.C57_mpp`
* `Disco.Disamb.C57_mpd`
* `Disco.Disamb.C57_shortest`
* `Disco.Disamb.C57_sldop`
* `Disco.Disamb.C57_fragments`
* `Disco.Disamb.C57_constraints`
* `Disco.Disamb.C57_shortest_doubledop`
* `Disco.Disamb.C57_mpd_disagreement`
* `Disco.Ctf.C58_check_small`
* `Disco.Ctf.C58_check_fat`
* `Disco.Ctf.C58_cfg_small`
* `Disco.Ctf.C58_cfg_fat`
* `Disco.Ctf.C58_filter`
* `Disco.Ctf.C58_lossless`
* `Disco.Ctf.C58_kbest`
* `Disco.Ctf.C58_require`
* `Disco.Ctf.C58_k0`
* `Disco.Ctf.C58_checkcfg`
* `Disco.Ctf.C58_dense_match`
* `Disco.Ctf.Mapping.C58_mapping`
* `Disco.Ctf.Mapping.C58_message_disagreement`
* `Disco.Estimate.C59_inside`
* `Disco.Estimate.C59_outside`
* `Disco.Estimate.C59_estimates`
* `Disco.Astar.C59_astar`
* `Disco.Astar.C59_sx`
* `Disco.Disamb.DopProb.C60_dopparseprob`
* `Disco.Disamb.DopProb.C60_unary_disagreement`
* `Disco.Disamb.Mcp.C61_optimal`
* `Disco.Disamb.Mcp.C61_reported`
* `Disco.Disamb.Mcp.C61_words_disagreement`
* `Disco.OptBin.C62_search`
* `Disco.OptBin.C62_minimal`
* `Disco.OptBin.C62_optimalbinarize`
* `Disco.OptBin.C62_sum_disagreement`
* `Disco.RR.C63_roundtrip`
* `Disco.RR.C63_structure`
* `Disco.RR.C63_unify`
* `Disco.RR.C63_default_disagreement`
* `Disco.RR.C63_right_disagreement`
* `Disco.RR.C63_hyphen_disagreement`
* `Disco.Incr.C64_prefix_disagreement`
* `Disco.Incr.C64_group_disagreement`
* `Disco.TreeEq.C65_caches`
* `Disco.TreeEq.C65_disctree_eq`
* `Disco.TreeEq.C65_disctree_key`
* `Disco.Transf.C66_statesplits_removed`
* `Disco.Transf.C66_splits_roundtrip`
* `Disco.Transf.C66_presets`
* `Disco.Transf.C66_funcnode`
* `Disco.Transf.C66_lemmanode`
* `Disco.Transf.C66_appendfunc`
* `Disco.Transf.C66_slash`
* `Disco.Transf.C66_unary`
* `Disco.Transf.C66_unary_slash`
* `Disco.Transf.C66_morphnode_swaps`
* `Disco.Transf.C66_morphnode_disagreement`
* `Disco.Transf.C66_caret_disagreement`
* `Disco.Transf.C66_appendfunc_disagreement`
* `Disco.Transf.C66_unary_disagreement`
* `Disco.Transf.C66_lemmanode_disagreement`
* `Disco.Gen.C67_yfarray`
* `Disco.Gen.C67_labels`
* `Disco.Gen.C67_chooserule`
* `Disco.Gen.C67_sound`
* `Disco.Gen.C67_sound_exact`
* `Disco.Gen.C67_complete`
* `Disco.Gen.C67_no_exception`
* `Disco.Gen.C67_bitpar_no_lexicon`
* `Disco.Gen.C67_bitpar_nothing`
* `Disco.Gen.C67_mixed_disagreement`
* `Disco.Gen.C67_unary_join_disagreement`
* `Disco.Gen.C67_unary_one_disagreement`
* `Disco.Search.C68_fifo`
* `Disco.Search.C68_counts`
* `Disco.Search.C68_tgrep_prefix`
* `Disco.Search.C68_batch`
* `Disco.Lines.C69_indices`
* `Disco.Lines.C69_count`
* `Disco.Lines.C69_sents`
* `Disco.Lines.C69_batch`
* `Disco.Lines.C69_extract`
* `Disco.Lines.C69_literal`
* `Disco.Lines.C69_charindices`
* `Disco.Lines.C69_space_disagreement`
* `Disco.Lines.C69_empty_match_disagreement`
* `Disco.Lines.C69_batch_disagreement`
* `Disco.Draw.C70_continuous`
* `Disco.Draw.C70_rejects`
* `Disco.Run.C71_schedule`
* `Disco.Run.C71_failure`
* `Disco.Run.C71_processes`
* `Disco.Run.C71_breakdown_disagreement`
* `Disco.ParseCmd.C72_success`
* `Disco.ParseCmd.C72_exception`
* `Disco.ParseCmd.C72_exception_pool`
* `Disco.ParseCmd.C72_keys`
* `Disco.ParseCmd.C72_best`
* `Disco.ParseCmd.C72_empty_disagreement`
* `Disco.ParseCmd.C72_key_disagreement`
* `Disco.FuncTags.C73_roundtrip`
* `Disco.FuncTags.C73_add_remove`
* `Disco.FuncTags.C73_remove`
* `Disco.FuncTags.C73_remove_idempotent`
* `Disco.FuncTags.C73_index_disagreement`
* `Disco.FuncTags.C73_dash_disagreement`
* `Disco.FuncTags.C73_twice_disagreement`
* `Disco.Pipeline.C74_results`
* `Disco.Pipeline.C74_total`
* `Disco.Pipeline.C74_chain`
* `Disco.Pipeline.C74_probmult`
* `Disco.Pipeline.C74_partial_disagreement`
* `Disco.Pipeline.C74_split_disagreement`
* `Disco.Pipeline.C74_stale_disagreement`
* `Disco.Pipeline.C74_probmult_disagreement`
* `Disco.Alpino.C75_round`
* `Disco.Alpino.C75_labels`
* `Disco.Alpino.C75_functions`
* `Disco.Alpino.C75_read`
* `Disco.Alpino.C75_read_cat`
* `Disco.Alpino.C75_words`
* `Disco.Alpino.C75_tag_disagreement`
* `Disco.EvalTransform.C76_transform`
* `Disco.EvalTransform.C76_pair`
* `Disco.EvalTransform.C76_gold`
* `Disco.EvalTransform.C76_root_eqlabel_disagreement`
* `Disco.EvalTransform.C76_rootpreterms_disagreement`
* `Disco.EvalTransform.C76_preterminal_root_disagreement`
* `Disco.LeafAncestor.C77_paths`
* `Disco.LeafAncestor.C77_score`
* `Disco.LeafAncestor.C77_refl`
* `Disco.LeafAncestor.C77_symm`
* `Disco.LeafAncestor.C77_continuous`
* `Disco.LeafAncestor.C77_assertion`
* `Disco.LeafAncestor.C77_assert_disagreement`
* `Disco.LeafAncestor.C77_marks_disagreement`
* `Disco.OsTag.C78_ostag`
* `Disco.OsTag.C78_adjunction_weight`
* `Disco.OsTag.C78_weight_disagreement`
* `Disco.OsTag.C78_dollar_disagreement`
* `Disco.Raise.C79_raise`
* `Disco.Raise.C79_head`
* `Disco.Raise.C79_lost_disagreement`
* `Disco.Raise.C79_reorder`
* `Disco.Mixed.C80_mixed`
* `Disco.Mixed.C80_blocks`
* `Disco.Mixed.C80_export`
* `Disco.Mixed.C80_reopened`
* `Disco.Mixed.C80_unclosed_disagreement`
* `Disco.Mixed.C80_table_disagreement`
* `Disco.Mixed.C80_brackets_first_disagreement`
* `Disco.CorpusSel.C81_file`
* `Disco.CorpusSel.C81_files`
* `Disco.CorpusSel.C81_tagged`
* `Disco.CorpusSel.C81_train`
* `Disco.CorpusSel.C81_test`
* `Disco.CorpusSel.C81_disjoint`
* `Disco.CorpusSel.C81_fraction`
* `Disco.CorpusSel.C81_lost_disagreement`
* `Disco.CorpusSel.C81_alias_disagreement`
* `Disco.CorpusSel.C81_overlap_disagreement`
* `Disco.CorpusSel.C81_testset_disagreement`
* `Disco.Params.C82_accepted`
* `Disco.Params.C82_values`
* `Disco.Params.C82_defaults`
* `Disco.Params.C82_equal`
* `Disco.Params.C82_order`
* `Disco.Params.C82_trailing_disagreement`
* `Disco.Params.C82_blank_disagreement`
* `Disco.RuleFiles.C83_accepted`
* `Disco.RuleFiles.C83_rules`
* `Disco.RuleFiles.C83_single`
* `Disco.RuleFiles.C83_modifiers`
* `Disco.RuleFiles.C83_short_disagreement`
* `Disco.RuleFiles.C83_ftb_disagreement`
* `Disco.RuleFiles.C83_lower_disagreement`
* `Disco.Collapse.C84_result`
* `Disco.Collapse.C84_accepted`
* `Disco.Collapse.C84_homomorphism`
* `Disco.Collapse.C84_levels`
* `Disco.Collapse.C84_negra_disagreement`
* `Disco.Collapse.C84_dash_disagreement`
* `Disco.Collapse.C84_tag_disagreement`
* `Disco.Export.C85_export_any`
* `Disco.Export.C85_export_reader`
* `Disco.Export.C85_cycle_disagreement`
* `Disco.Export.C85_order_disagreement`
* `Disco.Tiger.C85_tiger_rows`
* `Disco.Tiger.C85_tiger_tree`
* `Disco.Tiger.C85_tiger_function_disagreement`
* `Disco.Tiger.C85_tiger_root_disagreement`
* `Disco.Tiger.C85_tiger_parents_disagreement`
* `Disco.Binarize.C86_heads_recovered`
* `Disco.Binarize.C86_heads_roundtrip`
* `Disco.Binarize.C86_left_disagreement`
* `Disco.Binarize.C86_tailmarker_disagreement`
* `Disco.Binarize.C86_binary_head_lost`
* `Disco.DopW.C87_ewe_per_tree`
* `Disco.DopW.C87_ewe_total`
* `Disco.DopW.C87_ewe_normalised`
* `Disco.DopW.C87_ewe_positive`
* `Disco.DopW.C87_bon_le_one`
* `Disco.DopW.C87_bon_eq_one`
* `Disco.DepText.C88_conll`
* `Disco.DepText.C88_mst`
* `Disco.DepText.C88_wordpos`
* `Disco.DepText.C88_partial_cover_disagreement`
* `Disco.Packed.C89_addresses`
* `Disco.Packed.C89_goodman`
* `Disco.Packed.C89_packed_disagreement`
* `Disco.PtbEscape.C90_round`
* `Disco.PtbEscape.C90_none`
* `Disco.PtbEscape.C90_no_brackets`
* `Disco.PtbEscape.C90_again`
* `Disco.PtbEscape.C90_collision`
* `Disco.Markov.C91_reduce`
* `Disco.Markov.C91_unbinarize`
* `Disco.Markov.C91_vertical_disagreement`
* `Disco.Markov.C91_parent_disagreement`
* `Disco.AlpinoCorpus.C92_first_disagreement`
