{
 "claims": [
  {
   "property": "C01",
   "status": "proved",
   "theorems": [
    "Disco.Binarize.C01_unbinarize_binarize",
    "Disco.Binarize.C01_tailmarker_not_restored"
   ],
   "note": "Round trip for every option record without the tailmarker/rightmostunary combination; that combination provably fails (C01_tailmarker_not_restored)."
  },
  {
   "property": "C02",
   "status": "proved",
   "theorems": [
    "Disco.Binarize.C02_binarize_binary",
    "Disco.Binarize.C02_binarize_leaves",
    "Disco.Binarize.C02_threshold0_empty_node"
   ],
   "note": "threshold=0 with right factoring inserts an empty node (disagreement, proved)."
  },
  {
   "property": "C03",
   "status": "proved",
   "theorems": [
    "Disco.Binarize.C03_expand_collapse",
    "Disco.Binarize.C03_collapse_binarize_roundtrip",
    "Disco.Binarize.C03_no_unaries_left"
   ],
   "note": ""
  },
  {
   "property": "C10",
   "status": "proved",
   "theorems": [
    "Disco.Bits.C10_nextset",
    "Disco.Bits.C10_nextunset",
    "Disco.Bits.C10_bitlength",
    "Disco.Bits.C10_anextset",
    "Disco.Bits.C10_anextunset",
    "Disco.Bits.C10_iteratesetbits",
    "Disco.Bits.C10_iterateunsetbits",
    "Disco.Bits.C10_abitcount",
    "Disco.Bits.C10_abitlength",
    "Disco.Bits.C10_setops",
    "Disco.Bits.C10_single_bit",
    "Disco.Bits.C10_bitnslots",
    "Disco.Bits.C10_pyintbitcount",
    "Disco.Bits.C10_pyintnextset"
   ],
   "note": ""
  },
  {
   "property": "C09",
   "status": "proved",
   "theorems": [
    "Disco.Bits.C09_getbits",
    "Disco.Bits.C09_bitsetOf",
    "Disco.Bits.C09_fanout",
    "Disco.Bits.C09_fanout_intervals"
   ],
   "note": ""
  },
  {
   "property": "C11",
   "status": "proved",
   "theorems": [
    "Disco.Bits.C11_getyf",
    "Disco.Bits.C11_getyf_unary_fails"
   ],
   "note": "Two disjoint children: proved. Unary call getyf(x, None) crashes unless x starts at position 0 (disagreement, proved)."
  },
  {
   "property": "C32",
   "status": "proved",
   "theorems": [
    "Disco.Bits.C32_ranges",
    "Disco.Bits.C32_rangeheads",
    "Disco.Bits.C32_intervals"
   ],
   "note": ""
  },
  {
   "property": "C17",
   "status": "proved",
   "theorems": [
    "Disco.Merge.C17_merge"
   ],
   "note": ""
  },
  {
   "property": "C18",
   "status": "proved",
   "theorems": [
    "Disco.PyAgenda.C18_agenda",
    "Disco.PyAgenda.C18_fifo",
    "Disco.PyAgenda.C18_peekitem_fails",
    "Disco.PyAgenda.C18_peekitem_loses_item",
    "Disco.PyAgenda.C18_clear_fails",
    "Disco.PyAgenda.C18_fifo_fails"
   ],
   "note": "All histories of insert, update, delete, pop and queries; insertion order of ties for histories without updates (false with updates, C18_fifo_fails). peekitem and clear, which the property does not list, are wrong (disagreement theorems)."
  },
  {
   "property": "C19",
   "status": "proved",
   "theorems": [
    "Disco.CppAgenda.C19_pop_best",
    "Disco.CppAgenda.C19_stale_priority"
   ],
   "note": "Decrease-key discipline (the one the parsers follow): pop returns the live item with the best priority. Outside that discipline a stale priority is returned (disagreement, proved)."
  },
  {
   "property": "C06",
   "status": "proved",
   "theorems": [
    "Disco.Canon.C06_canonicalize",
    "Disco.Canon.C06_idempotent",
    "Disco.Canon.C06_canonical_form",
    "Disco.Canon.C06_mixed_children_fail"
   ],
   "note": "For trees in which each word has its own preterminal; a bare terminal next to a constituent raises AttributeError (proved)."
  },
  {
   "property": "C07",
   "status": "proved",
   "theorems": [
    "Disco.FanoutMark.C07_addfanoutmarkers",
    "Disco.FanoutMark.C07_remove_add",
    "Disco.FanoutMark.C07_add_idempotent",
    "Disco.FanoutMark.C07_underscore_lost"
   ],
   "note": "Labels without underscore; with an underscore removefanoutmarkers is lossy (proved)."
  },
  {
   "property": "C08",
   "status": "proved",
   "theorems": [
    "Disco.RmTerm.C08_removeterminals",
    "Disco.RmTerm.C08_no_empty",
    "Disco.RmTerm.C08_removeemptynodes",
    "Disco.RmTerm.C08_bare_terminal_fails"
   ],
   "note": ""
  },
  {
   "property": "C37",
   "status": "proved",
   "theorems": [
    "Disco.IntroPreterm.C37_introduced",
    "Disco.IntroPreterm.C37_no_siblings",
    "Disco.IntroPreterm.C37_total"
   ],
   "note": ""
  },
  {
   "property": "C38",
   "status": "proved",
   "theorems": [
    "Disco.Traversal.C38_subtrees",
    "Disco.Traversal.C38_postorder",
    "Disco.Traversal.C38_pos",
    "Disco.Traversal.C38_pos_mixed_order",
    "Disco.Traversal.C38_treepositions_valid",
    "Disco.Traversal.C38_treepositions_preorder",
    "Disco.Traversal.C38_treepositions_postorder",
    "Disco.Traversal.C38_treepositions_postorder_children_first",
    "Disco.Traversal.C38_treepositions_left_to_right",
    "Disco.Traversal.C38_treepositions_bothorder",
    "Disco.Traversal.C38_treepositions_leaves",
    "Disco.Traversal.C38_leaf_treeposition",
    "Disco.Traversal.C38_spanning_leaves"
   ],
   "note": "pos() is not left-to-right when a terminal follows a constituent among its sisters (disagreement, proved)."
  },
  {
   "property": "C39",
   "status": "proved",
   "theorems": [
    "Disco.Escape.C39_unescape_escape",
    "Disco.Escape.C39_none",
    "Disco.Escape.C39_no_paren",
    "Disco.Escape.C39_overlap_not_restored",
    "Disco.Escape.C39_empty_word"
   ],
   "note": "Exact for words that are non-empty, not '#FRONTIER#', and contain none of '#LRB', ')LRB', '#RRB'; the full claim (any word) is false of the code: ')LRB(' is not restored (C39_overlap_not_restored)."
  },
  {
   "property": "C12",
   "status": "proved",
   "theorems": [
    "Disco.Bracket.C12_parse_str",
    "Disco.Bracket.C12_parse_pprint",
    "Disco.Bracket.C12_empty_label_lost"
   ],
   "note": "For all trees with non-empty labels without white space and brackets, single line and pretty-printed. The class \\s and int() are parameters with stated assumptions."
  },
  {
   "property": "C13",
   "status": "proved",
   "theorems": [
    "Disco.Bracket.C13_roundtrip",
    "Disco.Bracket.C13_terminal_with_right_sister"
   ],
   "note": "For all trees (any discontinuity) over all indices, with terminals last among their sisters, and all sentences of writable words (None, or escapable without white space). A terminal with a right sister is written without its word (disagreement theorem)."
  },
  {
   "property": "C16",
   "status": "partial",
   "theorems": [
    "Disco.OrderedSet.C16_set_semantics",
    "Disco.OrderedSet.C16_order_partial",
    "Disco.OrderedSet.C16_duplicates"
   ],
   "note": "Set semantics proved for all histories; order/no-duplicates only for sets built without the operations that keep duplicates: the full claim is false of the code (C16_duplicates)."
  },
  {
   "property": "C33",
   "status": "proved",
   "theorems": [
    "Disco.Cartpi.C33_mem",
    "Disco.Cartpi.C33_number",
    "Disco.Cartpi.C33_once",
    "Disco.Cartpi.C33_order",
    "Disco.Cartpi.C33_natural"
   ],
   "note": ""
  },
  {
   "property": "C34",
   "status": "proved",
   "theorems": [
    "Disco.CellIdx.C34_decode",
    "Disco.CellIdx.C34_injective",
    "Disco.CellIdx.C34_range",
    "Disco.CellIdx.C34_decode_fails_256"
   ],
   "note": "Injective and in range for all lengths (exact integers); decoding exact for up to 255 words; with 256 words the 16-bit index of cellstart/cellend overflows (disagreement, proved)."
  },
  {
   "property": "C35",
   "status": "partial",
   "theorems": [
    "Disco.SumRuns.C35_sumfrags",
    "Disco.SumRuns.C35_merge_frags",
    "Disco.SumRuns.C35_sumlex",
    "Disco.SumRuns.C35_sumrules_shifted",
    "Disco.SumRuns.C35_sumrules_wrong",
    "Disco.SumRuns.C35_sumrules_partial"
   ],
   "note": "sumfrags and sumlex: proved for all sorted inputs. For sumrules the claim is false of the code: it writes each weight with the next rule (C35_sumrules_shifted for all inputs, C35_sumrules_wrong concrete)."
  },
  {
   "property": "C30",
   "status": "proved",
   "theorems": [
    "Disco.Closure.C30_classes",
    "Disco.Closure.C30_same_class_iff",
    "Disco.Closure.C30_disjoint",
    "Disco.Closure.C30_terminates"
   ],
   "note": "For every order in which Python may traverse and pop sets."
  },
  {
   "property": "C28",
   "status": "proved",
   "theorems": [
    "Disco.EditDist.C28_least_edits",
    "Disco.EditDist.C28_zero_iff",
    "Disco.EditDist.C28_symm",
    "Disco.EditDist.C28_triangle",
    "Disco.EditDist.C28_bounds",
    "Disco.EditDist.C28_pathscore"
   ],
   "note": ""
  },
  {
   "property": "C27",
   "status": "proved",
   "theorems": [
    "Disco.Parseval.C27_recall",
    "Disco.Parseval.C27_bounds",
    "Disco.Parseval.C27_f1",
    "Disco.Parseval.C27_f1_proper",
    "Disco.Parseval.C27_f_between",
    "Disco.Parseval.C27_accuracy",
    "Disco.Parseval.C27_mean"
   ],
   "note": "Exact rational arithmetic instead of 28-digit Decimal."
  },
  {
   "property": "C42",
   "status": "proved",
   "theorems": [
    "Disco.Parseval.C42_micro_average"
   ],
   "note": ""
  },
  {
   "property": "C43",
   "status": "proved",
   "theorems": [
    "Disco.AlignSent.C43_alignsent",
    "Disco.AlignSent.C43_complete"
   ],
   "note": ""
  },
  {
   "property": "C04",
   "status": "proved",
   "theorems": [
    "Disco.SplitDisc.C04_continuous",
    "Disco.SplitDisc.C04_root",
    "Disco.SplitDisc.C04_constituents",
    "Disco.SplitDisc.C04_bare_terminals_fail"
   ],
   "note": "Also: the exact constituents of the result. For trees in which every terminal has its own preterminal; otherwise contsets fails (C04_bare_terminals_fail)."
  },
  {
   "property": "C05",
   "status": "proved",
   "theorems": [
    "Disco.MergeDisc.C05_merge_split",
    "Disco.MergeDisc.C05_identity",
    "Disco.MergeDisc.C05_twins_fail"
   ],
   "note": "With same-labelled discontinuous sisters the round trip fails (C05_twins_fail)."
  },
  {
   "property": "C20",
   "status": "proved",
   "theorems": [
    "Disco.Prods.C20_productions",
    "Disco.Prods.C20_linear",
    "Disco.Prods.C20_mixed_skipped"
   ],
   "note": "For every tree in which each word has its preterminal: the productions are, in order, one per node, each describing its node; the yield function recomposes exactly the spans. A node whose first child is a terminal with sisters is skipped silently (C20_mixed_skipped)."
  },
  {
   "property": "C21",
   "status": "proved",
   "theorems": [
    "Disco.TBGrammar.C21_treebankgrammar",
    "Disco.TBGrammar.C21_relative_frequency",
    "Disco.TBGrammar.C21_sortgrammar",
    "Disco.TBGrammar.C21_extrarules"
   ],
   "note": "Counts and order of the induced grammar; relative frequencies by division by the mass of the left-hand side. Exact rational weights."
  },
  {
   "property": "C41",
   "status": "proved",
   "theorems": [
    "Disco.Concat.C41_concat_fat",
    "Disco.Concat.C41_concat_small",
    "Disco.Concat.C41_small_unchecked",
    "Disco.YieldBits.C41_readYF",
    "Disco.YieldBits.C41_readYF_limit",
    "Disco.YieldBits.C41_getyf",
    "Disco.YieldBits.C41_yfstr",
    "Disco.YieldBits.C41_injective",
    "Disco.YieldBits.C41_rule_fat",
    "Disco.YieldBits.C41_rule_small",
    "Disco.YieldBits.C41_readYF_lenient"
   ],
   "note": "The variant for short sentences needs items of the fan-out that the rule expects; without it, it accepts a combination that the other variant rejects (C41_small_unchecked). Malformed yield functions are accepted (C41_readYF_lenient)."
  },
  {
   "property": "C44",
   "status": "proved",
   "theorems": [
    "Disco.C44_labels",
    "Disco.C44_noderuleno",
    "Disco.C44_bitpar_unary",
    "Disco.C44_fanout_unchecked"
   ],
   "note": "strtod is a parameter, weights are exact. Disagreements: in bitpar format unary rules are never found by noderuleno; the fan-out of right-hand side labels is not checked."
  },
  {
   "property": "C45",
   "status": "proved",
   "theorems": [
    "Disco.C45_counts",
    "Disco.C45_normalised",
    "Disco.C45_init",
    "Disco.C45_init_duplicates"
   ],
   "note": "Exact rational probabilities instead of floats and logs. The constructor's probabilities sum to 1 only without duplicate rules: disagreement C45_init_duplicates."
  },
  {
   "property": "C46",
   "status": "proved",
   "theorems": [
    "Disco.C46_index",
    "Disco.C46_revrulemap"
   ],
   "note": "For every function meeting the contract of std::sort."
  },
  {
   "property": "C47",
   "status": "proved",
   "theorems": [
    "Disco.C47_roundtrip",
    "Disco.C47_grammar",
    "Disco.C47_last_line_ignored",
    "Disco.C47_escaped_collision"
   ],
   "note": "Formatting ('%g') and reading of numbers are parameters fmt/conv. Disagreements: text after the last newline is ignored; the words '(' and '#LRB#' collide and the grammar cannot be loaded."
  },
  {
   "property": "C22",
   "status": "proved",
   "theorems": [
    "Disco.Dop.C22_fragments",
    "Disco.Dop.C22_goodman",
    "Disco.Dop.C22_ewe",
    "Disco.Dop.C22_shortest_bon",
    "Disco.Dop.C22_disagreement_extrarules"
   ],
   "note": "Goodman's reduction without the packed graph encoding, exact rational weights; labels without '@'. Found: the root label is counted twice in the estimate 'ewe' (part of the statement of C22_ewe); an extra rule for a new label always ends in a division by zero; the Bonnema weight ignores the frequency of a rule."
  },
  {
   "property": "C25",
   "status": "proved",
   "theorems": [
    "Disco.Plcfrs.C25_viterbi",
    "Disco.Plcfrs.C25_goal",
    "Disco.Plcfrs.C25_terminates",
    "Disco.Plcfrs.C25_notags",
    "Disco.Plcfrs.C25_small",
    "Disco.Plcfrs.C25_fat",
    "Disco.Plcfrs.C25_disagreement_tag"
   ],
   "note": "parse/parse_main/process_edge/populatepos with no tags, estimates, beam or mask; exact costs in an ordered group; any choice of a least agenda entry in each round. Hypothesis: no POS tag of a word is the left-hand side of a unary rule; without it the claim is false (C25_disagreement_tag)."
  },
  {
   "property": "C24",
   "status": "proved",
   "theorems": [
    "Disco.Cky.C24_cky",
    "Disco.Cky.C24_nodup",
    "Disco.Cky.C24_terminates",
    "Disco.Cky.C24_notags",
    "Disco.Cky.C24_dense_disagreement",
    "Disco.Cky.C24_leftchild_disagreement"
   ],
   "note": "parse_grammarloop for dense and sparse charts, without tags, beam, mask; exact costs. Costs, items, edges and termination hold for both kinds of chart and any order of the agenda. Disagreements: edges are not unique in a dense chart (agenda filled with costs of other items); with a whitelist (parse_leftchildloop) the chart gets items without derivation."
  },
  {
   "property": "C31",
   "status": "proved",
   "theorems": [
    "Disco.Partition.C31_partition",
    "Disco.Partition.C31_greedy",
    "Disco.Partition.C31_bestsubtree",
    "Disco.Partition.C31_partial_parse",
    "Disco.Partition.C31_dummy",
    "Disco.Partition.C31_rightbranching",
    "Disco.Partition.C31_rightbranching_empty",
    "Disco.Partition.C31_noparse_label_loses_words"
   ],
   "note": "bestsubtree for charts with a list of items (LCFRS); the recursive parses of the parts are a parameter with the stated assumption. Disagreement: a chart label NOPARSE makes words disappear."
  },
  {
   "property": "C26",
   "status": "proved",
   "theorems": [
    "Disco.Kbest.C26_kbest_sound",
    "Disco.Kbest.C26_kbest_complete",
    "Disco.Kbest.C26_collision_disagrees",
    "Disco.Kbest.C26_lexical_cost_disagrees"
   ],
   "note": "getcandidates, lazykthbest, getprob, explorederivation, getderiv, lazykbest on an arbitrary chart without cycles of height below MAX_DEPTH whose subtreeprob values are right; exact costs in any ordered commutative monoid. Completeness needs that no two items share an edge with equal rule and position: the set of explored ranked edges is shared by all items, and C26_collision_disagrees is a PCFG chart where a derivation is lost for that reason. C26_lexical_cost_disagrees: a lexical edge gets the cost of the best derivation of its item."
  },
  {
   "property": "C40",
   "status": "proved",
   "theorems": [
    "Disco.Factor.C40_factor_left",
    "Disco.Factor.C40_factor_right",
    "Disco.Factor.C40_threshold",
    "Disco.Factor.C40_contents",
    "Disco.Factor.C40_short_disagrees"
   ],
   "note": "factorconstituent with all parameters (labelfun as any function of the node); ids modelled as UniqueIDs. Constituents with one or two children above the threshold get an artificial node without a bitset (C40_short_disagrees)."
  },
  {
   "property": "C23",
   "status": "proved",
   "theorems": [
    "Disco.Factor.C23_unique_ids",
    "Disco.DDop.C23_total",
    "Disco.DDop.C23_aligned",
    "Disco.DDop.C23_exact",
    "Disco.DDop.C23_recover_total",
    "Disco.DDop.C23_unambiguous",
    "Disco.DDop.C23_yield_disagreement"
   ],
   "note": "flatten, dopgrammar (without extrarules), UniqueIDs and recoverfragments on fragments as trees with frontier nodes; weights abstract. C23_exact: derivations (by labels; yield functions ignored) correspond exactly to compositions of fragments, for labels without '@', '{', '}' and unambiguous cache keys (C23_unambiguous is a sufficient condition). Disagreement: with yield functions, shared artificial labels let the grammar combine the spans of two fragments (C23_yield_disagreement)."
  },
  {
   "property": "C36",
   "status": "proved",
   "theorems": [
    "Disco.Deps.C36_total",
    "Disco.Deps.C36_arcs",
    "Disco.Deps.C36_one_head",
    "Disco.Deps.C36_yield",
    "Disco.Deps.C36_tree",
    "Disco.Deps.C36_projective",
    "Disco.Deps.C36_deplen_disagrees",
    "Disco.Deps.C36_deplen_roots",
    "Disco.Deps.C36_headrules",
    "Disco.Deps.C36_headrules_total",
    "Disco.Deps.C36_getheadpos",
    "Disco.Deps.C36_rule",
    "Disco.Deps.C36_headfinder_rule",
    "Disco.Deps.C36_headfinder_default",
    "Disco.Deps.C36_headfinder_marked"
   ],
   "note": "dependencies, _makedep, deplen, applyheadrules/headfinder (without modifier rules), getheadpos. One 'root' arc per child of the root node. Disagreement: deplen means to leave out root arcs but compares with 'ROOT'."
  },
  {
   "property": "C29",
   "status": "proved",
   "theorems": [
    "Disco.Ted.C29_geteditstats",
    "Disco.Ted.C29_script",
    "Disco.Ted.C29_metric",
    "Disco.Ted.C29_annotated",
    "Disco.Ted.C29_treedist",
    "Disco.Ted.C29_agree",
    "Disco.Ted.C29_distance",
    "Disco.Ted.C29_zero",
    "Disco.Ted.C29_symm_triangle",
    "Disco.Ted.C29_dice",
    "Disco.Ted.C29_dice_root"
   ],
   "note": "AnnotatedTree, treedist (Zhang-Shasha), newtreedist/geteditstats with edit script, prepare (includeterms=False), treedisteval. Both implementations return the least number of edit operations. Trees in which each terminal is an only child; memo table of geteditstats and debug output not modelled."
  },
  {
   "property": "C15",
   "status": "proved",
   "theorems": [
    "Disco.Parented.C15_history",
    "Disco.Parented.C15_step",
    "Disco.Parented.C15_setSlice",
    "Disco.Parented.C15_delSlice",
    "Disco.Parented.C15_pop",
    "Disco.Parented.C15_remove",
    "Disco.Parented.C15_setItem",
    "Disco.Parented.C15_append",
    "Disco.Parented.C15_extend",
    "Disco.Parented.C15_insert",
    "Disco.Parented.C15_new",
    "Disco.Parented.C15_parentIndex",
    "Disco.Parented.C15_siblings",
    "Disco.Parented.C15_detach",
    "Disco.Parented.C15_disown",
    "Disco.Parented.C15_spliceabove",
    "Disco.Parented.C15_splicebelow",
    "Disco.Parented.C15_prune",
    "Disco.Parented.C15_acyclic",
    "Disco.Parented.C15_root",
    "Disco.Parented.C15_history_root",
    "Disco.Parented.C15_new_twice",
    "Disco.Parented.C15_setSlice_twice",
    "Disco.Parented.C15_reverse",
    "Disco.Parented.C15_append_self",
    "Disco.Parented.C15_spliceabove_root",
    "Disco.Parented.C15_prune_root"
   ],
   "note": "Heap model of ParentedTree: every mutating method has an exact effect theorem (a splice of the children with the matching parent pointers) and the invariant is an induction over arbitrary call histories. Disagreements with the docstrings/comments proved: the same tree twice in a constructor or slice assignment raises but corrupts parent pointers; reversing the children by slice assignment raises although a comment says it is supported; append(self) makes a cycle so that root never returns; spliceabove/prune on a root raise after having changed the tree. Not modelled: slices with a step (slice_bounds rejects them), trees that are not ParentedTree, deepcopy/pickling."
  },
  {
   "property": "C14",
   "status": "proved",
   "theorems": [
    "Disco.Export.C14_line",
    "Disco.Export.C14_line_no_lemma",
    "Disco.Export.C14_tree",
    "Disco.Export.C14_reader",
    "Disco.Export.C14_exact",
    "Disco.Export.C14_corpus",
    "Disco.Export.C14_morphology",
    "Disco.Export.C14_too_many",
    "Disco.Export.C14_add_twice",
    "Disco.Export.C14_word_number",
    "Disco.Export.C14_word_percent",
    "Disco.Export.C14_paren_label",
    "Disco.Export.C14_edge_zero",
    "Disco.Export.C14_line_comment",
    "Disco.Export.C14_keys"
   ],
   "note": "writeexporttree, exporttree, exportsplit, ExportCorpusReader (blocks, comments, parse with canonicalize) and files of several trees. C14_tree/C14_reader: for every tree with a preterminal per word, labels/records that can be written and at most 500 phrasal nodes below the root, what is read is the same tree up to the order of sisters with root label ROOT, records included (C14_exact: exactly, when sisters are in order; writing it again gives the same rows; secondary edges connect the same nodes). C14_corpus: whole files. C14_too_many: with more than 500 phrasal nodes the sentence is never read back. Disagreements: C14_add_twice, C14_word_number, C14_word_percent, C14_paren_label, C14_edge_zero. White space and int() are parameters with stated laws. Not modelled: morphology=between, functions and lemmas options, encodings, #FORMAT tables."
  },
  {
   "property": "C48",
   "status": "proved",
   "theorems": [
    "Disco.Punct.C48_punctraise",
    "Disco.Punct.C48_punctraise_position",
    "Disco.Punct.C48_balancedpunctraise",
    "Disco.Punct.C48_balanced_pair",
    "Disco.Punct.C48_move",
    "Disco.Punct.C48_remove",
    "Disco.Punct.C48_removeall",
    "Disco.Punct.C48_prune_sentence",
    "Disco.Punct.C48_prune",
    "Disco.Punct.C48_root",
    "Disco.Punct.C48_root_words",
    "Disco.Punct.C48_prune_empty",
    "Disco.Punct.C48_lower_loses_period",
    "Disco.Punct.C48_lower_stale_positions",
    "Disco.Punct.C48_guillemets",
    "Disco.Punct.C48_guillemets_not_moved",
    "Disco.Punct.C48_raise_out_of_order"
   ],
   "note": "punctraise, balancedpunctraise, punctroot, punctremove, punctprune and applypunct for methods move, moveall, remove, removeall, prune and root. Trees with a preterminal for each word and no empty constituents. punctlower is modelled but only disagreements are proved about it (a final mark is lost; stale positions raise IndexError). Guillemets are not recognized (the tables have UTF-8 bytes as characters)."
  },
  {
   "property": "C49",
   "status": "proved",
   "theorems": [
    "Disco.Frag.C49_maximal_fragments",
    "Disco.Frag.C49_covers",
    "Disco.Frag.Ex.C49_twoterms_unary"
   ],
   "note": "fasttreekernel, extractbitsets, extractat, extractfrompair on node arrays sorted by production. minterms=0 (default); with twoterms the count of terminals skips unary nodes (disagreement C49_twoterms_unary). Bitsets as natural numbers. Discontinuous substitution sites as input nodes not covered."
  },
  {
   "property": "C50",
   "status": "proved",
   "theorems": [
    "Disco.Frag.C50_occurrences",
    "Disco.Frag.C50_recurring"
   ],
   "note": "exactcounts, getcandidates, containsbitset without maxnodes/maxresults limits."
  },
  {
   "property": "C51",
   "status": "proved",
   "theorems": [
    "Disco.Frag.C51_general",
    "Disco.Frag.C51_allfragments",
    "Disco.Frag.Ex.C51_unary_frontiers"
   ],
   "note": "allfragments/traverse. C51_general is exact for all trees, including how unary nodes are counted; C51_unary_frontiers is the disagreement with the documented maxfrontier."
  },
  {
   "property": "C52",
   "status": "proved",
   "theorems": [
    "Disco.Frag.C52_workload",
    "Disco.Frag.C52_workload2",
    "Disco.Frag.C52_treebank",
    "Disco.Frag.C52_two_treebanks"
   ],
   "note": "workload (fragments.py) and the loops over pairs in extractfragments."
  },
  {
   "property": "C53",
   "status": "proved",
   "theorems": [
    "Disco.Frag.Vocab.C53_getprod",
    "Disco.Frag.Vocab.C53_lookup",
    "Disco.Frag.Vocab.C53_file",
    "Disco.Frag.Vocab.C53_epsilon"
   ],
   "note": "Vocabulary: getprod, getlabelid, getprodid, idtolabel, getlabel, getword, islexical, tofile, fromfile. C53_epsilon: disagreement for the word Epsilon. Bytes of a file are typed cells."
  },
  {
   "property": "C54",
   "status": "proved",
   "theorems": [
    "Disco.Frag.C54_addtrees",
    "Disco.Frag.C54_represents",
    "Disco.Frag.C54_getctrees",
    "Disco.Frag.C54_comparable",
    "Disco.Frag.C54_extract",
    "Disco.Frag.C54_extractsent",
    "Disco.Frag.C54_agree"
   ],
   "note": "Ctrees: alloc, realloc, addnodes, indextrees, copynodes, addtrees, getctrees, extract, extractsent. Discontinuous substitution sites (several terminals under one node) are not in the domain; machine integers are unbounded."
  },
  {
   "property": "C55",
   "status": "proved",
   "theorems": [
    "Disco.Inside.C55_inside",
    "Disco.Inside.C55_outside",
    "Disco.Inside.C55_threshold",
    "Disco.Inside.C55_chart",
    "Disco.Inside.C55_unary_disagreement",
    "Disco.Inside.C55_lexprob",
    "Disco.Inside.C55_lexprob_disagreement"
   ],
   "note": "getinside, getoutside, posteriorthreshold over a field instead of floats. C55_unary_disagreement: in charts with unary rules the items are not in bottom-up order and the inside probability is too low. C55_lexprob_disagreement: in charts made by the parsers exp(-p) is used for the probability p of a lexical rule, because lexprob looks at chart.logprob and not at the switched grammar."
  },
  {
   "property": "C56",
   "status": "proved",
   "theorems": [
    "Disco.Lexicon.C56_lexicon",
    "Disco.Lexicon.C56_openclassthreshold",
    "Disco.Lexicon.C56_year_number",
    "Disco.Lexicon.C56_train",
    "Disco.Lexicon.C56_smooth",
    "Disco.Lexicon.C56_covered",
    "Disco.Lexicon.C56_disk",
    "Disco.Lexicon.C56_known",
    "Disco.Lexicon.C56_signature",
    "Disco.Lexicon.C56_number_disagreement",
    "Disco.Lexicon.C56_year_disagreement",
    "Disco.Lexicon.C56_paren_disagreement"
   ],
   "note": "str.lower and the regular expression for tags are parameters. C56_openclassthreshold: exception (undefined variable) for threshold 0. Disagreements: signature of rare numbers without rule; years without rule; escaped parentheses are unknown."
  },
  {
   "property": "C57",
   "status": "proved",
   "theorems": [
    "Disco.LogProb.C57_logprobsum",
    "Disco.Disamb.C57_mpp",
    "Disco.Disamb.C57_mpd",
    "Disco.Disamb.C57_shortest",
    "Disco.Disamb.C57_sldop",
    "Disco.Disamb.C57_fragments",
    "Disco.Disamb.C57_constraints",
    "Disco.Disamb.C57_mpp_doubledop",
    "Disco.Disamb.C57_mpd_doubledop",
    "Disco.Disamb.C57_shortest_doubledop",
    "Disco.Disamb.C57_mpd_disagreement"
   ],
   "note": "C57_logprobsum is in Disco.LogProb. Costs in a linear order, probabilities in an ordered field. ostag, sl-dop (which parses again) and mcp (see C58) are not in this model. Disagreement: with mpd a parse tree can be returned several times, with different probabilities."
  },
  {
   "property": "C58",
   "status": "proved",
   "theorems": [
    "Disco.Ctf.C58_nowhitelist",
    "Disco.Ctf.C58_check_small",
    "Disco.Ctf.C58_check_fat",
    "Disco.Ctf.C58_cfg_small",
    "Disco.Ctf.C58_cfg_fat",
    "Disco.Ctf.C58_splitprune_disagreement",
    "Disco.Ctf.C58_filter",
    "Disco.Ctf.C58_lossless",
    "Disco.Ctf.C58_kbest",
    "Disco.Ctf.C58_require",
    "Disco.Ctf.C58_k0",
    "Disco.Ctf.C58_block",
    "Disco.Ctf.C58_checkcfg",
    "Disco.Ctf.C58_dense_match",
    "Disco.Ctf.C58_gap_disagreement",
    "Disco.Ctf.C58_sparse_block_disagreement",
    "Disco.Ctf.Mapping.C58_mapping",
    "Disco.Ctf.Mapping.C58_mapping_incremental",
    "Disco.Ctf.Mapping.C58_rulemapping",
    "Disco.Ctf.Mapping.C58_message_disagreement",
    "Disco.Ctf.Mapping.C58_ruleno_disagreement"
   ],
   "note": "0 < k < 1 is C55. Disagreements: splitprune without markorigin uses an empty splitmapping; a gapped span matches the continuous item in a CFG chart; block has no effect on sparse CFG charts; the message of getmapping never reports equal label sets; an unknown production gets rule number 0 and is recorded as rule 0."
  },
  {
   "property": "C59",
   "status": "proved",
   "theorems": [
    "Disco.Estimate.C59_inside",
    "Disco.Estimate.C59_outside",
    "Disco.Estimate.C59_estimates",
    "Disco.Estimate.C59_consistent",
    "Disco.Estimate.C59_truncation_disagreement",
    "Disco.Astar.C59_astar",
    "Disco.Astar.C59_sx",
    "Disco.Astar.C59_max_disagreement",
    "Disco.Estimate.C59_lr_disagreement"
   ],
   "note": "Disagreements: the loops over the rules of a label stop after as many rules as there are nonterminals, so that estimates can be infinite although a derivation exists; with estimates, derivations that cost more than MAX_LOGPROB (300) are dropped; the estimates for LCFRS (SXlrgaps) are not admissible when the parent has a gap of two or more words."
  },
  {
   "property": "C60",
   "status": "proved",
   "theorems": [
    "Disco.Disamb.DopProb.C60_dopparseprob",
    "Disco.Disamb.DopProb.C60_unary_disagreement"
   ],
   "note": "Exact arithmetic (any commutative semiring) instead of log probabilities. The identifier pattern '@[-0-9]+$' is modelled on characters; labels of the tree may not contain '@'. Disagreement: repeated label in a unary chain."
  },
  {
   "property": "C61",
   "status": "proved",
   "theorems": [
    "Disco.Disamb.Mcp.C61_optimal",
    "Disco.Disamb.Mcp.C61_reported",
    "Disco.Disamb.Mcp.C61_words_disagreement"
   ],
   "note": "From the binarized trees with collapsed unaries to the tree before unbinarize; exact rational weights; spans as finite sets."
  },
  {
   "property": "C62",
   "status": "proved",
   "theorems": [
    "Disco.OptBin.C62_search",
    "Disco.OptBin.C62_minimal",
    "Disco.OptBin.C62_optimalbinarize",
    "Disco.OptBin.C62_sum_disagreement"
   ],
   "note": "head=None, v=1 (method 'optimal'); the head-driven variant is not modelled. The order of children is a hypothesis (canonicalize is C38)."
  },
  {
   "property": "C63",
   "status": "proved",
   "theorems": [
    "Disco.RR.C63_roundtrip",
    "Disco.RR.C63_structure",
    "Disco.RR.C63_unify",
    "Disco.RR.C63_default_disagreement",
    "Disco.RR.C63_right_disagreement",
    "Disco.RR.C63_hyphen_disagreement"
   ],
   "note": "Trees with the fields label, FUNC and MORPH of source; lemmas and other fields are not modelled (the back transformation sets them to '--')."
  },
  {
   "property": "C64",
   "status": "proved",
   "theorems": [
    "Disco.Incr.C64_reader",
    "Disco.Incr.C64_othertext",
    "Disco.Incr.C64_notrees",
    "Disco.Incr.C64_unclosed_disagreement",
    "Disco.Incr.C64_prefix_disagreement",
    "Disco.Incr.C64_group_disagreement"
   ],
   "note": "brackettree is a parameter (any partial function that ignores leading white space); lines that segmentexport and segmentalpino accept are excluded. Text outside of trees has no left bracket."
  },
  {
   "property": "C65",
   "status": "proved",
   "theorems": [
    "Disco.TreeEq.C65_eq_structural",
    "Disco.TreeEq.C65_freeze",
    "Disco.TreeEq.C65_hash_injective",
    "Disco.TreeEq.C65_caches",
    "Disco.TreeEq.C65_immutable",
    "Disco.TreeEq.C65_disctree_eq",
    "Disco.TreeEq.C65_disctree_key",
    "Disco.TreeEq.C65_lt",
    "Disco.TreeEq.C65_insert_changes_frozen",
    "Disco.TreeEq.C65_disctree_eq_ignores_words",
    "Disco.TreeEq.C65_lt_not_asymmetric",
    "Disco.TreeEq.C65_lt_not_transitive",
    "Disco.TreeEq.C65_le_incoherent"
   ],
   "note": "Leaves are integers. The hash function is a parameter; C65_hash_injective and C65_disctree_key assume it has no collisions. A sentence is a total lookup function (indices in range)."
  },
  {
   "property": "C66",
   "status": "proved",
   "theorems": [
    "Disco.Transf.C66_statesplits_removed",
    "Disco.Transf.C66_splits_roundtrip",
    "Disco.Transf.C66_presets",
    "Disco.Transf.C66_funcnode",
    "Disco.Transf.C66_lemmanode",
    "Disco.Transf.C66_appendfunc",
    "Disco.Transf.C66_slash",
    "Disco.Transf.C66_unary",
    "Disco.Transf.C66_unary_slash",
    "Disco.Transf.C66_morphnode_swaps",
    "Disco.Transf.C66_morphnode_disagreement",
    "Disco.Transf.C66_caret_disagreement",
    "Disco.Transf.C66_appendfunc_disagreement",
    "Disco.Transf.C66_unary_disagreement",
    "Disco.Transf.C66_lemmanode_disagreement"
   ],
   "note": "Fourteen state splits are modelled one by one; the theorems hold for arbitrary conditions. source is reduced to lemma, tag, morph, func. The other transformations (DP, SBAR, VP-FIN, \u2026) are not modelled."
  },
  {
   "property": "C67",
   "status": "proved",
   "theorems": [
    "Disco.Gen.C67_yfarray",
    "Disco.Gen.C67_labels",
    "Disco.Gen.C67_chooserule",
    "Disco.Gen.C67_sound",
    "Disco.Gen.C67_sound_exact",
    "Disco.Gen.C67_complete",
    "Disco.Gen.C67_no_exception",
    "Disco.Gen.C67_bitpar_no_lexicon",
    "Disco.Gen.C67_bitpar_nothing",
    "Disco.Gen.C67_mixed_disagreement",
    "Disco.Gen.C67_unary_join_disagreement",
    "Disco.Gen.C67_unary_one_disagreement"
   ],
   "note": "Weights are rationals instead of floats; recursion depth is a parameter; parsing of the text files into fields is not modelled."
  },
  {
   "property": "C68",
   "status": "proved",
   "theorems": [
    "Disco.Search.C68_fifo",
    "Disco.Search.C68_counts",
    "Disco.Search.C68_trees",
    "Disco.Search.C68_none_disagreement",
    "Disco.Search.C68_tgrep_prefix",
    "Disco.Search.C68_tgrep_disagreement",
    "Disco.Search.C68_sents_fresh",
    "Disco.Search.C68_sents_disagreement",
    "Disco.Search.C68_race_ok",
    "Disco.Search.C68_race_disagreement",
    "Disco.Search.C68_batch",
    "Disco.Search.C68_batch_disagreement"
   ],
   "note": "What a query gives on a file is an arbitrary function; the external tgrep2 program, regular expressions and the conversion of matches are not modelled here."
  },
  {
   "property": "C69",
   "status": "proved",
   "theorems": [
    "Disco.Lines.C69_indices",
    "Disco.Lines.C69_count",
    "Disco.Lines.C69_sents",
    "Disco.Lines.C69_batch",
    "Disco.Lines.C69_extract",
    "Disco.Lines.C69_literal",
    "Disco.Lines.C69_charindices",
    "Disco.Lines.C69_highlight",
    "Disco.Lines.C69_getinfo_disagreement",
    "Disco.Lines.C69_space_disagreement",
    "Disco.Lines.C69_empty_match_disagreement",
    "Disco.Lines.C69_empty_file_disagreement",
    "Disco.Lines.C69_batch_disagreement"
   ],
   "note": "A regular expression is a function from text to spans (searching from a position is searching the part of the text); one byte per character; escape sequences are symbols."
  },
  {
   "property": "C70",
   "status": "proved",
   "theorems": [
    "Disco.Draw.C70_continuous",
    "Disco.Draw.C70_rejects",
    "Disco.Draw.C70_exception_disagreement",
    "Disco.Draw.C70_lost_disagreement",
    "Disco.Draw.C70_not_all"
   ],
   "note": "Secondary edges, labels, highlighting and the rendering itself (text, svg, tikz) are not modelled. The set of candidate columns is a list without duplicates; its order does not matter."
  },
  {
   "property": "C71",
   "status": "proved",
   "theorems": [
    "Disco.Run.C71_schedule",
    "Disco.Run.C71_failure",
    "Disco.Run.C71_processes",
    "Disco.Run.C71_breakdown_disagreement"
   ],
   "note": "Evaluation of a pair of trees, the logarithm and writing a tree are parameters. Decimals and means are exact (no rounding of sums). The gold file, the column with lengths and log messages are not modelled. A worker that is killed is not modelled (multiprocessing would wait)."
  },
  {
   "property": "C72",
   "status": "proved",
   "theorems": [
    "Disco.ParseCmd.C72_success",
    "Disco.ParseCmd.C72_exception",
    "Disco.ParseCmd.C72_exception_pool",
    "Disco.ParseCmd.C72_keys",
    "Disco.ParseCmd.C72_tags",
    "Disco.ParseCmd.C72_tags_missing",
    "Disco.ParseCmd.C72_best",
    "Disco.ParseCmd.C72_empty_disagreement",
    "Disco.ParseCmd.C72_key_disagreement"
   ],
   "note": "The parser, post-processing and the writer of trees are parameters; whitespace is ASCII whitespace; probabilities are numbers. Messages and times are not modelled. Two spaces between tokens give an empty token (as in the code)."
  },
  {
   "property": "C73",
   "status": "proved",
   "theorems": [
    "Disco.FuncTags.C73_roundtrip",
    "Disco.FuncTags.C73_add_remove",
    "Disco.FuncTags.C73_remove",
    "Disco.FuncTags.C73_remove_idempotent",
    "Disco.FuncTags.C73_leaves",
    "Disco.FuncTags.C73_between",
    "Disco.FuncTags.C73_index_disagreement",
    "Disco.FuncTags.C73_dash_disagreement",
    "Disco.FuncTags.C73_twice_disagreement"
   ],
   "note": "Of the fields of `source` only the function tag is modelled; isdigit is for ASCII digits; nodes without children are outside of the model. Parsing of brackets itself is in C12."
  },
  {
   "property": "C74",
   "status": "proved",
   "theorems": [
    "Disco.Pipeline.C74_results",
    "Disco.Pipeline.C74_total",
    "Disco.Pipeline.C74_chain",
    "Disco.Pipeline.C74_probmult",
    "Disco.Pipeline.C74_partial_disagreement",
    "Disco.Pipeline.C74_split_disagreement",
    "Disco.Pipeline.C74_stale_disagreement",
    "Disco.Pipeline.C74_probmult_disagreement"
   ],
   "note": "Parsing, pruning, disambiguation, reranking, putting parts together and post-processing are parameters (modelled in other properties); counting gold items, messages and times are not modelled. Probabilities are numbers, except in probmult."
  },
  {
   "property": "C75",
   "status": "proved",
   "theorems": [
    "Disco.Alpino.C75_round",
    "Disco.Alpino.C75_labels",
    "Disco.Alpino.C75_functions",
    "Disco.Alpino.C75_read",
    "Disco.Alpino.C75_read_cat",
    "Disco.Alpino.C75_words",
    "Disco.Alpino.C75_comment_disagreement",
    "Disco.Alpino.C75_tag_disagreement"
   ],
   "note": "XML text is not modelled: elements are written and read unchanged, except that empty text becomes None. str.upper and str.lower are parameters. Options functions, morphology, lemmas have their default."
  },
  {
   "property": "C76",
   "status": "proved",
   "theorems": [
    "Disco.EvalTransform.C76_transform",
    "Disco.EvalTransform.C76_pair",
    "Disco.EvalTransform.C76_gold",
    "Disco.EvalTransform.C76_root_eqlabel_disagreement",
    "Disco.EvalTransform.C76_rootpreterms_disagreement",
    "Disco.EvalTransform.C76_preterminal_root_disagreement"
   ],
   "note": "Bitsets are finite sets of positions (C09, C65). Dependencies, parented bracketings, leaf-ancestor and tree edit distance are not part of this property."
  },
  {
   "property": "C77",
   "status": "proved",
   "theorems": [
    "Disco.LeafAncestor.C77_paths",
    "Disco.LeafAncestor.C77_score",
    "Disco.LeafAncestor.C77_refl",
    "Disco.LeafAncestor.C77_symm",
    "Disco.LeafAncestor.C77_continuous",
    "Disco.LeafAncestor.C77_assertion",
    "Disco.LeafAncestor.C77_assert_disagreement",
    "Disco.LeafAncestor.C77_marks_disagreement"
   ],
   "note": "Decimal arithmetic is exact (rational). Terminals beside constituents are excluded."
  },
  {
   "property": "C78",
   "status": "proved",
   "theorems": [
    "Disco.OsTag.C78_ostag",
    "Disco.OsTag.C78_adjunction_weight",
    "Disco.OsTag.C78_weight_disagreement",
    "Disco.OsTag.C78_dollar_disagreement"
   ],
   "note": "packedgraph=False, extrarules=None, continuous trees. Weights are naturals (the code prints them with %d)."
  },
  {
   "property": "C79",
   "status": "proved",
   "theorems": [
    "Disco.Raise.C79_raise",
    "Disco.Raise.C79_head",
    "Disco.Raise.C79_lost_disagreement",
    "Disco.Raise.C79_reorder"
   ],
   "note": "For raisediscnodes the labels of the tree have no asterisk."
  },
  {
   "property": "C80",
   "status": "proved",
   "theorems": [
    "Disco.Mixed.C80_mixed",
    "Disco.Mixed.C80_blocks",
    "Disco.Mixed.C80_export",
    "Disco.Mixed.C80_reopened",
    "Disco.Mixed.C80_unclosed_disagreement",
    "Disco.Mixed.C80_table_disagreement",
    "Disco.Mixed.C80_brackets_first_disagreement"
   ],
   "note": "brackettree and alpinotree are parameters; exporttree is the model of C14 (morphology=None, functions=None)."
  },
  {
   "property": "C81",
   "status": "proved",
   "theorems": [
    "Disco.CorpusSel.C81_history",
    "Disco.CorpusSel.C81_history_iter",
    "Disco.CorpusSel.C81_file",
    "Disco.CorpusSel.C81_files",
    "Disco.CorpusSel.C81_tagged",
    "Disco.CorpusSel.C81_train",
    "Disco.CorpusSel.C81_test",
    "Disco.CorpusSel.C81_disjoint",
    "Disco.CorpusSel.C81_fraction",
    "Disco.CorpusSel.C81_eval",
    "Disco.CorpusSel.C81_root",
    "Disco.CorpusSel.C81_lost_disagreement",
    "Disco.CorpusSel.C81_alias_disagreement",
    "Disco.CorpusSel.C81_overlap_disagreement",
    "Disco.CorpusSel.C81_testset_disagreement"
   ],
   "note": "Reading one line (_parsetree) is a parameter; files do not change while they are read; fractions are exact instead of floating point."
  },
  {
   "property": "C82",
   "status": "proved",
   "theorems": [
    "Disco.Params.C82_accepted",
    "Disco.Params.C82_values",
    "Disco.Params.C82_defaults",
    "Disco.Params.C82_equal",
    "Disco.Params.C82_order",
    "Disco.Params.C82_trailing_disagreement",
    "Disco.Params.C82_blank_disagreement"
   ],
   "note": "The characters that are white space and int() are parameters; the file is given by its lines (splitlines is not modelled)."
  },
  {
   "property": "C83",
   "status": "proved",
   "theorems": [
    "Disco.RuleFiles.C83_accepted",
    "Disco.RuleFiles.C83_rules",
    "Disco.RuleFiles.C83_single",
    "Disco.RuleFiles.C83_modifier_file",
    "Disco.RuleFiles.C83_modifiers",
    "Disco.RuleFiles.C83_modifiers_idem",
    "Disco.RuleFiles.C83_short_disagreement",
    "Disco.RuleFiles.C83_ftb_disagreement",
    "Disco.RuleFiles.C83_lower_disagreement"
   ],
   "note": "White space and upper case are parameters (for C83_lower_disagreement: upper works character by character and is idempotent); the regular expression is modelled by its effect on lines with at least three words."
  },
  {
   "property": "C84",
   "status": "proved",
   "theorems": [
    "Disco.Collapse.C84_result",
    "Disco.Collapse.C84_accepted",
    "Disco.Collapse.C84_homomorphism",
    "Disco.Collapse.C84_compose",
    "Disco.Collapse.C84_levels",
    "Disco.Collapse.C84_negra_disagreement",
    "Disco.Collapse.C84_dash_disagreement",
    "Disco.Collapse.C84_fanout_disagreement",
    "Disco.Collapse.C84_tag_disagreement"
   ],
   "note": "isalpha is a parameter; exceptions are none, whichever comes first."
  },
  {
   "property": "C85",
   "status": "proved",
   "theorems": [
    "Disco.Export.C85_export_any",
    "Disco.Export.C85_export_reader",
    "Disco.Export.C85_cycle_disagreement",
    "Disco.Export.C85_order_disagreement",
    "Disco.Tiger.C85_tiger_rows",
    "Disco.Tiger.C85_tiger_tree",
    "Disco.Tiger.C85_tiger_two_parents",
    "Disco.Tiger.C85_tiger_function_disagreement",
    "Disco.Tiger.C85_tiger_root_disagreement",
    "Disco.Tiger.C85_tiger_parents_disagreement"
   ],
   "note": "The XML library is not modelled; elements are given by attributes and children. Sentences whose root is a terminal are in the model but not in the theorems."
  },
  {
   "property": "C86",
   "status": "proved",
   "theorems": [
    "Disco.Binarize.C86_heads_recovered",
    "Disco.Binarize.C86_heads_roundtrip",
    "Disco.Binarize.C86_saveheads_no_exception",
    "Disco.Binarize.C86_left_disagreement",
    "Disco.Binarize.C86_tailmarker_disagreement",
    "Disco.Binarize.C86_binary_head_lost"
   ],
   "note": "Head marks are one Boolean per node; the derivation is taken to be the binarized tree (fan-out markers and the split step of postprocess are not part of this theorem)."
  },
  {
   "property": "C87",
   "status": "proved",
   "theorems": [
    "Disco.DopW.C87_ewe_per_tree",
    "Disco.DopW.C87_ewe_total",
    "Disco.DopW.C87_ewe_normalised",
    "Disco.DopW.C87_ewe_positive",
    "Disco.DopW.C87_bon_le_one",
    "Disco.DopW.C87_bon_eq_one",
    "Disco.DopW.C87_render"
   ],
   "note": "Exact rationals instead of floats. The grammar itself is C23; extra rules are not modelled."
  },
  {
   "property": "C88",
   "status": "proved",
   "theorems": [
    "Disco.DepText.C88_conll",
    "Disco.DepText.C88_mst",
    "Disco.DepText.C88_wordpos",
    "Disco.DepText.C88_total",
    "Disco.DepText.C88_partial_cover_disagreement",
    "Disco.DepText.rows_unique"
   ],
   "note": "The dependencies are those of C36. The labels are strings; `str(rel)` of other values is not modelled."
  },
  {
   "property": "C89",
   "status": "proved",
   "theorems": [
    "Disco.Packed.C89_addresses",
    "Disco.Packed.C89_goodman",
    "Disco.Packed.C89_packed_disagreement"
   ],
   "note": "Dictionary lookup is by equality of DiscTree (C65). Non-memoized decoration and the reduction without packing are C22."
  },
  {
   "property": "C90",
   "status": "proved",
   "theorems": [
    "Disco.PtbEscape.C90_round",
    "Disco.PtbEscape.C90_none",
    "Disco.PtbEscape.C90_no_brackets",
    "Disco.PtbEscape.C90_again",
    "Disco.PtbEscape.C90_collision"
   ],
   "note": "Strings are lists of characters; str.replace is the model of C39."
  },
  {
   "property": "C91",
   "status": "proved",
   "theorems": [
    "Disco.Markov.C91_relabel",
    "Disco.Markov.C91_reduce",
    "Disco.Markov.C91_unbinarize",
    "Disco.Markov.C91_vertical_disagreement",
    "Disco.Markov.C91_parent_disagreement"
   ],
   "note": "Disagreement proved: the vertical Markov order is ignored, as the greedy expression for the sisters includes the parent annotation. The regular expression is modelled by its backtracking order; labels have no newlines."
  },
  {
   "property": "C92",
   "status": "proved",
   "theorems": [
    "Disco.AlpinoCorpus.C92_keys",
    "Disco.AlpinoCorpus.C92_wellformed",
    "Disco.AlpinoCorpus.C92_stale_disagreement",
    "Disco.AlpinoCorpus.C92_first_disagreement",
    "Disco.AlpinoCorpus.C92_parse_error"
   ],
   "note": "Disagreement proved: malformed files get the tree of another file, or make the corpus unreadable. Reading XML and turning a document into a tree (C75) are parameters."
  },
  {
   "property": "C93",
   "status": "proved",
   "theorems": [
    "Disco.AddIndices.C93_addindices",
    "Disco.AddIndices.C93_frontier_disagreement",
    "Disco.AddIndices.C93_ptsg_disagreement"
   ],
   "note": "Disagreements proved for all inputs: frontier nodes become words None, and the command raises for bracketed fragments. The only white space is the space; float and float.fromhex are parameters."
  }
 ]
}