# Where the code does not do what it documents

Each row is a theorem of the Lean development (a concrete witness evaluated by the kernel, or a general statement) that shows the code, as modelled,
departs from the documented or intended behaviour; the corresponding property theorem has the hypothesis that excludes the case.

| property | theorem | file | what |
|---|---|---|---|
| C01 | `C01_tailmarker_not_restored` | `Verif/Binarize/Props.lean` | The hypothesis on `tailmarker` cannot be dropped: with `rightmostunary` and a tail marker, the label `S\|$<C>` does not contain `\|<`, so `unbinarize` does not remove the artificial node (treetransforms.py:197, 235 against 266, 279). |
| C07 | `C07_underscore_lost` | `Verif/Trees/Fanout.lean` | Labels that contain an underscore are not restored: the documented pair is not inverse on them. |
| C08 | `C08_bare_terminal_fails` | `Verif/Trees/RemoveTerminals.lean` | A word directly below a node with other children (no preterminal of its own) makes `removeterminals` fail. |
| C11 | `C11_getyf_unary_fails` | `Verif/Bits/Yield.lean` | With a single child (`right = None`, as called for unary nodes by `factorconstituent` with `markyf`), `getyf` raises an AttributeError as soon as the child does not start at position 0. |
| C12 | `C12_empty_label_lost` | `Verif/Format/Bracket.lean` | The tree with an empty label over terminal 7 is written as `( 7)`, which is read as a childless node labelled `7`. |
| C18 | `C18_clear_fails` | `Verif/Util/Agenda.lean` | `clear` does not reset the length. |
| C18 | `C18_fifo_fails` | `Verif/Util/Agenda.lean` | Ties are not always broken by insertion order (the class documents that "equivalent values are preserved in insertion order", and an update keeps the count of the first insertion): key 0 was inserted first and has the same priority as key 2, but key 2 is popped first. Invalidated entries have count 0, which breaks the heap order among entries with equal values. |
| C18 | `C18_peekitem_fails` | `Verif/Util/Agenda.lean` | `peekitem` raises IndexError on a nonempty agenda when the entry on top of the heap was invalidated. |
| C22 | `C22_disagreement_extrarules` | `Verif/Grammar/DopReduction.lean` | `extrarules` is documented nowhere to be restricted to labels of the treebank, but an extra rule for a new label always ends in a division by zero. |
| C23 | `C23_yield_disagreement` | `Verif/Grammar/DoubleDopExamples.lean` | Neither fragment by itself makes a constituent of them, but the grammar of the two fragments does. |
| C24 | `C24_dense_disagreement` | `Verif/Parse/Cky.lean` | in a dense chart (the default for grammars with less than 20000 labels), an edge can be there twice, because the agenda for unary rules is filled with costs of other items (pcfg.pyx:752-753). |
| C24 | `C24_leftchild_disagreement` | `Verif/Parse/Cky.lean` | with a whitelist (as in coarse-to-fine parsing), the chart gets items that have no derivation. The loop over the items of a cell starts at the index where the cell would start and goes on while the end of the item is right; if the cell is empty, these are items of a later cell with another start. |
| C25 | `C25_disagreement_tag` | `Verif/Parse/PlcfrsItems.lean` | if a tag of a word is also the left-hand side of a unary rule, the chart does not have the least cost: the tag is taken from the agenda before the better derivation, because only the scores of items that are not made by lexical rules get the length of their span added. |
| C26 | `C26_collision_disagrees` | `Verif/Parse/KbestProps.lean` | The set of explored ranked edges is shared by all items although a ranked edge does not say to which item it belongs. The edges of A[0,2] and A[0,3] have the same rule and the same midpoint, so that the second derivation of one of them is never considered: a chart with the four derivations, two of cost 4 and two of cost 5, yields only three. |
| C26 | `C26_lexical_cost_disagrees` | `Verif/Parse/KbestProps.lean` | A lexical edge is given the cost `subtreeprob` of its item. If the item has a better derivation through a unary rule, then the lexical derivation is reported with the cost of that derivation: 2 instead of 5. |
| C34 | `C34_decode_fails_256` | `Verif/Parse/CellIdx.lean` | From 256 words on decoding fails, because the running index is a 16-bit integer: in a sentence of 256 words the cell of the span [242, 243) is decoded as starting at 241 and ending at 257, outside of the sentence. |
| C35 | `C35_sumrules_wrong` | `Verif/Grammar/SumRuns.lean` | Hence two rules with weights 1 and 2 come out as the second rule twice; an empty input raises an exception. |
| C36 | `C36_deplen_disagrees` | `Verif/Trees/Dependencies.lean` | `deplen` is meant to leave out the dependency of the root ("discount ROOT", the test for the label `'ROOT'`), but `dependencies` gives it the label `'root'`: a sentence of one word has total length 1 with zero dependencies. |
| C39 | `C39_overlap_not_restored` | `Verif/Format/Escape.lean` | A word that contains no escape sequence but is not restored: `)LRB(`. |
| C40 | `C40_short_disagrees` | `Verif/Trees/Factor.lean` | One or two children above the threshold: the artificial node that is added has no bitset (so that it cannot be a child of a constituent that is factored later), and with `markyf` a single child that does not cover position 0 raises an error. |
| C48 | `C48_guillemets_not_moved` | `Verif/Trees/PunctExamples.lean` | The marks stay where they are: `( » )` under the root is not attached to the NP of the left mark. |
| C55 | `C55_lexprob_disagreement` | `Verif/Parse/LexProb.lean` | In a chart made by the parsers, `posteriorthreshold` takes `exp(-p)` instead of `p` as the probability of a lexical rule. A tag with 9/10 of the probability of the sentence is pruned by a threshold of 1/2, and the tag with the remaining 1/10 is kept. |
| C55 | `C55_unary_disagreement` | `Verif/Parse/Posterior.lean` | With unary rules, the inside probabilities are too low: the items of a cell are numbered in the order in which they are first found, not in bottom-up order. Here the item for label 1 has two derivations with total probability 1/2, but its inside probability is 1/4. |
| C56 | `C56_number_disagreement` | `Verif/Lexicon/Examples.lean` | The documentation says "If the returned signature is not part of the grammar, a default one is returned." But signatures of rare numbers in the training set are counted although these are replaced by '000' in it: here the parser gets a signature for which there is no lexical rule. |
| C56 | `C56_paren_disagreement` | `Verif/Lexicon/Examples.lean` | A frequent word with a parenthesis is known, and the grammar has a rule for it (escaped); but in a test sentence it is treated as unknown, because the escaped word is compared with the words of the training set, which are not escaped. |
| C56 | `C56_year_disagreement` | `Verif/Lexicon/Examples.lean` | Without a year in the training set, a year in a test sentence is replaced by a word without lexical rule. |
| C57 | `C57_mpd_disagreement` | `Verif/Disamb/DoubleDop.lean` | With the most probable derivation as objective, one parse tree can occur several times among the results, with different probabilities, since the results are grouped by derivation up to addresses rather than by parse tree. |
| C58 | `C58_gap_disagreement` | `Verif/Ctf/Select.lean` | a dense CFG chart does not distinguish a required or blocked span with a gap from the span without the gap: here the discontinuous constraint `(A, [0, 2])` matches the item `A[0:3]`. |
| C58 | `C58_message_disagreement` | `Verif/Ctf/Mapping.lean` | the message is never `label sets are equal` unless split components are marked, even for two equal grammars, because only components are recorded as seen. |
| C58 | `C58_ruleno_disagreement` | `Verif/Ctf/Mapping.lean` | the number reported for a production that the grammar does not have (`getruleno`, and in `getrulemapping`) is 0, which is the number of a rule, and the production is recorded from then on as if it were that rule. |
| C58 | `C58_sparse_block_disagreement` | `Verif/Ctf/Select.lean` | in a sparse CFG chart (with fewer than 2 ^ 48 items) `block` has no effect whatever is blocked, because `itemid1` does not return the number of an item. |
| C58 | `C58_splitprune_disagreement` | `Verif/Ctf/Whitelist.lean` | with `splitprune` but without `markorigin` ("every discontinuous node will result in multiple lookups into whitelist to see whether it should be allowed", coarsetofine.pyx:57-60; "treat VP_2[101] as {VP*[100], VP*[001]} for pruning", parser.py:121) there is no lookup at all: any discontinuous item with a label that is mapped passes, here `VP_2[0011]` though neither component is on the whitelist; and for a label that is never blocked, an empty vector is read. |
| C59 | `C59_lr_disagreement` | `Verif/Estimate/Lr.lean` | the estimates for LCFRS are not admissible. The loops try at most `lenB + 1` more words to the left and right of a child with sibling of length `lenB`, but if the parent has a gap, words of the gap are also outside of the child. In this example the estimate for A is infinite, and the parser with estimates reports that the first word has no tags, although the sentence has a derivation that costs 7, which the parser finds without estimates. |
| C59 | `C59_max_disagreement` | `Verif/Estimate/SxParser.lean` | with estimates, a sentence whose best derivation costs more than `MAX_LOGPROB` (300) gets no parse (the first word is reported to have no tags), although the parser finds the derivation without estimates. |
| C59 | `C59_truncation_disagreement` | `Verif/Estimate/Sx.lean` | only as many binary rules with a given child are considered as there are nonterminals. For a grammar with more such rules, the estimate can be infinite although there is a derivation, which A* parsing then does not find. |
| C60 | `C60_unary_disagreement` | `Verif/Disamb/DopProb.lean` | for a tree with the same label twice in a unary chain: the two nodes share a cell, so that the probability of the lower node is added to that of the upper one. With the rules X → A and X → X of weights 5 and 7 and the tag A of weight 3, the only derivation of (X (X (A w))) has weight 7·5·3 = 105, but the result is 105 + 15. |
| C61 | `C61_words_disagreement` | `Verif/Disamb/Mcp.lean` | without the assumption on the tags: when no tag of the words of a constituent has a positive expected gain, all splits have score 0, which is not larger than the initial value, and the constituent is given the first word only: the other words are lost, although there is a tree with all the words. |
| C62 | `C62_sum_disagreement` | `Verif/Trees/OptBinTop.lean` | the sum of the complexities, by which items with the same worst score are compared (treetransforms.py:864-865), is not minimal: here another binarization has the same worst score (10, 5) and the sum 27 instead of 29. An item with a smaller sum is lost when a part with a smaller worst score replaces it. |
| C63 | `C63_default_disagreement` | `Verif/Trees/RelReal.lean` | with `ignorefunctions=None`, the default, the transform of a tree raises an exception as soon as a child has a function that is not the adjunction label (`'HD' not in None`). |
| C63 | `C63_hyphen_disagreement` | `Verif/Trees/RelReal.lean` | the label of a constituent with a hyphen, e.g. `NP-TMP`, is not recovered. |
| C63 | `C63_right_disagreement` | `Verif/Trees/RelReal.lean` | in `(S (NP-SBJ ..) (ADV-MO ..) (V-HD ..) (NP-OA ..) (ADV-MO ..))` the neighbours of the first adjunct are `SBJ` and `HD`, but it is relabelled as `SBJ:OA`: on the right the last argument of the constituent is used instead of the closest. |
| C64 | `C64_group_disagreement` | `Verif/Format/Incremental.lean` | a pair of brackets `(x y)` after a tree is part of the comment, but when it is divided over two lines, it is lost, together with the rest of the comment. |
| C64 | `C64_prefix_disagreement` | `Verif/Format/Incremental.lean` | the pattern that should exclude brackets after text (treebank.py:1095-1097) matches always, so the text is taken as part of the tree if the tree ends on the same line, and dropped otherwise. For every `brackettree`: `x (S (A b))` on one line is read as the tree `x (S (A b))`, and if `brackettree` does not accept that, the reader raises an exception even without `strict`; when there is a newline after `(S`, the tree is `(S\n (A b))`. |
| C64 | `C64_unclosed_disagreement` | `Verif/Format/Incremental.lean` | "if True, raise ValueError on malformed data", but when the input ends in the middle of a tree (`u`, of which `v` is missing), the trees before it are yielded and the incomplete one is dropped without an error, whether or not `strict` is set. |
| C65 | `C65_lt_not_asymmetric` | `Verif/Trees/Equality.lean` | `<` is not an order: two trees are each less than the other. |
| C65 | `C65_lt_not_transitive` | `Verif/Trees/Equality.lean` | `<` is not transitive either. |
| C66 | `C66_appendfunc_disagreement` | `Verif/Trees/Transform.lean` | 'APPEND-FUNC': a `-` in a label is taken for a function tag. |
| C66 | `C66_caret_disagreement` | `Verif/Trees/Transform.lean` | A label that already has a `^` is not restored, not even when there are no transformations. |
| C66 | `C66_lemmanode_disagreement` | `Verif/Trees/Transform.lean` | 'LEMMA-NODE': label and lemma of a preterminal are restored (`C66_lemmanode`), its function tags are lost. |
| C66 | `C66_morphnode_disagreement` | `Verif/Trees/Transform.lean` | … a concrete tree: the tags come out as `Nom.Sg`. |
| C66 | `C66_unary_disagreement` | `Verif/Trees/Transform.lean` | 'nladdunary': an NP over a single noun that was in the tree from the start is removed. |
| C67 | `C67_bitpar_nothing` | `Verif/Grammar/Gen.lean` | … so that nothing is ever generated from a bitpar grammar: for no random numbers does `gen` return a sentence. |
| C67 | `C67_mixed_disagreement` | `Verif/Grammar/Gen.lean` | Disagreement: a label with both lexical and other rules. `x` is derivable from `S`, but never generated. |
| C67 | `C67_unary_join_disagreement` | `Verif/Grammar/Gen.lean` | Disagreement: a unary rule that joins the two components of its child is accepted by `splitgrammar`, but `gen` returns the components unjoined. |
| C67 | `C67_unary_one_disagreement` | `Verif/Grammar/Gen.lean` | Disagreement: the probability of a unary rule of weight 1 counts as `0.99999999`, so that the probability that is returned is not that of the derivation. |
| C68 | `C68_batch_disagreement` | `Verif/Search/Cache.lean` | The documented result of `batchcounts` is a list with the counts of the given queries. A query without matches has no place in it, so that the counts of later queries move to the wrong query: for three queries of which the second has no match, the list has two elements and the count of the third is in the place of the second. |
| C68 | `C68_none_disagreement` | `Verif/Search/Cache.lean` | After a call with `maxresults=None` (accepted: it means that there is no limit), the same query with a number fails with a TypeError, for as long as the result is in the cache. |
| C68 | `C68_race_disagreement` | `Verif/Search/Cache.lean` | With more files than threads, a job that starts after another is handled reads the `end` that was assigned when handling: with the schedule of two threads and three files, the query without `end` gives one match in the third file although there are two; with one thread (jobs are run when they are handled) already the second file is affected. |
| C68 | `C68_sents_disagreement` | `Verif/Search/Cache.lean` | `RegexSearcher.sents`: the loop over the matches of a job assigns to the variables `start` and `end`, which are then used in the key for the cache. A second call of the same search is not answered from the cache, and a search for the lines `start=0, end=1` gives the matches of all lines when the last match of an earlier search was on columns 0–1. |
| C68 | `C68_tgrep_disagreement` | `Verif/Search/Cache.lean` | With `start > 1` the limit also counts the matches that are skipped: with `maxresults=2` one result is given although there are two. After a call with a higher limit the same call gives two: results depend on the history. |
| C69 | `C69_batch_disagreement` | `Verif/Search/Lines.lean` | `batchcounts` with a start after the last sentence: no counts at all instead of a zero for each query. |
| C69 | `C69_empty_file_disagreement` | `Verif/Search/Lines.lean` | An empty file: an exception (it cannot be mapped in memory) instead of no matches. |
| C69 | `C69_empty_match_disagreement` | `Verif/Search/Lines.lean` | A pattern that matches the empty string: the match at the end of the file has the number of a sentence which does not exist, and `sents` fails with IndexError. |
| C69 | `C69_getinfo_disagreement` | `Verif/Search/Lines.lean` | `getinfo`: the number of sentences is one too high, for every file (the index has the end of the file as well); the number of words, which is computed from it, too. |
| C69 | `C69_space_disagreement` | `Verif/Search/Lines.lean` | A blank line with a space, which is not a sentence, becomes part of the sentence before it. |
| C70 | `C70_exception_disagreement` | `Verif/Draw/Place.lean` | Not every discontinuous tree is drawn: for this one there is the exception "could not find a free cell". |
| C70 | `C70_lost_disagreement` | `Verif/Draw/Place.lean` | Not every node of a discontinuous tree has a place: for this tree there are coordinates, but the one of a node is overwritten. |
| C70 | `C70_not_all` | `Verif/Draw/Place.lean` |  |
| C71 | `C71_breakdown_disagreement` | `Verif/Run/Batch.lean` | The printed breakdown of errors is not independent of the order of arrival: equally frequent errors are listed in the order in which they were seen, and only the first `limit` of them are shown. |
| C72 | `C72_empty_disagreement` | `Verif/Run/ParseCmd.lean` | A text without sentences: there is an exception at the end (the average time is computed by dividing by zero). |
| C72 | `C72_key_disagreement` | `Verif/Run/ParseCmd.lean` | With keys and one token per line, the key of every sentence but the first starts with a space. |
| C73 | `C73_dash_disagreement` | `Verif/Trees/FuncTags.lean` | A label that starts with a dash: a function tag that was added is not removed. |
| C73 | `C73_index_disagreement` | `Verif/Trees/FuncTags.lean` | The index of a trace after a function tag: the function tag that is read is not `SBJ`. |
| C73 | `C73_twice_disagreement` | `Verif/Trees/FuncTags.lean` | Labels are read with the option to leave the function tags, and written with function tags: these are there twice. |
| C74 | `C74_partial_disagreement` | `Verif/Run/Pipeline.lean` | "Return parse from previous stage": when the fine stage fails to parse after a successful coarse stage, its result is not the parse of the coarse stage, but a tree put together from parts; and it is not marked as having no parse. |
| C74 | `C74_probmult_disagreement` | `Verif/Run/Pipeline.lean` | With pairs, the numbers of subtrees are not added: the probability is. |
| C74 | `C74_split_disagreement` | `Verif/Run/Pipeline.lean` | The coarse stage has split nodes, and disambiguation for the fine stage gives nothing: its result is the parse of the coarse stage, but post-processed as a parse of the fine stage, so that the split nodes are not merged. |
| C74 | `C74_stale_disagreement` | `Verif/Run/Pipeline.lean` | A stage is not parsed because its coarse stage failed, but there is another stage in between that was successful: the chart of that stage is taken for its own, and its result is not marked as having no parse. |
| C75 | `C75_comment_disagreement` | `Verif/Format/Alpino.lean` | The comment that was written is never read, whatever the tree: it is written as a child of the root element, but looked for in an element `comments`. |
| C75 | `C75_tag_disagreement` | `Verif/Format/Alpino.lean` | A tag in upper case is not recovered (phrase labels are). |
| C76 | `C76_preterminal_root_disagreement` | `Verif/Eval/Transform.lean` | A candidate of which the root is a preterminal is not transformed (no word is deleted): the pair is rejected, although the candidate is a tree over the gold sentence. |
| C76 | `C76_root_eqlabel_disagreement` | `Verif/Eval/Transform.lean` | `EQ_LABEL` makes two labels count as equal, but not for the root: with `EQ_LABEL R T` the same tree with the root label `T` in place of `R` gets other bracketings. |
| C76 | `C76_rootpreterms_disagreement` | `Verif/Eval/Transform.lean` | Candidates without the punctuation of the gold tree are supported by aligning the words (C43), but the positions directly under the gold root are not translated: with `DELETE_ROOT_PRETERMS` the wrong word is deleted from the candidate, and the pair is rejected although all words that count are the same. |
| C77 | `C77_assert_disagreement` | `Verif/Eval/LeafAncestor.lean` | The assertion "leaf ancestor score 1.0 but no exact match" fails for trees with discontinuities: constituents Q = {0, 4} and Q = {2, 6} give the same paths as Q = {0, 6} and Q = {2, 4}; the evaluation is aborted. |
| C77 | `C77_marks_disagreement` | `Verif/Eval/LeafAncestor.lean` | Labels equal to the marks hide the marks: these trees without discontinuities have different constituents, and the score is 1. |
| C78 | `C78_dollar_disagreement` | `Verif/Grammar/OsTag.lean` | With a substitution site `PRP$` beside the foot, the grammar does not derive what the osTAG derives. |
| C78 | `C78_weight_disagreement` | `Verif/Grammar/OsTag.lean` | Two auxiliary trees with the same weight are adjoined with different weights: the rule is counted for each node. |
| C79 | `C79_lost_disagreement` | `Verif/Trees/Raise.lean` | Every constituent of this tree has a head, but the `VP`, whose head is discontinuous, is lost: none of its three parts keeps the label, not even the one that contains the lexical head. |
| C80 | `C80_brackets_first_disagreement` | `Verif/Format/MixedReader.lean` | the order of the formats matters. After a tree in bracket format, a tree in the export format on the following lines is not recognized: its lines are taken as text that follows the bracketed tree. In the opposite order, both are recognized. |
| C80 | `C80_table_disagreement` | `Verif/Format/MixedReader.lean` | the tables at the start of a file in the export format (lines from `#BOT ...` to `#EOT ...`, which are not trees) are not skipped: for every such table, a tree with root `ROOT`, no constituents, and an empty sentence is yielded. This holds with and without `strict`. |
| C80 | `C80_unclosed_disagreement` | `Verif/Format/MixedReader.lean` | for every input that ends within a tree in the export format (no `#EOS` line after the last `#BOS` line), this tree is left out, and no exception is raised; not even with `strict`. |
| C81 | `C81_alias_disagreement` | `Verif/Run/CorpusSel.lean` | `trees` returns the trees of the cache. If a tree that it has returned is changed in place (as `binarize` does), then `trees`, `sents` and `tagged_sents` return the changed objects from then on. |
| C81 | `C81_lost_disagreement` | `Verif/Run/CorpusSel.lean` | whenever the pattern matches two files that are not empty, `trees` and `sents` lack sentences that `itertrees` has. |
| C81 | `C81_overlap_disagreement` | `Verif/Run/CorpusSel.lean` | `skiptrain` only takes account of the number of training sentences, not of the sentences that are skipped before the training set. Whenever more lines are skipped for the training set than for the test set, and the file is long enough: if the first sentence that is in both ranges has an admissible length, it is in the training set and in the test set. |
| C81 | `C81_testset_disagreement` | `Verif/Run/CorpusSel.lean` | for test sets from several files: of two chosen sentences with the same line number, one is left out. |
| C82 | `C82_blank_disagreement` | `Verif/Eval/Params.lean` | A line of white space only is not treated as an empty line: the whole file is rejected. |
| C82 | `C82_trailing_disagreement` | `Verif/Eval/Params.lean` | White space at the end of a line (which EVALB ignores) becomes part of the label: `TOP` is not deleted. |
| C83 | `C83_ftb_disagreement` | `Verif/Trees/RuleFiles.lean` | With the rule `MWCL right-to-left` of ftb.headrules, the first child is chosen as the default head of an MWCL constituent; the rule asks for the last one (which is chosen if the rule has a list of heads, none of which occurs). |
| C83 | `C83_lower_disagreement` | `Verif/Trees/RuleFiles.lean` | The labels in the file are converted to upper case, but the label of the constituent is not: a constituent whose label has a lower case letter gets no rules, even if the file has a rule for exactly that label. |
| C83 | `C83_short_disagreement` | `Verif/Trees/RuleFiles.lean` | A rule without possible heads (such as `MWCL right-to-left` in ftb.headrules, line 33; `HEADRULERE` makes the list of heads optional) has no effect, because lines with less than three words are skipped. |
| C84 | `C84_dash_disagreement` | `Verif/Trees/CollapseLabels.lean` | The label `--` is listed in the presets for Negra/Tiger, but it consists of separators: it has no coarse label, and a treebank with such a phrase is rejected for every table. |
| C84 | `C84_fanout_disagreement` | `Verif/Trees/CollapseLabels.lean` | Markers for the fan-out are dropped, as they are not in the table: for every table, `VP_2` and `VP_3` get the same coarse label, so that one label stands for constituents with two and with three blocks. |
| C84 | `C84_negra_disagreement` | `Verif/Trees/CollapseLabels.lean` | With the preset for level 2 of Negra/Tiger, every treebank with a prepositional phrase is rejected (AssertionError), since `PP` is missing from the table: the entry for `PP`, `CPP`, `CAC` is outside of the braces. |
| C84 | `C84_tag_disagreement` | `Verif/Trees/CollapseLabels.lean` | If a phrase label is also used as a tag anywhere in the treebank, phrases with this label are not collapsed. |
| C85 | `C85_cycle_disagreement` | `Verif/Format/ExportAny.lean` | A table that encodes no tree need not be refused: two phrasal nodes that are each other's parent are left out of the tree together with the words below them, while the words stay in the sentence. |
| C85 | `C85_order_disagreement` | `Verif/Format/ExportAny.lean` | When the row of a word comes after the row of a phrasal node, the number of the terminal is the number of the row, and so does not point at the word in the sentence (here beyond the end of the sentence). |
| C85 | `C85_tiger_function_disagreement` | `Verif/Format/TigerXml.lean` | The function of a phrasal node is lost when the node is listed after its parent: reading the elements `nt` of the same sentence in another order gives the function `--` instead of `OC` (treebank.py:397 overwrites it). |
| C85 | `C85_tiger_parents_disagreement` | `Verif/Format/TigerXml.lean` | A node with two parents is not noticed when the first edge has the label `--`, or when the element of the node comes between the two edges: the last parent counts. |
| C85 | `C85_tiger_root_disagreement` | `Verif/Format/TigerXml.lean` | When the root of the sentence is an ordinary phrasal node, its category is lost: the root is labelled with its number (treebank.py:422). |
| C86 | `C86_binary_head_lost` | `Verif/Binarize/SaveHeads.lean` | A constituent with two children does not get its head back. |
| C86 | `C86_left_disagreement` | `Verif/Binarize/SaveHeads.lean` | With `factor='left'` the child that is recovered is the mirror image of the head: here the first child `A` is the head and the last child `C` comes back as head (the source notes that the combination is broken, treetransforms.py:92). |
| C86 | `C86_tailmarker_disagreement` | `Verif/Binarize/SaveHeads.lean` | With a tail marker `saveheads` does not mark the head child `B` but the artificial node above it, which moreover survives `unbinarize` (its label `S\|$<B,$,>` does not contain `\|<`); and an ordinary punctuation tag `$,` that contains the tail marker is marked as a head. |
| C88 | `C88_partial_cover_disagreement` | `Verif/Format/DepText.lean` | That the tree covers the sentence is needed: words, tags and dependencies are combined by their place in the three lists and not by their number, so with a tree that does not cover the sentence the words get the tags and the heads of other words, and the last words are left out without a message. |
| C89 | `C89_packed_disagreement` | `Verif/Grammar/PackedGraph.lean` | The packed reduction takes subtrees with the same words for the same, also when the words are in another order, as the yield functions are not compared. The address of such subtrees then has the rules of both, and the probability of a fragment is not its relative frequency among the fragments with its root label: here 1/104 instead of 1/78. Without packed graphs it always is (`C22_goodman`). |
| C91 | `C91_parent_disagreement` | `Verif/Binarize/MarkovThreshold.lean` | Hence the annotation with the parent is lost, or gets a comma, depending on the number of sisters. |
| C91 | `C91_vertical_disagreement` | `Verif/Binarize/MarkovThreshold.lean` | The vertical order has no effect on any input: the parent annotation is always matched as part of the sisters, as the expression for these is greedy. |
| C92 | `C92_first_disagreement` | `Verif/Format/AlpinoCorpus.lean` | If the first file is not well-formed, no sentence of the corpus can be read: every way of reading at least one sentence raises `UnboundLocalError`. |
| C92 | `C92_stale_disagreement` | `Verif/Format/AlpinoCorpus.lean` | A file that is not well-formed is reported, but not skipped: if the first file is well-formed, there is a sentence for each file, in order, and its tree is that of the last well-formed file up to it. Nothing is raised, and `blocks` has the contents of the file itself under this key. |
| C93 | `C93_frontier_disagreement` | `Verif/Grammar/AddIndices.lean` | For every fragment, each frontier node gets the word `None`: the result is the one for the fragment in which this word is below each frontier node. |
| C93 | `C93_ptsg_disagreement` | `Verif/Grammar/AddIndices.lean` | Whatever the fragments and their weights, and whatever the readers of numbers: if the first fragment is in bracket notation, reading the grammar raises an exception. (Each weight is split for a second time.) |
