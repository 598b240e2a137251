{"id": "C01", "title": "Binarization is undone by unbinarization", "statement": "For every tree whose labels contain neither \"|<\", \"^<\" nor \"+\", and every combination of binarize options (factor, horizontal and vertical markovization, markhead, tailmarker, left/rightmost unary, dot, ...), unbinarize(binarize(t)) returns the original tree: same labels, same children in the same order, same terminals.", "quantifier": "all trees with ordinary labels; all factor/markovization/marker settings", "why_tests_cant": "Trees of every shape, arity, depth and label set are possible; tests only sample a handful of shapes. The artificial labels depend on options in many combinations.", "anchors": ["discodop/treetransforms.py:binarize", "discodop/treetransforms.py:unbinarize"]}
{"id": "C02", "title": "Binarization yields at most binary nodes and keeps the yield", "statement": "After binarize(t) every constituent has at most two children, and the sequence of terminals in left-to-right order is the same as before.", "quantifier": "all trees, both factor settings, any threshold of 1 or 2", "why_tests_cant": "Trees of every shape, arity, depth and label set are possible; tests only sample a handful of shapes.", "anchors": ["discodop/treetransforms.py:binarize"]}
{"id": "C03", "title": "Unary collapsing is undone by unbinarization", "statement": "unbinarize(collapseunary(t)) == t for every tree whose labels contain no \"+\" or binarization markers; collapseunary leaves no unary constituent above constituents (except the root unless collapseroot; preterminals unless collapsepos).", "quantifier": "all trees, both collapsepos and collapseroot settings", "why_tests_cant": "Trees of every shape, arity, depth and label set are possible; tests only sample a handful of shapes. Unary chains have unbounded length.", "anchors": ["discodop/treetransforms.py:collapseunary", "discodop/treetransforms.py:unbinarize"]}
{"id": "C04", "title": "splitdiscnodes yields a continuous tree", "statement": "Every constituent of splitdiscnodes(t) covers a contiguous block of terminals, the set of terminals is unchanged.", "quantifier": "all trees with distinct terminal indices, both markorigin settings", "why_tests_cant": "Trees of every shape, arity, depth and label set are possible; tests only sample a handful of shapes. Discontinuity nests arbitrarily.", "anchors": ["discodop/treetransforms.py:splitdiscnodes", "discodop/treetransforms.py:contsets", "discodop/treetransforms.py:canonicalize"]}
{"id": "C05", "title": "mergediscnodes inverts splitdiscnodes", "statement": "mergediscnodes(splitdiscnodes(t, markorigin=True)) equals the canonical form of t for trees whose labels carry no split marks and without same-labelled discontinuous sisters.", "quantifier": "all such trees", "why_tests_cant": "Trees of every shape, arity, depth and label set are possible; tests only sample a handful of shapes.", "anchors": ["discodop/treetransforms.py:mergediscnodes", "discodop/treetransforms.py:splitdiscnodes"]}
{"id": "C06", "title": "canonicalize restores linear precedence without changing the constituents", "statement": "canonicalize(t) only permutes the children of constituents; in the result sisters are ordered by their leaf lists, and applying it twice is the same as once.", "quantifier": "all trees", "why_tests_cant": "Trees of every shape, arity, depth and label set are possible; tests only sample a handful of shapes.", "anchors": ["discodop/treetransforms.py:canonicalize"]}
{"id": "C07", "title": "Fan-out markers are exact and removable", "statement": "addfanoutmarkers appends \"_n\" exactly to the constituents whose terminals form n>1 maximal contiguous blocks; removefanoutmarkers restores trees whose labels have no underscore.", "quantifier": "all trees with labels without underscore", "why_tests_cant": "Trees of every shape, arity, depth and label set are possible; tests only sample a handful of shapes.", "anchors": ["discodop/treetransforms.py:addfanoutmarkers", "discodop/treetransforms.py:removefanoutmarkers"]}
{"id": "C08", "title": "Terminal removal keeps tree and sentence aligned", "statement": "After removeterminals(tree, sent, func) the tree dominates exactly the words for which func is false, renumbered 0..n-1 in order, tree and sentence agree, and no empty constituent is left below the root.", "quantifier": "all trees over a sentence, all predicates", "why_tests_cant": "Trees of every shape, arity, depth and label set are possible; tests only sample a handful of shapes. The predicate is arbitrary.", "anchors": ["discodop/treetransforms.py:removeterminals", "discodop/treetransforms.py:removeemptynodes"]}
{"id": "C09", "title": "Fan-out equals the number of maximal contiguous blocks", "statement": "fanout() / the bitset fan-out of a node equals the number of maximal runs of consecutive terminal indices it covers; getbits and addbitsets represent exactly the leaves.", "quantifier": "all sets of terminal indices, of any size", "why_tests_cant": "A bitset of width w has 2^w values; exhaustive testing is infeasible for real sentence lengths.", "anchors": ["discodop/treetransforms.py:fanout", "discodop/treetransforms.py:getbits", "discodop/treetransforms.py:addbitsets", "discodop/bit.pyx:fanout", "discodop/bit.pxd"]}
{"id": "C10", "title": "Bit iteration primitives visit exactly the set bits", "statement": "nextset/nextunset and their multi-word array versions return the least set/unset position at or after the argument or -1, iteration enumerates every member exactly once in increasing order, and bit counting returns the cardinality, including at word boundaries.", "quantifier": "all bit vectors, all start positions, all numbers of words", "why_tests_cant": "Word-boundary behaviour depends on all 64-bit words and positions.", "anchors": ["discodop/bit.pyx", "discodop/bit.pxd:nextset", "discodop/bit.pxd:anextset", "discodop/bit.pxd:anextunset", "discodop/bit.pxd:iteratesetbits"]}
{"id": "C11", "title": "Yield functions describe how children spans interleave", "statement": "The yield function read off two sisters (getyf, and rangeheads/ranges in grammar extraction) when applied to the contiguous spans of the children, rebuilds exactly the spans of the parent.", "quantifier": "all pairs of disjoint terminal sets", "why_tests_cant": "The interleaving pattern is unbounded.", "anchors": ["discodop/treetransforms.py:getyf", "discodop/grammar.py:lcfrsproductions", "discodop/grammar.py:ranges"]}
{"id": "C12", "title": "Bracket notation round-trips", "statement": "Parsing the string form of a tree yields the same tree: Tree.parse(str(t)) == t, for labels without whitespace and parentheses.", "quantifier": "all trees with well-formed labels", "why_tests_cant": "Trees of every shape, arity, depth and label set are possible; tests only sample a handful of shapes. Parsers fail on rare character combinations.", "anchors": ["discodop/tree.py:Tree.parse", "discodop/tree.py:Tree.__str__"]}
{"id": "C13", "title": "Discontinuous bracket format round-trips with its sentence", "statement": "discbrackettree(writediscbrackettree(t, sent)) returns the same tree and sentence, for any words after escaping.", "quantifier": "all trees and sentences", "why_tests_cant": "Words may contain any characters including the delimiters.", "anchors": ["discodop/tree.py:discbrackettree", "discodop/tree.py:writediscbrackettree", "discodop/tree.py:escape", "discodop/tree.py:unescape"]}
{"id": "C14", "title": "Export format round-trips", "statement": "A tree written with writeexporttree and read back with exporttree (or a treebank written to a file and read with NegraCorpusReader) has the same words, tags, labels, functions, morphological tags, dominance and secondary edges, up to the order of sisters and with root label ROOT, when it has at most 500 phrasal nodes and its fields contain no white space or comment marks; with more than 500 phrasal nodes the sentence is not restored.", "quantifier": "all trees, sentences, node records and treebanks that can be written", "why_tests_cant": "Trees of every shape, arity, depth and label set are possible; tests only sample a handful of shapes.", "anchors": ["discodop/treebank.py:writeexporttree", "discodop/treebank.py:exporttree", "discodop/treebank.py:exportsplit", "discodop/treebank.py:NegraCorpusReader"]}
{"id": "C15", "title": "Parent pointers stay consistent under mutation", "statement": "After any sequence of ParentedTree calls, including calls that raised an exception, in which no tree was given twice in one list: c.parent is p exactly when c is one of the children of p, and no tree is a child twice. Each mutating method replaces exactly the addressed children or raises and changes nothing (ValueError when a tree to be added has a parent, IndexError for a bad index). parent_index, left_sibling and right_sibling agree with the children of the parent; spliceabove, splicebelow and prune insert and remove a node without changing anything else. If no tree is ever added to itself or to one of its descendants, root and treeposition terminate and tree.root[tree.treeposition] is tree.", "quantifier": "all operation histories", "why_tests_cant": "Histories are unbounded.", "anchors": ["discodop/tree.py:ParentedTree"]}
{"id": "C16", "title": "OrderedSet behaves like an insertion-ordered set", "statement": "Union, intersection, difference, membership, equality and indexing on OrderedSet agree with mathematical sets, keep first-occurrence order and never contain duplicates.", "quantifier": "all sequences of elements", "why_tests_cant": "Histories and element orders are unbounded.", "anchors": ["discodop/util.py:OrderedSet"]}
{"id": "C17", "title": "Merging sorted iterables gives the sorted union", "statement": "util.merge(*iterables, key) on sorted inputs yields a sorted sequence containing each input element exactly once, stably.", "quantifier": "any number of sorted inputs of any length", "why_tests_cant": "Unbounded number and lengths of inputs.", "anchors": ["discodop/util.py:merge"]}
{"id": "C18", "title": "The updatable priority queue is a map with pop-min", "statement": "After any history of insert, update, delete, pop operations, PyAgenda holds for each key its last assigned priority, and popitem returns and removes an entry with minimal priority; lengths agree.", "quantifier": "all operation histories", "why_tests_cant": "Histories are unbounded; bugs depend on rare interleavings of update and pop.", "anchors": ["discodop/util.py:PyAgenda"]}
{"id": "C19", "title": "The compiled agenda pops the best item first", "statement": "With decrease-key updates only, the C++ agenda used by the parser always pops an item with minimal current priority and returns its best assigned priority.", "quantifier": "all operation histories", "why_tests_cant": "Histories unbounded; stale entries accumulate.", "anchors": ["discodop/_containers.h:Agenda"]}
{"id": "C20", "title": "Extracted LCFRS rules are well-formed and describe the tree", "statement": "Each production extracted from a tree is monotone and linear: its yield function mentions each span of each child exactly once and in order, and the extracted productions correspond one-to-one to the constituents.", "quantifier": "all trees over sentences with distinct terminals", "why_tests_cant": "Trees of every shape, arity, depth and label set are possible; tests only sample a handful of shapes.", "anchors": ["discodop/grammar.py:lcfrsproductions"]}
{"id": "C21", "title": "Treebank grammars count rules exactly", "statement": "In an induced treebank grammar each rule occurs once, with as weight the number of its occurrences in the trees, so that the weights for a left-hand side sum to the number of occurrences of that label and dividing by that sum gives relative frequencies that sum to 1; rules are sorted in the documented order.", "quantifier": "all treebanks", "why_tests_cant": "Unbounded treebanks.", "anchors": ["discodop/grammar.py:treebankgrammar", "discodop/grammar.py:sortgrammar"]}
{"id": "C22", "title": "The DOP reduction implements the fragment model exactly", "statement": "For every treebank dopreduction succeeds; the count of a node is the number of fragments (all-or-none subtrees with expanded root) at that node; the weights of the rules for a label add up to the number of fragments with that root label; and after normalisation the total probability of all derivations of any fragment equals its relative frequency among the fragments with that root label. The equal weights estimate gives the documented correction.", "quantifier": "all treebanks of trees (any discontinuity, any branching) and all fragments", "why_tests_cant": "The number of fragments is exponential in tree size, and the identity sums over all derivations.", "anchors": ["discodop/grammar.py:nodefreq", "discodop/grammar.py:dopreduction", "discodop/grammar.py:TreeDecorator"]}
{"id": "C23", "title": "Double-DOP grammars are reversible", "statement": "The grammar made from a set of fragments has distinct rules; the fragments that are constituents correspond one to one to the first rules, each with the weight of its fragment and a template that gives back the fragment; the trees recovered from derivations of the grammar are exactly the trees composed of fragments by substitution.", "quantifier": "all lists of fragments (labels without @ { }), all sentences, all derivations", "why_tests_cant": "Unbounded fragments set, label collisions through the cache of artificial labels.", "anchors": ["discodop/grammar.py:flatten", "discodop/grammar.py:dopgrammar", "discodop/grammar.py:UniqueIDs", "discodop/disambiguation.pyx:recoverfragments"]}
{"id": "C24", "title": "CKY parsing returns the best derivation probability", "statement": "For a sentence whose words all have tags in the grammar, the CKY parser ends (also with cycles of unary rules) with a chart that contains a constituent over a span iff it can be derived by the grammar; its Viterbi weight is the minimal negative log probability of its derivations; its edges are exactly the rule applications to derivable parts (in a sparse chart, each once; the dense chart can repeat edges, and the variant with a whitelist is wrong: see the disagreement theorems). If a word has no tags, the parser reports the first such word.", "quantifier": "all binarized grammars with non-negative costs, all sentences, all orders of ties in the agenda", "why_tests_cant": "Grammars and sentences unbounded; unary cycles; order of the agenda.", "anchors": ["discodop/pcfg.pyx:parse_grammarloop", "discodop/pcfg.pyx:populatepos", "discodop/pcfg.pyx:applyunaryrules", "discodop/pcfg.pyx:updatemidfilter", "discodop/pcfg.pyx:parse_leftchildloop"]}
{"id": "C25", "title": "Agenda-driven LCFRS parsing is exact", "statement": "The LCFRS parser always stops; in exhaustive mode its chart has exactly the derivable items, each with the least cost of its derivations, and exactly the possible edges, each once; in non-exhaustive mode the goal is found iff the sentence has a derivation (every item allowed by the whitelist) and has the cost of the best one; if a word has no tag, there is no derivation. Holds provided no POS tag of a word is also the left-hand side of a unary rule (otherwise a worse cost can be returned).", "quantifier": "all binarized LCFRS grammars with costs >= 0, all sentences, all whitelists, every order of equal agenda entries", "why_tests_cant": "Grammars and sentences unbounded.", "anchors": ["discodop/plcfrs.pyx:parse", "discodop/plcfrs.pyx:parse_main", "discodop/plcfrs.pyx:process_edge", "discodop/plcfrs.pyx:populatepos"]}
{"id": "C26", "title": "k-best extraction enumerates distinct derivations best-first", "statement": "For every chart whose parse forest has no cycles and whose items are no deeper than the recursion limit, lazykbest(chart, k) succeeds and returns between 1 and k derivations of the root, each with the sum of the weights of its rules and words, in nondecreasing order, without duplicates, the first one being a best derivation; and if no two chart items share an edge with the same rule and position, every derivation of the root is returned unless k derivations that are at least as good are.", "quantifier": "all acyclic charts, all k > 0", "why_tests_cant": "Forests encode exponentially many derivations.", "anchors": ["discodop/kbest.pyx:lazykthbest", "discodop/kbest.pyx:lazykbest"]}
{"id": "C27", "title": "PARSEVAL scores are proper", "statement": "Precision, recall and F lie in [0,1] (or are NaN exactly when undefined), F1 is 2|A∩B|/(|A|+|B|), swapping gold and candidate swaps precision and recall, and F=100 iff bracketings (as multisets) are identical.", "quantifier": "all pairs of bracketing multisets", "why_tests_cant": "Multisets unbounded.", "anchors": ["discodop/eval.py:recall", "discodop/eval.py:precision", "discodop/eval.py:f_measure"]}
{"id": "C28", "title": "Edit distance is the Levenshtein metric", "statement": "editdistance(a,b) is the least number of insertions, deletions and substitutions turning a into b; hence 0 iff equal, symmetric, triangle inequality; the leaf-ancestor path score lies in [0,1].", "quantifier": "all pairs of sequences", "why_tests_cant": "Unbounded sequences.", "anchors": ["discodop/eval.py:editdistance", "discodop/eval.py:pathscore"]}
{"id": "C29", "title": "Tree edit distance", "statement": "treedist (Zhang-Shasha) and newtreedist both return the smallest number of node insertions, deletions and relabelings that turns the one prepared tree into the other; the edit script of newtreedist has exactly that many entries; the distance is zero exactly for trees that are equal up to the order of children, symmetric, and satisfies the triangle inequality; the Dice score derived from it is not negative when the roots count or have the same label.", "quantifier": "all pairs of trees of any size, all edit sequences of any length", "why_tests_cant": "Trees of every shape, arity, depth and label set are possible; tests only sample a handful of shapes.", "anchors": ["discodop/treedist.py:treedist", "discodop/treedist.py:newtreedist", "discodop/treedist.py:AnnotatedTree", "discodop/treedist.py:prepare", "discodop/eval.py:treedisteval"]}
{"id": "C30", "title": "Transitive closure groups exactly connected elements", "statement": "Transitive closure of pairwise links puts two elements in the same class iff connected by a chain of links.", "quantifier": "all link relations", "why_tests_cant": "Unbounded relations.", "anchors": ["discodop/eval.py:transitiveclosure"]}
{"id": "C31", "title": "Covering an incomplete chart tiles the sentence", "statement": "When a sentence cannot be parsed the intervals returned for the incomplete chart are consecutive, non-empty and run from the first to the last word; each is the best constituent of the chart for that span or a single word without one; the partial parse assembled from it, and the dummy parse when there is none, cover every word exactly once.", "quantifier": "all charts, all sentence lengths, all parses of the parts", "why_tests_cant": "Charts and partitions are unbounded.", "anchors": ["discodop/kbest.pyx:partitionincompletechart", "discodop/plcfrs.pyx:bestsubtree", "discodop/parser.py:Parser.parse (lines 459-491)", "discodop/parser.py:Parser.noparse", "discodop/grammar.py:defaultparse"]}
{"id": "C32", "title": "Range decomposition partitions the yield", "statement": "ranges()/intervals()/rangeheads() split a sorted list of indices into maximal consecutive runs: concatenation is the input, runs are consecutive, adjacent runs are separated by a gap.", "quantifier": "all sorted lists of naturals", "why_tests_cant": "Unbounded lists.", "anchors": ["discodop/grammar.py:ranges", "discodop/grammar.py:rangeheads", "discodop/tree.py"]}
{"id": "C33", "title": "cartpi enumerates the cartesian product", "statement": "cartpi(seq) yields exactly one tuple for every choice of one element per component.", "quantifier": "all sequences of lists", "why_tests_cant": "Unbounded.", "anchors": ["discodop/grammar.py:cartpi"]}
{"id": "C34", "title": "Chart cells are addressed without collision", "statement": "cellidx is a bijection between (start,end,label) triples with start<end<=n and the array index range of the compact triangular chart; cellstart and cellend decode it.", "quantifier": "all sentence lengths, spans, and numbers of nonterminals", "why_tests_cant": "An off-by-one collision only appears for particular lengths.", "anchors": ["discodop/containers.pxd:cellidx", "discodop/containers.pxd:cellstart", "discodop/containers.pxd:cellend"]}
{"id": "C35", "title": "Merging sorted grammar files adds up counts", "statement": "sumlex/sumfrags/sumrules over merged sorted files emit each key exactly once with the total count.", "quantifier": "all sorted inputs", "why_tests_cant": "Unbounded.", "anchors": ["discodop/grammar.py:sumrules", "discodop/grammar.py:sumlex", "discodop/grammar.py:sumfrags", "discodop/grammar.py:merge"]}
{"id": "C36", "title": "Dependency conversion yields a tree", "statement": "dependencies(tree) with a head child in each constituent yields exactly one head for each word, one root arc per child of the root, and no cycles; the words that depend on a word are those of the constituents it heads, so continuous trees give projective dependencies; applying any head rules first makes the conversion succeed.", "quantifier": "all head-marked trees, all head rules", "why_tests_cant": "Trees of every shape, arity, depth and label set are possible; tests only sample a handful of shapes.", "anchors": ["discodop/treebank.py:dependencies", "discodop/treebank.py:_makedep", "discodop/treebank.py:deplen", "discodop/heads.py:applyheadrules", "discodop/heads.py:headfinder", "discodop/heads.py:getheadpos"]}
{"id": "C37", "title": "introducepreterminals gives every terminal its own preterminal", "statement": "After introducepreterminals(t) no terminal has siblings; leaves and constituents with their yields are unchanged.", "quantifier": "all trees", "why_tests_cant": "Trees of every shape, arity, depth and label set are possible; tests only sample a handful of shapes.", "anchors": ["discodop/treetransforms.py:introducepreterminals"]}
{"id": "C38", "title": "Tree traversals visit every constituent exactly once in order", "statement": "subtrees is pre-order, postorder visits children before their parent, leaves/pos are left-to-right, treepositions index exactly the nodes, and leaf_treeposition/treeposition_spanning_leaves return a position dominating exactly/at least the requested leaves.", "quantifier": "all trees", "why_tests_cant": "Trees of every shape, arity, depth and label set are possible; tests only sample a handful of shapes.", "anchors": ["discodop/tree.py:Tree.subtrees", "discodop/tree.py:Tree.postorder", "discodop/tree.py:Tree.leaves", "discodop/tree.py:Tree.treepositions", "discodop/tree.py:Tree.leaf_treeposition", "discodop/tree.py:Tree.treeposition_spanning_leaves"]}
{"id": "C39", "title": "Escaping of brackets is reversible", "statement": "unescape(escape(w)) == w for every word not already containing an escape sequence; the escaped form contains no parenthesis.", "quantifier": "all strings", "why_tests_cant": "All strings.", "anchors": ["discodop/tree.py:escape", "discodop/tree.py:unescape"]}
{"id": "C40", "title": "Constituent factoring is a lossless local transformation", "statement": "factorconstituent(node) yields a binary-branching node with the same children in order, same bitset, artificial nodes covering the union of their children.", "quantifier": "all nodes with any number of children, left and right factoring", "why_tests_cant": "Trees of every shape, arity, depth and label set are possible; tests only sample a handful of shapes.", "anchors": ["discodop/treetransforms.py:factorconstituent"]}
{"id": "C41", "title": "Items combine exactly as the yield function says", "statement": "Two chart items combine under a binary rule iff their yields are disjoint and the rule's yield function, applied to the spans of left and right item, consumes all spans in order and produces exactly the spans of the union; the bit encoding of yield functions in a grammar is faithful: text, tuple and printed form agree.", "quantifier": "all yield functions with fewer than 32 elements, all pairs of items of the right fan-out, short and long sentences", "why_tests_cant": "Bit tricks on words; number of span configurations is exponential in the sentence length.", "anchors": ["discodop/plcfrs.pyx:concat", "discodop/_grammar.pxi:Grammar._convertrules", "discodop/_grammar.pxi:Grammar.yfstr", "discodop/containers.pyx:getyf"]}
{"id": "C42", "title": "Corpus scores are micro averages", "statement": "After adding any number of evaluated sentence pairs with distinct numbers, corpus precision/recall is the total number of matching brackets divided by the total number of candidate/gold brackets; brackets of different sentences never match each other.", "quantifier": "all sequences of evaluated sentences", "why_tests_cant": "Unbounded corpora; cross-sentence matches only show for coinciding brackets.", "anchors": ["discodop/eval.py:EvalAccumulator.add", "discodop/eval.py:recall", "discodop/eval.py:precision"]}
{"id": "C43", "title": "Candidate tokens are aligned with gold tokens in order", "statement": "alignsent maps the longest possible prefix of the candidate tokens to gold tokens with the same word at increasing positions; all tokens if the candidate is a subsequence of the gold sentence.", "quantifier": "all pairs of sentences", "why_tests_cant": "Unbounded sentences with repeated words.", "anchors": ["discodop/eval.py:alignsent"]}
{"id": "C44", "title": "Labels and rule numbers of a grammar are consistent", "statement": "After building a Grammar from text and adding any rules, label numbers and labels are inverse to each other, number 0 is Epsilon and 1 the start label, every label has at least one rule, the start label never occurs on a right-hand side, and the rule of each node of a continuous tree whose rule was read is found.", "quantifier": "all rule and lexicon files and all later additions", "why_tests_cant": "Unbounded histories of additions; numbering depends on order of first occurrence.", "anchors": ["discodop/containers.pyx:Grammar.__init__", "discodop/containers.pyx:Grammar.addrules", "discodop/containers.pyx:Grammar._convertrules", "discodop/containers.pyx:Grammar._convertlexicon", "discodop/containers.pyx:Grammar.noderuleno"]}
{"id": "C45", "title": "Counts are preserved and probabilities normalised", "statement": "The counts of stored rules and lexical rules are the sums of the counts of their lines in all text read; after switch() the probabilities of the rules of each label sum to 1; those set by the constructor as well.", "quantifier": "all rule and lexicon files, all later additions", "why_tests_cant": "Unbounded numbers of rules and orders.", "anchors": ["discodop/containers.pyx:Grammar.switch", "discodop/containers.pyx:Grammar._normalize", "discodop/containers.pyx:Grammar._convertrules", "discodop/containers.pyx:Grammar._convertlexicon"]}
{"id": "C46", "title": "Rule indices list exactly the rules of a label", "statement": "After any sequence of additions and changes of weights, iterating the rules of a label through each of the indices (by left-hand side, by first or second right-hand side label) visits exactly the rules with that label; the map from rule number to place in the sorted array is right for every rule.", "quantifier": "all histories of added rules and weights, all three indices, all results std::sort may give", "why_tests_cant": "Unbounded histories; sorting is unspecified for equal keys.", "anchors": ["discodop/containers.pyx:Grammar._indexrules", "discodop/containers.pyx:Grammar._getrevrulemap"]}
{"id": "C47", "title": "Writing and reading a grammar preserves it", "statement": "writegrammar followed by reading the text gives the same phrasal rules in order and the same lexical rules; a Grammar made from (rule, weight) tuples has exactly these rules with summed weights.", "quantifier": "all LCFRS grammars with labels and words without whitespace and escape sequences", "why_tests_cant": "Arbitrary labels, words and yield functions.", "anchors": ["discodop/grammar.py:writegrammar", "discodop/containers.pyx:Grammar.__init__"]}
{"id": "C48", "title": "Punctuation strategies move or delete only punctuation", "statement": "applypunct with method move/moveall, remove/removeall, prune and root: moving never changes the sentence, the set of preterminals or any constituent of the other words, never gives a constituent more gaps, and puts a raised mark next to the constituent that starts at the next word; matching marks become sisters when one of them is adjacent to the constituent of the other; removal deletes exactly the punctuation (of the root: exactly the preterminals under the root; prune: exactly the quotes and periods at both ends) and keeps the other words in order; root attaches exactly the punctuation to the root.", "quantifier": "all trees, sentences and labels", "why_tests_cant": "All shapes of trees and positions of punctuation.", "anchors": ["discodop/punctuation.py:applypunct", "discodop/punctuation.py:punctraise", "discodop/punctuation.py:balancedpunctraise", "discodop/punctuation.py:punctroot", "discodop/punctuation.py:punctprune", "discodop/punctuation.py:punctremove"]}
{"id": "C49", "title": "Fragments extracted from a pair of trees are the maximal common fragments", "statement": "For two trees, the extracted fragments are exactly the largest common fragments: one for every pair of nodes with the same production whose parents are not matched in the same way; every other common fragment is contained in one of them.", "quantifier": "all pairs of binarized trees over a common set of productions", "why_tests_cant": "The number of common fragments is exponential in the size of the trees, and the kernel relies on sortedness of the node arrays.", "anchors": ["discodop/_fragments.pyx:fasttreekernel", "discodop/_fragments.pyx:extractbitsets", "discodop/_fragments.pyx:extractat", "discodop/_fragments.pyx:extractfragments"]}
{"id": "C50", "title": "Exact counts of fragments are exact", "statement": "The occurrences reported for a fragment are all and only the nodes in the treebank at which the fragment occurs, each once; a fragment that was extracted from two trees is counted at least twice.", "quantifier": "all treebanks, all fragments (connected sets of nodes of a tree)", "why_tests_cant": "Requires correctness of candidate selection by the production index, early exit on sorted nodes, and matching for all trees.", "anchors": ["discodop/_fragments.pyx:exactcounts", "discodop/_fragments.pyx:getcandidates", "discodop/_fragments.pyx:containsbitset"]}
{"id": "C51", "title": "allfragments enumerates all fragments up to a depth and number of frontier non-terminals", "statement": "allfragments gives exactly once each fragment of each node with at most maxdepth levels and at most maxfrontier frontier non-terminals (trees without unary nodes; with unary nodes, every unary step in the fragment counts as one more frontier non-terminal).", "quantifier": "all binarized trees and limits with maxdepth at least 1", "why_tests_cant": "Exponentially many fragments; completeness of the combination of tables is by induction.", "anchors": ["discodop/_fragments.pyx:allfragments", "discodop/_fragments.pyx:traverse"]}
{"id": "C52", "title": "Dividing the work over processes does not change the fragments", "statement": "The intervals given to worker processes cover each tree exactly once for any number of trees and processes; the union of the results of the workers is the set of maximal common fragments of all pairs of distinct trees (or all pairs of trees of two treebanks).", "quantifier": "all numbers of trees, processes; all treebanks", "why_tests_cant": "Arbitrary numbers of trees and processes.", "anchors": ["discodop/fragments.py:workload", "discodop/_fragments.pyx:extractfragments"]}
{"id": "C53", "title": "A vocabulary numbers productions one to one, for any history", "statement": "getprod gives the same number for the same production at any later time and different numbers for different productions; label and word of a number can be looked up; writing and reading the vocabulary gives an equal object.", "quantifier": "all histories of calls and all productions of binarized trees", "why_tests_cant": "Any interleaving of additions and look-ups.", "anchors": ["discodop/containers.pyx:Vocabulary.getprod", "discodop/containers.pyx:Vocabulary.tofile", "discodop/containers.pyx:Vocabulary.fromfile"]}
{"id": "C54", "title": "Trees stored as arrays are the trees that were added", "statement": "After any sequence of additions, with a vocabulary shared with other collections, a collection of trees has for each added tree an array with the same shape and productions, sorted by production, within allocated memory, and an exact index from productions to trees; extract gives text from which the tree and sentence can be read back; extractsent gives the (escaped) words; two nodes agree exactly when their productions are the same.", "quantifier": "all histories of additions of binarized (possibly discontinuous) trees and all vocabularies", "why_tests_cant": "Any number and size of trees, any history of reallocations and other uses of the vocabulary.", "anchors": ["discodop/containers.pyx:Ctrees", "discodop/containers.pyx:gettree", "discodop/_fragments.pyx:getctrees"]}
{"id": "C55", "title": "Pruning by posterior probability keeps exactly the items with enough probability mass", "statement": "With the items of a chart in bottom-up order, the inside probability of an item is the total probability of its derivations; inside times outside probability is the total probability of the derivations of the sentence in which the item occurs; posteriorthreshold keeps an item exactly if this is more than the given part of the probability of the sentence, and raises an error exactly for a threshold outside (0, 1) or a sentence without probability. Charts of the PCFG parser satisfy the premise for grammars without unary rules.", "quantifier": "all parse forests with items in bottom-up order, all items, all thresholds; all sentences and grammars without unary rules for the charts", "why_tests_cant": "There are exponentially many derivations; a test compares with a few of them.", "anchors": ["discodop/coarsetofine.pyx:getinside", "discodop/coarsetofine.pyx:getoutside", "discodop/coarsetofine.pyx:posteriorthreshold", "discodop/containers.pyx:Chart.lexprob"]}
{"id": "C56", "title": "Unknown words: the parser only gets words for which the grammar has a rule", "statement": "The lexicon of a training set consists of the words more frequent than the threshold and the words with closed class tags; other words are replaced by signatures, years and numbers by fixed words. The extra lexical rules are exactly one for the unknown word symbol with each tag, and one for each rare word with each of its tags. Every word of a test sentence as given to the parser has a lexical rule, except when there are no years or numbers in the training set, or for signatures that only rare numbers have.", "quantifier": "all tagged training sets, all signature functions and thresholds, all test sentences", "why_tests_cant": "Any training set and any test sentence; the three exceptions do not occur in usual tests.", "anchors": ["discodop/lexicon.py:getunknownwordmodel", "discodop/lexicon.py:replaceraretrainwords", "discodop/lexicon.py:replaceraretestwords", "discodop/lexicon.py:simplesmoothlexicon", "discodop/lexicon.py:unknownword4", "discodop/lexicon.py:unknownword6", "discodop/lexicon.py:unknownwordbase", "discodop/runexp.py:getposmodel", "discodop/parser.py:Parser.parse"]}
{"id": "C57", "title": "Parse selection: probabilities of parse trees from lists of derivations", "statement": "From a list of derivations, 'mpp' returns every parse tree once, with the sum of the probabilities of its derivations and the fragments of a most probable one; 'mpd' returns the greatest derivation probability; 'shortest' considers exactly the derivations of least cost; 'sl-dop-simple' selects the n most probable trees with the least number of fragments of their derivations. The reported fragments compose to the parse tree. Required and blocked labelled spans keep exactly the trees that have all required and none of the blocked constituents. The streaming sum of log probabilities is the sum of the probabilities.", "quantifier": "all lists of derivations with all costs; all constraints; all labels; all lists of log probabilities", "why_tests_cant": "Any list of derivations, trees, labels and constraints.", "anchors": ["discodop/disambiguation.pyx:marginalize", "discodop/disambiguation.pyx:testconstraints", "discodop/disambiguation.pyx:sldop_simple", "discodop/disambiguation.pyx:fragmentsinderiv_str", "discodop/disambiguation.pyx:splitfrag", "discodop/containers.pxd:logprobsum"]}
{"id": "C58", "title": "Coarse-to-fine pruning", "statement": "A fine item enters the chart exactly if its label is never blocked or its coarse label (or, with split components, the coarse label of each of its contiguous components) was selected for the same span, for 64-bit, long and CFG items. With k = 0 exactly the coarse items that occur in a derivation of the goal are selected and, when the coarse grammar projects the fine one, no derivation of the goal is lost and the best parse keeps its cost; with k >= 1 all items of the k best derivations are selected, with required spans exactly those of the k best derivations that have all of them; blocked spans remove exactly the matching items. Each fine label is mapped to its coarse label, each coarse rule to the fine rules that strip to it.", "quantifier": "all grammars, charts, sentences, labels, spans, k, constraints", "why_tests_cant": "Pruning must be lossless or exact for every grammar, chart and sentence; tests parse a few sentences.", "anchors": ["discodop/coarsetofine.pyx:prunechart", "discodop/coarsetofine.pyx:getmatchingitems", "discodop/containers.pxd:Whitelist", "discodop/plcfrs.pyx:checkwhitelist", "discodop/kbest.pyx:collectitems", "discodop/pcfg.pyx:itemid1", "discodop/_grammar.pxi:getmapping", "discodop/_grammar.pxi:getrulemapping", "discodop/containers.pyx:Chart.filter"]}
{"id": "C59", "title": "A* parsing with outside estimates", "statement": "getpcfgestimates returns, for every label and every number of words to the left and right (together fewer than maxlen), exactly the least cost of a derivation of the goal from which a constituent with this label and context is left out, and infinity if there is none; these estimates are consistent; the agenda parser with consistent estimates ends and gives the goal the least cost of its derivations, with an edge explaining the cost of each item, whenever this cost is at most MAX_LOGPROB; in particular a PCFG parsed with its own SX estimates gets the same best cost as without estimates.", "quantifier": "all grammars with non-negative costs, sentences, orders of equal agenda entries, whitelists", "why_tests_cant": "The agenda order depends on the estimates for every item of every sentence; a wrong entry silently loses the best parse, tests compare a few sentences.", "anchors": ["discodop/estimates.pyx:pcfginsidesx", "discodop/estimates.pyx:pcfgoutsidesx", "discodop/estimates.pyx:getpcfgestimates", "discodop/estimates.pyx:outsidelr", "discodop/estimates.pyx:getestimates", "discodop/plcfrs.pyx:parse_main", "discodop/plcfrs.pyx:populatepos", "discodop/plcfrs.pyx:process_edge"]}
{"id": "C60", "title": "The exact DOP probability of a tree is the sum over its derivations", "statement": "For a binarized tree whose unary chains do not repeat a label and whose productions are in the coarse grammar, dopparseprob(tree, sent, coarse, fine) equals the sum, over all derivations of the fine grammar (a DOP reduction) that give the tree when the '@' identifiers are removed, of the product of the probabilities of their rules; it is -inf exactly when there is no such derivation. A unary chain that repeats a label gets a larger value.", "quantifier": "all trees (any size and discontinuity), sentences including unknown words, and pairs of fine and coarse grammars with a rule mapping", "why_tests_cant": "The number of derivations is exponential in the size of the tree, and the error for repeated labels in unary chains shows only when cells are shared; a test on a few trees compares one number with another computed in the same way.", "anchors": ["discodop/disambiguation.pyx: dopparseprob, doprerank", "discodop/_grammar.pxi: getrulemapping, getruleno"]}
{"id": "C61", "title": "The most constituents correct parse is optimal", "statement": "marginalize('mcp') returns a tree over all the words of the sentence whose sum of expected gains (1 for a correct constituent, -labda for a wrong one, under the probabilities given by the weighted list of derivations) is at least that of every other tree with spans from the derivations, for every labda >= 0 and every set of labels to optimize for, provided that every constituent of two or more words has a word with a tag of positive expected gain. Without this proviso words are dropped. The reported score is the weight of the root label only.", "quantifier": "all weighted lists of derivations, including discontinuous ones, all labda >= 0 and label sets, and all competing trees", "why_tests_cant": "The space of competing trees is exponential; a test compares the result with a tree from the same list and cannot show that no better combination of constituents exists.", "anchors": ["discodop/disambiguation.pyx: maxconstituentsparse, gettree, marginalize"]}
{"id": "C62", "title": "Optimal binarization", "statement": "optimalbinarize(tree), with either scoring function (complexityfanout or fanoutcomplexity), terminates without an exception on every tree in canonical order with bitsets, and replaces every constituent of more than two children by a binarization of exactly these children (whose artificial nodes are labeled with the children they cover) such that no binarization of the constituent has a smaller worst score over its nodes. The sum of complexities that is used to compare equal worst scores is not minimized in general.", "quantifier": "all annotated trees of any size and branching factor, discontinuous or not, and all competing binarizations", "why_tests_cant": "The number of binarizations is exponential in the number of children, and the search prunes with an updatable priority queue while iterating over a working set that it modifies; a test compares a few rules with known values.", "anchors": ["discodop/treetransforms.py: optimalbinarize, _optimalbinarize, minimalbinarization, complexityfanout, fanoutcomplexity"]}
{"id": "C63", "title": "Relational-realizational transform", "statement": "rrbacktransform(rrtransform(tree), adjunctionlabel) recovers every label, function tag, morphological tag and index of the tree (empty tags become '--', as does the function of the root), and the transform does not fail, when ignorefunctions and ignorecategories are given, labels have no hyphen, and tags and functions no slash. A constituent becomes a category over the sorted functions of its arguments over one realization per child; percolated features are the sorted union of the features below without placeholders. An adjunct is relabelled with the closest argument on the left but with the last (not the closest) argument of the constituent on the right; with the defaults ignorefunctions=None the transform raises an exception on any tree with functions; a label with a hyphen is not recovered.", "quantifier": "all trees with function and morphological tags, all parameter values", "why_tests_cant": "Invertibility depends on the separators not occurring in any of the tags and on the combination of seven parameters; tests transform a few treebank trees.", "anchors": ["discodop/treebanktransforms.py: rrtransform, rrbacktransform, unifymorphfeat"]}
{"id": "C64", "title": "Incremental reading of bracketed trees", "statement": "list(incrementaltreereader(lines)) for a stream of lines in bracket format yields exactly the trees of the stream in order, each with the text up to the next tree, independently of where the text is divided into lines (within trees, labels or comments), for every combination of strict and robust; lines without trees before the first tree are ignored, or yielded with othertext=True; text without trees yields nothing. Disagreements: text before a tree on the same line becomes part of the tree if it ends on that line (and then reading fails, even if not strict) but is dropped otherwise; an unclosed last tree is dropped silently even with strict=True; a pair of brackets in a comment that is divided over lines is lost.", "quantifier": "all sequences of trees and comments and all ways of dividing their concatenation into lines", "why_tests_cant": "A stream can be divided into lines at every position, and the co-routine keeps six variables across lines; tests read a few files with one tree per line.", "anchors": ["discodop/treebank.py: incrementaltreereader, segmentbrackets"]}
{"id": "C65", "title": "Equality, hashing and immutability of trees", "statement": "tree == tree is structural equality and != its negation; freeze() yields a tree that compares equal to trees of the same structure, equal frozen trees have equal hashes (whatever the hash function), leaves() is the left-to-right list of leaves and bitset has exactly the leaf indices as bits; no sequence of mutating calls other than insert changes a frozen tree or any node in it, and each such call raises ValueError; two DiscTrees in which terminals are last children are == exactly if the trees with the words at the leaves are the same, and are then hashed alike; as dictionary keys DiscTrees stand for the tree with words at the leaves. Disagreements: insert() changes a frozen tree and leaves its hash, leaves and bitset stale; DiscTree.__eq__ ignores all terminals of a node but the first, so that == trees may have different hashes; < is neither asymmetric nor transitive and <= is not implied by <.", "quantifier": "all trees (any depth, branching, labels), all hash functions, all histories of calls", "why_tests_cant": "Equality and hash must agree for every pair of trees and every hash function (which Python randomizes); immutability concerns every sequence of calls.", "anchors": ["discodop/tree.py: Tree.__eq__, Tree.__ne__, Tree.__lt__, Tree.__le__, Tree.__gt__, Tree.convert, Tree.freeze, Tree.insert, ImmutableTree, DiscTree"]}
{"id": "C66", "title": "Treebank transformations are undone by reversetransform", "statement": "For every tree in linear precedence order whose labels have no '^' after the first character: if transform(tree, sent, names) succeeds for a list of state splits (in particular the presets negra, wsj and alpino), reversetransform gives back exactly the original tree (labels, function tags, heads, children); more generally any tree obtained by adding '^'-annotations and reordering children is restored. With FUNC-NODE or APPEND-FUNC followed by any state splits, labels and function tags are restored; with LEMMA-NODE labels and lemmas; with '/'-annotations (addCase, nlselectmorph), with addUnary/nladdunary, and with both in a row, the labelled tree is restored, under the stated conditions on labels. Disagreements: MORPH-NODE exchanges the part-of-speech tag and the morphology on reversal; labels with '^' or (APPEND-FUNC) '-' are truncated; NPs over a single noun that were in the original tree are removed by the reversal of nladdunary; LEMMA-NODE loses the function tags of preterminals.", "quantifier": "all trees (any shape, discontinuous or not, any labels and attributes), all sentences, all lists of state splits with arbitrary conditions", "why_tests_cant": "The reversal must hold for every tree and every combination of transformations; the unit test compares phrasal bracketings of a few trees and does not see that labels of preterminals are exchanged.", "anchors": ["discodop/treebanktransforms.py: transform, reversetransform, strip, base, function, functions, PRESETS"]}
{"id": "C67", "title": "Random generation follows the grammar", "statement": "For every sequence of random numbers in [0,1): chooserule picks the rule in whose interval the number falls when [0,1) is divided in proportion to the discounted weights, and raises no exception; gen(grammar, start) returns only tuples of word sequences derivable from the start label in the LCFRS (number of components = fan-out, yield functions applied variable by variable), with the probability of a derivation, and leaves prodcounts unchanged; every derivable tuple can be generated for some random numbers; with a consistent grammar no exception occurs. yfarray/arraytoyf are inverse and labels are numbered one to one. Disagreements: read_bitpar_grammar drops the whole lexicon, so that nothing can be generated from a bitpar grammar; a label with lexical and other rules never yields a word directly; unary rules that join components are not applied; a unary rule of weight 1 counts as 0.99999999.", "quantifier": "all grammars (lists of rules of any size), all start labels, all discounts, all random number sequences, all depths", "why_tests_cant": "Generation is random: tests see a few samples, while soundness, reachability and the exact distribution concern all random number sequences and grammars.", "anchors": ["discodop/gen.py: gen, chooserule, compose, splitgrammar, yfarray, arraytoyf, read_bitpar_grammar"]}
{"id": "C68", "title": "Corpus search: answers do not depend on earlier queries or on the schedule", "statement": "The result cache keeps exactly the most recently stored `limit` results, each with its last value. After every history of counts() and trees() calls (any queries, files, limits; maxresults a number), and for every order in which jobs are completed, counts() gives for exactly the requested files what the query gives on each file, and trees() gives without exception each requested file's first maxresults results, the files in some order. A tgrep query from the first sentence on with maxresults=m gives the first m results of the unlimited query. sents() of a new query gives the matches of the requested files; TgrepSearcher.sents()/batchsents() are right when all jobs start before the first is handled; batchcounts() is the list of counts when every query matches. Disagreements: maxresults=None makes a later call fail with TypeError; with start>1 the limit counts skipped matches and the answer depends on the history; RegexSearcher.sents() caches under the columns of the last match, so that a later search of other lines returns wrong results; jobs of TgrepSearcher.sents() read a variable that is overwritten while results are handled; batchcounts() drops queries without matches.", "quantifier": "all histories of calls, all orders of job completion, all cache sizes, all queries, files and limits", "why_tests_cant": "The outcome depends on the whole history of calls and on thread schedules; a test sees one history and one schedule.", "anchors": ["discodop/treesearch.py: FIFOOrederedDict, TgrepSearcher.counts, TgrepSearcher.trees, TgrepSearcher.sents, TgrepSearcher.batchcounts, TgrepSearcher.batchsents, TgrepSearcher._query, FragmentSearcher.counts, FragmentSearcher.trees, RegexSearcher.counts, RegexSearcher.sents"]}
{"id": "C69", "title": "Searching a text file: line numbers, sentences and highlighting are right", "statement": "For every non-empty text file, every interval start/end (also outside the file or reversed) and every regular expression that works line by line and matches only non-empty strings that are not blank (literal strings are proved to be such): counts(query, indices=True) gives the number (from 1, blank lines not counted) of each sentence in the interval as often as the pattern matches in it, counts(query) the sum, sents() also the text of the sentence and the columns of the match (when blank lines are empty), maxresults the first ones; batchcounts() agrees with counts(); extract() gives the i-th non-blank line with the file in memory or on disk, and IndexError for other numbers. charindices() gives exactly the characters of the tokens (with the space after each); a terminal that shows the output of applyhighlight() shows the sentence with exactly the wanted characters in the wanted colours and ends in the normal colour. Disagreements: getinfo() counts one sentence too many for every file; a blank line with spaces becomes part of the sentence before it; a pattern with an empty match at the end of the file gives a non-existing sentence number or IndexError; an empty file gives an exception; batchcounts() with a start after the end gives no counts instead of zeros.", "quantifier": "all file contents, all intervals, all line-local patterns, all limits; all sentences, token sets, character sets and colours", "why_tests_cant": "Depends on every arrangement of blank lines, missing final newlines, intervals and match positions.", "anchors": ["discodop/treesearch.py: _indexfile, _getoffsets, _regex_run_query, _regex_run_batch, RegexSearcher.extract, RegexSearcher.getinfo, charindices, applyhighlight"]}
{"id": "C70", "title": "Drawing a tree: every node gets a place of its own", "statement": "For every continuous tree whose leaves are distinct positions of the sentence and that has no empty node, with children in any order: computing the coordinates for a drawing (DrawTree) raises no exception; exactly the nodes of the tree get coordinates; no two nodes are at the same place; the row of a node is given by its height, so the root is on row 0 and all terminals are on the last row; the terminals are in sentence order; every node is above its children and between its first and its last child (above its child when there is only one); no other node is on the horizontal line of a node or on the vertical line from a node to its parent, the horizontal lines on a row do not overlap, and no vertical line crosses a horizontal line. Trees with repeated or missing positions or empty nodes are always refused. Disagreements: for a discontinuous tree with 6 words the search for a cell fails with an exception; for one with 7 words two nodes are put in the same place and one of them has no coordinates.", "quantifier": "all continuous trees of any size and shape and all sentences; concrete discontinuous trees for the disagreements", "why_tests_cant": "Depends on the positions and levels of all the nodes placed before; only an invariant over levels covers every tree.", "anchors": ["discodop/tree.py: DrawTree.nodecoords, findcell"]}
{"id": "C71", "title": "Parsing a test set with worker processes: the results do not depend on the schedule", "statement": "For every test set with distinct sentence ids, every number of stages and every order in which the worker processes deliver their results: when all sentences are parsed and evaluated, the files with parse trees, the table of statistics (times apart), the number of sentences without parse, and all scores (labelled precision, recall and F, exact match, tagging, function tags, leaf-ancestor, tree-edit distance, dependencies), for all sentences and for those up to the cutoff length, are the ones defined by the sentences in the order of the test set; with one process or several the result is the same. When there is an exception for any sentence, in a worker or in the evaluation, there is an exception whatever the order, and nothing is written. Disagreement: the printed breakdown of the most frequent tagging errors does depend on the order of arrival.", "quantifier": "all test sets, all results of the parser, all orders of arrival, any number of stages", "why_tests_cant": "The order of arrival is decided by the scheduler; a test observes one order. The claim is over all permutations.", "anchors": ["discodop/runexp.py: doparsing, worker, writeresults", "discodop/eval.py: Evaluator.add, EvalAccumulator.add, EvalAccumulator.scores"]}
{"id": "C72", "title": "The parse command: every sentence of the text is parsed and the output is in order", "statement": "For every text and both input styles (a sentence per line; a token per line with empty lines between sentences, any number of them): the sentences are exactly the non-blank lines, or the maximal runs of non-blank lines; they are numbered from 1; when all of them can be parsed, the output is the output for each sentence in order, with one process or several, whatever the order in which these finish, and the number of unparsed sentences is right. When there is an exception for a sentence: with one process exactly the output of the sentences before it has been written; with several processes nothing has been written. With tags, a token is split at its last slash and a token without slash is refused; with keys, a line is split at its first bar. For each sentence the best `numparses` parses are written, by descending probability, ties in the order of the parser. Disagreements: a text without sentences ends in an exception; with keys and one token per line every key but the first starts with a space.", "quantifier": "all texts, all parsers, all numbers of processes and orders of finishing", "why_tests_cant": "Depends on all combinations of blank lines, on the scheduler and on which sentence fails.", "anchors": ["discodop/parser.py: readinputbitparstyle, worker, doparsing"]}
{"id": "C73", "title": "Function tags in labels can be added, removed, and read back", "statement": "For every tree whose labels are plain categories (not empty, no '-' or '='): adding function tags to the labels and removing them again gives the same tree, whatever the tags; when moreover no tag ends with an index, writing the labels with tags and reading them back with the option to remove function tags gives the same labels and the same tags for every node but the root ('--' when there is none). For every tree without labels that start with '-' or '=', removing cuts every label at the first of these characters; removing twice is the same as removing once for all trees; with nodes for function tags, every node but the root gets a parent with its tag, and taking these away gives the tree back; no option changes the terminals. Disagreements: for NP-SBJ-1 the tag that is read is 'SBJ-'; a tag that was added to a label starting with '-' is not removed; labels read with the option to leave function tags and written with function tags have them twice.", "quantifier": "all trees, all labels and function tags", "why_tests_cant": "Labels and function tags are arbitrary strings; the claim is about every tree and every combination.", "anchors": ["discodop/treebank.py: handlefunctions, BracketCorpusReader._parse, DiscBracketCorpusReader._parse"]}
{"id": "C74", "title": "Parsing a sentence in stages always gives a result, and each result is what it is said to be", "statement": "For every configuration of stages (coarse-to-fine parsing and reranking, each referring to stages before it) and every sentence, whatever the parsing algorithms do: exactly one result is produced for each stage, in order; each result is either the most probable of the parse trees of that stage, post-processed and with all words, or it is marked as having no parse and is the parse chosen by the last successful stage before it, or a dummy when there is none. In the usual configuration, where each stage is pruned with the one before it, a stage is parsed exactly when all before it were successful, with the chart of the previous one; the first stage that fails has a tree put together from parts; the stages after it have no parse. Disagreements: when a fine stage fails, its result is a tree made of parts, not the parse of the previous stage, and it is not marked; the parse of an earlier stage with split nodes is post-processed with the settings of the later stage, so that nodes are not merged; when a stage is skipped, the chart of an unrelated successful stage is taken for its own; the product of (number of subtrees, probability) pairs adds a probability to a number of subtrees.", "quantifier": "all configurations of stages, all outcomes of parsing, disambiguation and post-processing", "why_tests_cant": "Depends on the combination of successes, failures and exceptions in all the stages.", "anchors": ["discodop/parser.py: Parser.parse, Parser.noparse, probmult"]}
{"id": "C75", "title": "Alpino XML: what is written is read back, and any document is read with all its words and secondary edges", "statement": "For every tree in which each constituent has either one word or constituents as children, and every sentence without spaces in words: writing it in the Alpino format and reading the XML gives the same constituents over the same words, the same sentence, and for every node its function, lemma and morphological tag (empty fields become `--`, spaces become underscores) and the number of its parent; labels are the same when phrase labels are in upper case and tags in lower case. For every document in the format whose indices are distinct: the tree that is read has exactly the words of the document, in order, once each; constituents without words and references are left out; the references to a constituent are added to its fields, in order, with their function and parent; a reference to an index without a node is an exception. Disagreements: the comment that is written is never read; tags in upper case are not recovered.", "quantifier": "all trees, sentences, keys, comments; all XML documents", "why_tests_cant": "Depends on the shape of the tree, numbering in pre-order, references before or after what they refer to, missing attributes.", "anchors": ["discodop/treebank.py: writealpinotree, alpinotree"]}
{"id": "C76", "title": "What the evaluation compares: the words that count in the gold tree, and the constituents over them", "statement": "For every parameter setting and every gold and candidate tree over the same sentence (each word once, each constituent either with one word or with constituents or empty, the root not a preterminal): the pair is accepted; exactly the words are left, on both sides, for which neither the gold tag nor the word is to be deleted nor the word is directly under the gold root (if these are to be deleted), renumbered in order and with EQ_WORD applied; the bracketings of each tree are, with multiplicity, those of the original constituents that have such a word and whose label, after EQ_LABEL, is not to be deleted, with the positions of their words that count (only discontinuous ones with DISC_ONLY; without labels if not LABELED). The gold tree as candidate gets the bracketings of the gold tree. Disagreements: EQ_LABEL is not applied to the root; DELETE_ROOT_PRETERMS with a candidate that lacks some of the gold tokens deletes the wrong words; a candidate of which the root is a preterminal is not transformed and rejected.", "quantifier": "all parameters, sentences, pairs of trees with discontinuous and unary constituents and empty nodes", "why_tests_cant": "Depends on the interplay of in-place deletions of nested nodes, deletion order, renumbering, and the gold tags of words that are deleted from the candidate.", "anchors": ["discodop/eval.py: TreePairResult, transform, bracketings, bracketing", "discodop/tree.py: Tree.pos"]}
{"id": "C77", "title": "Leaf-ancestor metric: paths, score, and when a perfect score means equal constituents", "statement": "For every tree over distinct words in which no label is one of the marks ( ) [ ]: the path of a word consists of the labels of the constituents over it from the root down (except those to be deleted), with `)` before the topmost constituent ending with the word and `(` after the topmost one beginning with it, and `]`, `[` in the same way for the components of discontinuous constituents. For trees over the same words the score is a number between 0 and 1, symmetric, 1 for a tree with itself, and 1 only if all paths are equal. For gold and candidate trees without discontinuities over the same sentence, with any parameters, the evaluation does not fail and its assertion (score 1 implies equal bracketings) holds. Disagreements: with discontinuous constituents the assertion can fail, so that a valid pair of trees aborts the evaluation; labels equal to marks hide marks.", "quantifier": "all trees (also discontinuous), sentences, parameters", "why_tests_cant": "A breadth-first traversal with marks that depend on what is already in each path; the claim on equal constituents is about all pairs of trees.", "anchors": ["discodop/eval.py: leafancestorpaths, leafancestor, pathscore, mean, TreePairResult"]}
{"id": "C78", "title": "The reduction of an osTAG to a context-free grammar derives the same strings", "statement": "For every tree-adjoining grammar with binarized initial trees and auxiliary trees with one foot, labelled as the root, in which no substitution site or foot has a label ending with $: the rules and lexicon of the reduction derive a string from a label exactly when the string is derived from this label by substitution of initial trees and any number of adjunctions of auxiliary trees at the roots of initial trees, at phrasal nodes and (in auxiliary trees) preterminals that are not on the spine. The weight of adjoining an auxiliary tree is its weight times the number of its nodes that are not substitution sites. Disagreements: the weight is counted once per node instead of once per tree; a substitution site with a label like PRP$ next to the foot is taken for a spine node, so that strings are lost.", "quantifier": "all sets of initial and auxiliary trees with weights, start labels, strings (derivations of any depth)", "why_tests_cant": "The equivalence is about all derivations of an infinite language, with sites of one tree used in rules of every other tree.", "anchors": ["discodop/grammar.py: ostagreduction, SpinedTreeDecorator.decorate, spinal, spinallabel, substitutionsite, footnode, preterminal"]}
{"id": "C79", "title": "Making trees continuous by raising or by reordering keeps what it should", "statement": "raisediscnodes: for every tree with heads, the result is continuous below the root, has the same terminals in order and the same root label, and its constituents are the continuous constituents and, for each discontinuous one, the runs of its terminals that contain a continuous head child; without head information it raises an exception. canonicallyorderedtree: the result has the same constituents up to the order of sisters (now by last terminal) and a one-to-one renaming of the terminals; its terminals are 0, 1, 2, ... from left to right, all constituents are continuous, and each word moves with its terminal. Disagreement: a discontinuous constituent whose head child is itself discontinuous disappears from the result of raisediscnodes.", "quantifier": "all trees with words under preterminals, all head markings, all sentences", "why_tests_cant": "Discontinuous constituents can be nested to any depth, and what happens to a constituent depends on what became of its head child.", "anchors": ["discodop/treetransforms.py: raisediscnodes, splitdiscnodes, canonicalize, canonicallyorderedtree, canonicalizealpino"]}
{"id": "C80", "title": "Lines in several formats are read as the trees they contain", "statement": "incrementaltreereader on any sequence of lines made of export-format trees, Alpino XML trees, headers and other text, in any order, followed by lines in bracket format, yields exactly those trees, in order and with their comments, then what it yields for the bracket lines alone; other text is yielded where it occurs iff asked for; with and without strict. Trees written by writeexporttree, fed line by line, come back with their sentences, comments and constituents (up to the order of sisters). If a tree starts before the previous one has ended, strict raises, otherwise just the unfinished tree is left out. Disagreements: a #BOT ... #EOT table of an export file is yielded as an empty tree; an export tree without #EOS is dropped silently even with strict; an export tree after a bracketed tree is taken as the comment of the latter.", "quantifier": "all sequences of pieces of input, all texts and comments, both settings of strict and othertext, all readers of single trees", "why_tests_cant": "The readers are co-routines with state that are tried in turn for each line; whether a line is offered to the right one depends on all lines before it.", "anchors": ["discodop/treebank.py: incrementaltreereader, segmentexport, segmentalpino, segmentbrackets, exporttree, writeexporttree"]}
{"id": "C81", "title": "The sentences taken from a corpus are the ones asked for", "statement": "For bracketed corpora: keys are line numbers, itertrees(start, end) yields exactly the lines of that range in order, and the answers of trees, sents, tagged_sents, blocks, itertrees do not depend on earlier calls; tagged_sents pairs each word with its tag; the training and test sets are the lines in their range with an admissible length; with skiptrain they are disjoint if test.skip >= train.skip; evaluation pairs each candidate with the gold tree of the same key and raises exactly if there is none; ensureroot gives the root the label and is idempotent. Disagreements: with several files, trees() and sents() (and hence evaluation, and the test set) lose all but one of the sentences with the same line number; changing a returned tree in place changes later answers; with train.skip > test.skip, skiptrain lets training and test set overlap.", "quantifier": "all files and numbers of files, all ranges, all histories of calls, all readers of single lines", "why_tests_cant": "Which sentences end up in a set depends on all lines of all files and on the history of calls; tests use one small file.", "anchors": ["discodop/treebank.py: CorpusReader, BracketCorpusReader, itertrees, trees, sents, tagged_sents, blocks, _read_blocks, _parsetree", "discodop/runexp.py: startexp, loadtraincorpus", "discodop/eval.py: main"]}
{"id": "C82", "title": "Evaluation parameters are what the parameter file declares", "statement": "readparam accepts a file iff every line is empty, a comment or a declaration of a known parameter with a value of the right form, and no number is declared twice; the numbers are those declared or the defaults, sets and pairs contain exactly what is declared, independent of the order of the lines; two labels (words) are treated as equal in evaluation iff a chain of EQ_LABEL (EQ_WORD) pairs in the file connects them, for every order in which sets are traversed. Disagreements: trailing white space becomes part of a value (the label is then not deleted); a line of white space rejects the file.", "quantifier": "all parameter files, all orders of lines, all orders in which sets are traversed, all pairs of labels", "why_tests_cant": "Depends on all lines, all interleavings of declarations and hash orders; tests read a fixed file.", "anchors": ["discodop/eval.py: readparam, transitiveclosure", "proper.prm", "sample.prm"]}
{"id": "C83", "title": "Head rules and modifier rules are those of the file", "statement": "readheadrules accepts a file iff each line is a comment, has at most two words, or is a rule with a known direction or LIKE with a label introduced before; the rules for a label are those of the file in file order, LIKE standing for the rules of the other label at that point. readmodifierrules accepts a file iff each line is empty, a comment, or a label with modifiers and no label occurs twice. markmodifiers keeps heads, makes another child a modifier iff a rule for the parent's category or * matches or its label is that of the nearest preceding non-head sibling, otherwise a complement, and is idempotent. Disagreements: a rule without list of heads (ftb.headrules line 33) has no effect, so that the default head is on the wrong side; rules never apply to constituents whose label has a lower case letter.", "quantifier": "all rule files, all labels, all lists of children, all tables for upper case", "why_tests_cant": "Rules accumulate over all lines of a file and depend on their order; tests apply one file to a few trees.", "anchors": ["discodop/heads.py: readheadrules, HEADRULERE, readmodifierrules, markmodifiers, headfinder", "ftb.headrules", "discodop/treebanktransforms.py: function"]}
{"id": "C84", "title": "Collapsed labels form a homomorphic image of the treebank", "statement": "collapselabels replaces exactly the labels of phrases below the root by their coarse label (each word of the label replaced according to the table, tags kept, unknown words and - dropped) and leaves words, tags, shape and root alone; the returned mapping gives these labels, so that, if phrase labels are distinct from tags and the root label, the coarse trees are the fine trees with the mapping applied to every label; it succeeds iff every coarse label starts with a letter; the mapping between two levels always exists and is right for all labels iff one level refines the other. Disagreements: the preset for level 2 of Negra/Tiger rejects every treebank with a PP, CPP or CAC (misplaced brace); the label -- listed in the presets is always rejected; labels with different fan-out markers get the same coarse label; phrases whose label is also a tag are not collapsed.", "quantifier": "all treebanks, tables of labels, labels and pairs of levels", "why_tests_cant": "The mapping is used for pruning every fine label in every sentence; it must be consistent for all labels of the treebank, whereas tests use none or one preset.", "anchors": ["discodop/treebanktransforms.py: collapselabels, LABELRE, MAPPINGS", "discodop/runexp.py: getgrammars"]}
{"id": "C85", "title": "Export tables and TigerXML documents are read as the trees they encode", "statement": "Any table in export format whose rows are the nodes of a tree (rows of phrasal nodes in any order, any distinct numbers) is read as that tree, up to the order of sisters, with the labels and fields of the rows; with the words first, terminal i is word i and no word is lost. A TigerXML graph in which each node but the root has one parent becomes one such row per node, words first, with word, lemma, tag, morphology, function, parent and secondary edges; hence the document is read as the tree it describes whatever the order of the phrasal nodes. A second parent is refused if the first edge has a label other than --. Disagreements: the function of a phrasal node listed after its parent is lost; a root that is an ordinary node loses its category; two parents can go unnoticed; nodes on a cycle are dropped silently with their words; words listed after phrasal nodes get wrong numbers.", "quantifier": "all tables and trees, all TigerXML graphs, orders of elements, identifiers and attributes", "why_tests_cant": "Treebanks are annotated by other tools, with arbitrary numbers and orders of nodes; a test corpus has one.", "anchors": ["discodop/treebank.py: exporttree, exportsplit, TigerXMLCorpusReader"]}
{"id": "C86", "title": "Heads are recovered from a head-outward binarization", "statement": "Binarize a tree head-outward with the rightmost unary (any markovization, parent annotation, direction and head marks, ids, leftmost unary, threshold of at least two), forget all head marks, then infer heads from the binarized labels and undo the binarization: the result is the original tree in which every constituent that was factored has exactly one head child, namely its original (first) head, or its last child if none was marked. Hence a tree with one head in each such constituent comes back unchanged including heads. No exception occurs. Disagreements: with left factoring the child at the mirrored position is marked; with a tail marker the artificial node rather than the head is marked, stays in the tree, and ordinary labels containing the marker are marked as well; heads of constituents with two children are not recovered.", "quantifier": "all trees, head annotations and binarization options", "why_tests_cant": "Whether the innermost artificial node holds the head depends on the head position, the number of children and nested constituents with the same label; unit tests have one tree.", "anchors": ["discodop/heads.py: saveheads", "discodop/treetransforms.py: binarize, unbinarize", "discodop/parser.py: Parser.postprocess"]}
{"id": "C87", "title": "The weights of a DOP grammar made from fragments are probability distributions", "statement": "For any set of fragments with their occurrences: the equal weights estimate gives each tree in which fragments occur a total of one, hence all trees together the number of such trees; after normalisation the weights of the rules of each left-hand side add up to one. Bonnema's weights of the fragments with one root label add up to at most one, for any set of distinct fragments with at most as many occurrences as the treebank has, and to exactly one for the set of all fragments of the treebank; root and number of constituents can be read off the bracket notation of any fragment.", "quantifier": "all treebanks, sets of fragments, occurrence lists and labels without brackets or spaces", "why_tests_cant": "The sums range over all fragments of a treebank, exponentially many in the size of the trees.", "anchors": ["discodop/grammar.py: dopgrammar, getweight"]}
{"id": "C88", "title": "Dependencies written as text can be read back column by column", "statement": "For any headed tree over the words of a sentence the CoNLL text has one line of ten columns for each word: its number, the word, the label of its preterminal, the number of its head and the label of the dependency; the MST text has four lines with the same words, tags, labels and heads, one column for each word. Reading the text back gives exactly these values. The wordpos line pairs each word with the label of its own preterminal. The text is written if and only if every constituent of more than one child has a head. A tree which does not cover the sentence gives words the tags and heads of others.", "quantifier": "all trees with heads, crossing or not, over all sentences with words and labels without tabs and newlines", "why_tests_cant": "Words, tags and dependencies come from three lists that are sorted separately; that they agree holds for every tree.", "anchors": ["discodop/treebank.py: writedependencies, writetree"]}
{"id": "C89", "title": "Packed graphs: equal subtrees, and only those, share an address, and the DOP reduction is exact when they have the same yield functions", "statement": "For any history of trees given to one decorator with packed graph encoding: the result is the tree with addresses added to the labels below the root, removing the addresses gives the tree back, and two nodes of the same or of different trees have the same address if and only if their subtrees are the same with the words in place of the indices. When subtrees with the same words always have the same yield functions, the DOP reduction with packed graphs is exact as without: the probability of the derivations of a fragment is its relative frequency. Yield functions are not compared: when subtrees with the same words in different orders occur in discontinuous trees, the DOP reduction with packed graphs gives fragments other probabilities than their relative frequencies.", "quantifier": "all histories of trees and sentences, all fragments", "why_tests_cant": "An address depends on all trees decorated before; the doctests decorate two trees.", "anchors": ["discodop/grammar.py: TreeDecorator, decorate, _recdecorate, _copyexceptindices, dopreduction"]}
{"id": "C90", "title": "PTB bracket escaping is safe in bracketed trees and can be undone", "statement": "For every word, the escaped form has no parentheses and is not a single bracket. Unescaping the escaped form gives the word back for every non-empty word that has no LRB or RRB in it and is not a reserved sequence. Otherwise it need not: a bracket and a word written like the escaped bracket have the same escaped form, and adjacent escapes can be misread. Escaping an already escaped word changes it if and only if it has a slash.", "quantifier": "all strings", "why_tests_cant": "Only particular tokens occur in the tests; overlapping escape sequences arise from unusual words.", "anchors": ["discodop/tree.py: ptbescape, ptbunescape", "discodop/treebanktransforms.py: PTBbrackets", "discodop/parser.py: Parser.parse"]}
{"id": "C91", "title": "Reducing the Markov order of rare labels is undone by unbinarization, and its vertical order has no effect", "statement": "Given binarized trees, a threshold n and horizontal and vertical orders, markovthreshold gives each constituent a label that depends on its old label only: labels occurring at least n times in all trees, and labels that are not binarization labels, stay; in other labels exactly the first h sisters are kept, with the label, the head and what follows the last closing bracket. The structure of the trees does not change, and unbinarization gives the same trees as before. The vertical order changes no output for any input, contrary to the documentation.", "quantifier": "all lists of trees, thresholds and orders", "why_tests_cant": "The function has no unit tests; greedy matching decides which part of the label each group is, for every label.", "anchors": ["discodop/treetransforms.py: markovthreshold, MARKOVRE, unbinarize"]}
{"id": "C92", "title": "Reading a corpus of Alpino files gives the tree of each file under the key of this file", "statement": "For an Alpino corpus of well-formed files, itertrees(start, end) gives the trees of the files asked for, in the order of the files, each under the name of its directory and file without extension; trees and blocks give the same trees and contents by key, and if two files have the same key, those of the last file. Two files have the same key exactly if they and their directories have the same names. A file that is not well-formed is to be skipped or reported as an error; the code instead gives it the tree of the last well-formed file before it, and raises UnboundLocalError for the whole corpus if it is the first file.", "quantifier": "all lists of files with any contents and any names, all ranges", "why_tests_cant": "Tests read well-formed files; which tree a malformed file gets depends on all files before it.", "anchors": ["discodop/treebank.py: AlpinoCorpusReader._read_blocks, AlpinoCorpusReader.blocks, CorpusReader.itertrees, CorpusReader.trees"]}
{"id": "C93", "title": "Bracketed fragments are indexed from left to right, and a substitution grammar can be read from them", "statement": "For every fragment in bracket notation without frontier nodes, addindices gives each word its position from left to right and leaves everything else as it is. A frontier node is to stay one; the code instead gives it the word None for every fragment with frontier nodes, so that different fragments become the same. Reading fragments in bracket notation with the command grammar ptsg is to give each fragment its weight; the code instead raises an exception for every such file, as it splits the weights twice.", "quantifier": "all fragments; all files whose first fragment is in bracket notation", "why_tests_cant": "There are no tests of this; that no file of this form can be read holds for all files only by an argument about the code.", "anchors": ["discodop/grammar.py: addindices, splitweight", "discodop/cli.py: grammar", "discodop/treebank.py: LEAVESRE", "discodop/tree.py: STRTERMRE"]}
