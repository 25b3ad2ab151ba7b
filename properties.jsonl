{"id": "C01", "title": "FEATS/MISC behave as a plain mapping", "statement": "After any sequence of item assignments, item deletions, clear(), set_mapping(string / dict / None), item reads, iteration, len, 'in' and str() on a FEATS/MISC object, reading a key gives what a plain dictionary that underwent the same calls would give, where assigning '' or None deletes the key and a missing key reads as ''.", "quantifier": "every finite sequence of calls, every key, every value, every initial string or dict", "why_tests_cant": "The object keeps two representations (a string and a dict) that are synchronised lazily, so a stale representation only shows after particular interleavings; tests try a handful of interleavings.", "anchors": ["udapi/core/dualdict.py: DualDict.__getitem__, __setitem__, __delitem__, clear, set_mapping, _deserialize_if_empty, __str__"]}
{"id": "C02", "title": "str(FEATS/MISC) re-parses to the current mapping", "statement": "At any moment, building a new FEATS/MISC object from str(d) gives an object with exactly the same keys and values as d, provided every stored name is non-empty and free of '|' and '=', every stored value is True or a string free of '|', and the mapping is not the single flag named '_'.", "quantifier": "every mapping reachable by any call sequence, with names and values of arbitrary length", "why_tests_cant": "Serialisation round trips have to hold for all names and values including ones with odd characters; sampling cannot cover them.", "anchors": ["udapi/core/dualdict.py: DualDict.__str__, _deserialize_if_empty, set_mapping"]}
{"id": "C03", "title": "The string form of FEATS/MISC does not depend on edit order", "statement": "Two FEATS/MISC dictionaries with the same key-value pairs serialise to the same string whatever the order of insertion (names ordered case-insensitively).", "quantifier": "every pair of insertion orders of every set of pairs", "why_tests_cant": "The claim is about all permutations of all mappings.", "anchors": ["udapi/core/dualdict.py: DualDict.__str__ (key=lambda item: item[0].lower())"]}
{"id": "C04", "title": "Looking at FEATS/MISC never changes them", "statement": "Reading an item, testing membership, iterating, taking the length or taking str() of a FEATS/MISC object changes neither any later read nor any later str(); and an object set from a string prints exactly that string until the next modification.", "quantifier": "every object state reachable by calls, every mix of read-only calls in between", "why_tests_cant": "Reads do mutate the hidden caches, so the claim is about all interleavings of reads with everything else.", "anchors": ["udapi/core/dualdict.py: DualDict.__getitem__, __len__, __contains__, __iter__, __str__"]}
{"id": "C05", "title": "Extra fields of coreference mentions behave as a plain mapping", "statement": "After any sequence of assignments, deletions, clear() and set_mapping() on the 'other' fields of a mention, reads give what a plain dictionary would give; in particular after clear() no key is present.", "quantifier": "every finite sequence of calls", "why_tests_cant": "Same lazy two-representation design as FEATS/MISC with different separators and a different empty string; the stale state only appears after particular call orders.", "anchors": ["udapi/core/coref.py: OtherDualDict.__setitem__, clear, set_mapping, _deserialize_if_empty, __str__"]}
{"id": "C06", "title": "Universal part and subtype of the relation are independent", "statement": "Setting udeprel changes the part of deprel before the first ':' and keeps the subtype; setting sdeprel keeps the universal part; the getters return exactly what was set (for a universal part without ':').", "quantifier": "every relation string and every assigned part", "why_tests_cant": "The claim is about all strings, including ones with zero, one or several colons and empty parts.", "anchors": ["udapi/core/node.py: Node.udeprel, Node.sdeprel getters and setters"]}
{"id": "C07", "title": "Every sequence of tree edits leaves a well-formed ordered tree", "statement": "Starting from an empty tree and applying any sequence of create_child, parent assignment, remove (all modes), shift_before/after_node/subtree and flatten to nodes that belong to the tree at the time of the call, whether or not single calls raise: following parent links from every node ends in the technical root, node.children are exactly the nodes whose parent is the node, in word order, root.descendants are exactly the nodes of the tree in word order, and node.ord numbers them 1..n.", "quantifier": "every finite history of edits, every choice of nodes and parameters", "why_tests_cant": "The edits keep four mutually dependent structures by hand; a history-dependent corruption needs a specific sequence of operations on a specific shape.", "anchors": ["udapi/core/node.py: Node.create_child, parent setter, remove, _shift_before_ord, shift_*", "udapi/core/root.py: Root.descendants, Root.flatten"]}
{"id": "C08", "title": "A rejected re-attachment changes nothing", "statement": "If assigning node.parent raises an exception, the trees involved are exactly as before the assignment.", "quantifier": "every tree pair, every node and every proposed parent", "why_tests_cant": "Atomicity has to hold on every error path and in every state in which it is reached.", "anchors": ["udapi/core/node.py: Node.parent setter"]}
{"id": "C09", "title": "Re-attachment is rejected exactly when it would create a cycle", "statement": "Within one tree, assigning node.parent = x raises CycleError if and only if x is the node itself or one of its descendants; otherwise the assignment succeeds.", "quantifier": "every well-formed tree, every node, every x in the tree", "why_tests_cant": "Needs both directions for trees of all shapes and depths.", "anchors": ["udapi/core/node.py: Node.parent setter, Node.is_descendant_of"]}
{"id": "C10", "title": "Re-attachment changes exactly one edge", "statement": "A successful node.parent = x makes x the parent, leaves every other node's parent, the word order and every ord as they were, and removes the node from the old parent's children while inserting it into x's children in word order.", "quantifier": "every well-formed tree, node and x", "why_tests_cant": "A frame property: it says what does not change, over all trees.", "anchors": ["udapi/core/node.py: Node.parent setter"]}
{"id": "C11", "title": "create_child adds exactly one word at the end", "statement": "node.create_child() returns a new node that is the last word of the tree, is the last child of node and has no children; no other parent, ord or child list changes.", "quantifier": "every well-formed tree and every node of it (including the root)", "why_tests_cant": "A frame property over all trees.", "anchors": ["udapi/core/node.py: Node.create_child"]}
{"id": "C12", "title": "remove() deletes exactly the subtree", "statement": "node.remove() leaves in the tree exactly the nodes that are neither the node nor its descendants, in the same relative order, with the same parents, renumbered 1..m.", "quantifier": "every well-formed tree and every non-root node", "why_tests_cant": "Two different code paths (leaf / inner node) must agree with one meaning for all shapes, including non-projective subtrees.", "anchors": ["udapi/core/node.py: Node.remove"]}
{"id": "C13", "title": "remove(children='rehang') deletes exactly one word", "statement": "node.remove(children='rehang') deletes just that node; its children become children of its former parent; every other parent and the relative word order stay; words are renumbered 1..n-1.", "quantifier": "every well-formed tree and every non-root node", "why_tests_cant": "As C12: must hold for all shapes and positions.", "anchors": ["udapi/core/node.py: Node.remove (rehang)"]}
{"id": "C14", "title": "Word-order shifts land exactly where asked", "statement": "After a shift_before_node / shift_after_node / shift_before_subtree / shift_after_subtree call that does not raise, the moved words (the node, or the node with its whole subtree) form one contiguous block in their previous relative order; the block immediately precedes (follows) the reference word or subtree among the words that did not move; the relative order of all words that did not move is unchanged.", "quantifier": "every well-formed tree (projective or not), every node, every reference node, both values of without_children", "why_tests_cant": "Three hand-written in-place array algorithms (single word, contiguous block, block with gaps) move pointers leftwards and rightwards; off-by-one errors show only for particular gap patterns.", "anchors": ["udapi/core/node.py: Node._shift_before_ord, shift_after_node, shift_before_node, shift_after_subtree, shift_before_subtree"]}
{"id": "C15", "title": "Word-order shifts never change the dependency structure", "statement": "A shift call, successful or not, leaves every node's parent unchanged, and a call that raises leaves the word order unchanged too.", "quantifier": "every well-formed tree and every shift call", "why_tests_cant": "A frame property over all trees and calls.", "anchors": ["udapi/core/node.py: Node._shift_before_ord, shift_*"]}
{"id": "C16", "title": "descendants are exactly the transitive dependents", "statement": "node.descendants lists every node from which the parent links lead to node, each exactly once, in word order and nothing else; x.is_descendant_of(node) is true exactly for these.", "quantifier": "every well-formed tree and pair of nodes", "why_tests_cant": "An explicit stack traversal must terminate and be complete for trees of all shapes.", "anchors": ["udapi/core/node.py: Node.descendants, unordered_descendants, is_descendant_of"]}
{"id": "C17", "title": "add_self / preceding_only / following_only filters", "statement": "For children, descendants and siblings called with add_self, preceding_only and following_only: the result contains exactly the listed nodes (plus the node itself if add_self) that precede (follow) the node, in word order; the node itself is kept when add_self is given.", "quantifier": "every well-formed tree, node and combination of flags", "why_tests_cant": "Eight flag combinations over all trees and positions.", "anchors": ["udapi/core/node.py: ListOfNodes.__call__"]}
{"id": "C18", "title": "prev_node and next_node are inverse", "statement": "For any two nodes of a tree (including the root as the zeroth word), y is x.next_node exactly when x is y.prev_node; the last word has no next_node and the root has no prev_node; repeated next_node from the root enumerates all the words in word order.", "quantifier": "every well-formed tree and node", "why_tests_cant": "Boundary behaviour at both ends for trees of all sizes.", "anchors": ["udapi/core/node.py: Node.prev_node, Node.next_node"]}
{"id": "C19", "title": "is_nonprojective means what its documentation says", "statement": "node.is_nonprojective() is true if and only if some word lies strictly between the node and its parent in word order and is not a descendant of the parent.", "quantifier": "every well-formed tree and node", "why_tests_cant": "The implementation counts nodes instead of looking for the offending node; equivalence has to hold for all trees.", "anchors": ["udapi/core/node.py: Node.is_nonprojective"]}
{"id": "C20", "title": "is_nonprojective_gap means what its documentation says", "statement": "node.is_nonprojective_gap() is true if and only if there is a node X such that node is neither X nor a descendant of X but lies between X's leftmost and rightmost descendant (or X itself).", "quantifier": "every well-formed tree and node", "why_tests_cant": "The implementation looks at single edges that cross the node; the documentation speaks of spans of whole subtrees. The equivalence is a theorem about all trees.", "anchors": ["udapi/core/node.py: Node.is_nonprojective_gap"]}
{"id": "C21", "title": "find_minimal_common_treelet returns the minimal connected treelet", "statement": "find_minimal_common_treelet(nodes) returns the nearest common ancestor-or-self of the given nodes, and the added nodes are exactly the missing nodes on the paths from the given nodes to it.", "quantifier": "every well-formed tree and every non-empty list of its nodes, of any depths", "why_tests_cant": "The climbing order interacts with the depths of the nodes; only some combinations of depths reveal a wrong answer.", "anchors": ["udapi/core/node.py: find_minimal_common_treelet"]}
{"id": "C22", "title": "Multi-word tokens never overlap", "statement": "After any sequence of create_multiword_token and MWT.remove calls on words of one tree, every word belongs to at most one multi-word token, word.multiword_token names precisely the token whose words contain it, and the tree's list of multi-word tokens has no duplicates.", "quantifier": "every history of calls with non-empty word lists", "why_tests_cant": "An invariant over histories, including creation over parts of several older tokens.", "anchors": ["udapi/core/root.py: Root.create_multiword_token", "udapi/core/mwt.py: MWT.__init__, MWT.remove"]}
{"id": "C23", "title": "token_descendants covers each word exactly once", "statement": "If the multi-word tokens of a tree cover disjoint contiguous word ranges, then concatenating the words of root.token_descendants gives root.descendants.", "quantifier": "every tree and every set of disjoint contiguous multi-word tokens", "why_tests_cant": "Depends on positions of all tokens; holds for all layouts or not at all.", "anchors": ["udapi/core/root.py: Root.token_descendants"]}
{"id": "C24", "title": "create_empty_child assigns a fresh position right after (before) the node", "statement": "node.create_empty_child(after=True/False) gives the new empty node an ord strictly between the ords of the neighbouring words, different from the ords of all other empty nodes, and keeps root.empty_nodes sorted.", "quantifier": "every sorted list of existing empty nodes and every node", "why_tests_cant": "The search for a free decimal depends on the whole list of existing ids, including full gaps.", "anchors": ["udapi/core/node.py: Node.create_empty_child, OrdTuple"]}
{"id": "C25", "title": "Removing or shifting words keeps empty nodes in place", "statement": "After removing or shifting words, the empty nodes still have pairwise different ords, stay in the same relative order, and each follows the nearest preceding remaining word it followed before.", "quantifier": "every tree, every placement of empty nodes, every removed or shifted node", "why_tests_cant": "Depends on all combinations of positions and decimals.", "anchors": ["udapi/core/node.py: Node.remove (empty nodes), Node._shift_before_ord (empty nodes)"]}
{"id": "C26", "title": "raw_deps and deps are two views of the same enhanced dependencies", "statement": "Reading deps after setting raw_deps gives one entry per 'head:deprel' item, pointing at the node with that id, and reading raw_deps afterwards gives the same string; setting deps and reading raw_deps and back gives the same list.", "quantifier": "every list of enhanced dependencies and every tree", "why_tests_cant": "Round trip over all strings/lists and all node numberings; relation names may contain further ':'.", "anchors": ["udapi/core/node.py: Node.raw_deps, Node.deps"]}
{"id": "C27", "title": "Removing an empty node only removes edges from it", "statement": "After EmptyNode.remove(), every other node keeps exactly the enhanced dependencies whose parent is not the removed node.", "quantifier": "every enhanced graph", "why_tests_cant": "The claim is about all graphs; the code path needs a node depending on the removed empty node.", "anchors": ["udapi/core/node.py: EmptyNode.remove"]}
{"id": "C28", "title": "Reading any CoNLL-U sentence gives a well-formed tree or an error", "statement": "For every list of CoNLL-U lines, reading it either raises, or returns no tree (no words), or returns a well-formed tree whose k-th word carries the k-th word line's attributes and the parent given in its HEAD column.", "quantifier": "every list of text lines, with any HEAD values, strict or not, fix_cycles or not", "why_tests_cant": "Inputs are arbitrary text; cycles of every length and position must be detected.", "anchors": ["udapi/block/read/conllu.py: Conllu.read_tree_from_lines"]}
{"id": "C29", "title": "Writing and reading back CoNLL-U preserves the tree", "statement": "For every tree whose attribute values are representable in CoNLL-U, reading the lines written by write.Conllu gives a tree with the same words, attributes, parents, multi-word tokens, empty nodes and enhanced dependencies.", "quantifier": "every such tree", "why_tests_cant": "Round trip over all trees and all attribute strings.", "anchors": ["udapi/block/write/conllu.py: Conllu.process_tree", "udapi/block/read/conllu.py: Conllu.read_tree_from_lines"]}
{"id": "C30", "title": "A CoNLL-U file is split into its sentences", "statement": "Splitting the text of a file that consists of sentence blocks, each followed by one or more empty lines, gives back exactly the blocks in order.", "quantifier": "every list of non-empty blocks without empty lines", "why_tests_cant": "All texts.", "anchors": ["udapi/block/read/conllu.py: Conllu.read_trees"]}
{"id": "C31", "title": "Sentence metadata survive writing and reading", "statement": "sent_id, text, newdoc, newpar and free comments written by write.Conllu are read back with the same values.", "quantifier": "every value free of newlines and of leading/trailing white space where the format cannot represent it", "why_tests_cant": "Free text comments may look like metadata; all strings.", "anchors": ["udapi/block/read/conllu.py: Conllu.parse_comment_line", "udapi/block/write/conllu.py: Conllu.process_tree"]}
{"id": "C32", "title": "Zones are unique within a bundle", "statement": "After any sequence of create_tree, add_tree, zone assignments and tree removals, no two trees in a bundle share a zone, every zone is valid and get_tree(zone) finds exactly the tree with that zone; a rejected call leaves the bundle unchanged.", "quantifier": "every history of calls and all zone strings", "why_tests_cant": "Invariant over histories.", "anchors": ["udapi/core/bundle.py: Bundle.check_zone, add_tree, create_tree, get_tree, has_tree", "udapi/core/root.py: Root.zone setter, Root.remove"]}
{"id": "C33", "title": "Tree addresses identify trees", "statement": "After setting bundle_id, each tree's sent_id is bundle_id plus '/' plus its zone (no slash for the empty zone), so different trees of a bundle have different addresses, and assigning a tree's own sent_id back is accepted and changes nothing.", "quantifier": "every bundle and every id", "why_tests_cant": "All bundles with any number of zones.", "anchors": ["udapi/core/bundle.py: Bundle.bundle_id setter, add_tree", "udapi/core/root.py: Root.sent_id, Root.zone"]}
{"id": "C34", "title": "Bundle numbers follow document order", "statement": "After any sequence of create_bundle and bundle.remove(), the numbers of the bundles increase strictly along the document, so node.precedes orders nodes of different sentences as in the document.", "quantifier": "every history", "why_tests_cant": "Creation and removal number bundles differently (from 1 and from 0); the order must survive every mixture.", "anchors": ["udapi/core/document.py: Document.create_bundle", "udapi/core/bundle.py: Bundle.remove", "udapi/core/node.py: Node.precedes"]}
{"id": "C35", "title": "New coreference entities get fresh ids", "statement": "create_coref_entity() without an id always terminates and gives an id e<k> that no existing entity has, with the smallest such k; with an explicit id it fails exactly if the id exists.", "quantifier": "every set of existing entity ids", "why_tests_cant": "All finite sets of ids.", "anchors": ["udapi/core/document.py: Document.create_coref_entity"]}
{"id": "C36", "title": "Mention spans and word lists convert both ways", "statement": "For every set of words of a sentence, converting the words to a span string and back gives the same words in word order.", "quantifier": "every tree and every non-empty set of its words", "why_tests_cant": "All subsets, continuous or not.", "anchors": ["udapi/core/coref.py: span_to_nodes, nodes_to_span"]}
{"id": "C37", "title": "Mentions are strictly ordered", "statement": "The order used to sort coreference mentions within a document is a strict order (irreflexive and transitive), and mentions that are incomparable start at the same word, end at the same word, have the same length and the same entity id.", "quantifier": "all triples of mentions", "why_tests_cant": "Transitivity over all triples; sort() silently gives arbitrary results otherwise.", "anchors": ["udapi/core/coref.py: CorefMention.__lt__"]}
{"id": "C38", "title": "Entity brackets written to MISC are read back as the same mentions", "statement": "Storing continuous mentions as opening/closing brackets in the MISC attribute Entity and loading them again gives the same entities with the same mention spans.", "quantifier": "every set of mentions of any nesting", "why_tests_cant": "All bracketings, including several mentions starting or ending at one word and crossing mentions of different entities.", "anchors": ["udapi/core/coref.py: store_coref_to_misc, load_coref_from_misc"]}
{"id": "C39", "title": "find_lcs returns a longest common subsequence", "statement": "The list returned by find_lcs(x, y) is a subsequence of both x and y, and no common subsequence is longer.", "quantifier": "every pair of lists", "why_tests_cant": "Optimality is a statement about all common subsequences of all pairs.", "anchors": ["udapi/block/eval/f1.py: find_lcs"]}
{"id": "C40", "title": "eval.F1 counts are consistent", "statement": "For every pair of token lists and every focus, the number of correct tokens is at most the number of predicted and at most the number of gold tokens, the token alignment used with a focus never runs off the end of a list, and precision, recall and F1 lie between 0 and 1.", "quantifier": "every pair of trees, every focus predicate", "why_tests_cant": "The re-alignment with focus is an index-chasing loop that must be safe for all inputs.", "anchors": ["udapi/block/eval/f1.py: F1.process_tree, F1.process_end"]}
{"id": "C41", "title": "eval.Parsing scores are ordered", "statement": "Every node counted as correct by LAS is counted by ULAS, and every node counted by ULAS is counted by UAS, so 0 <= LAS <= ULAS <= UAS <= 100% for every sequence of tree pairs.", "quantifier": "every sequence of gold and predicted trees", "why_tests_cant": "All inputs.", "anchors": ["udapi/block/eval/parsing.py: Parsing.process_tree"]}
{"id": "C42", "title": "Scenario command lines are parsed faithfully", "statement": "Words without '=' become blocks in order, and each name=value word becomes a parameter of the nearest preceding block (value cut at the first '=', all-digit values as integers, later duplicates win); a parameter before the first block is an error.", "quantifier": "every list of words", "why_tests_cant": "All lists of words.", "anchors": ["udapi/core/run.py: _parse_command_line_arguments, _parse_block_name"]}
{"id": "C43", "title": "Scenario execution order", "statement": "For every scenario and every way the readers announce the end of input, each block's process_start runs once before any document, each document passes through all blocks in order, and each block's process_end runs once after all documents.", "quantifier": "every list of blocks and every schedule of reader end-of-input answers", "why_tests_cant": "All schedules.", "anchors": ["udapi/core/run.py: Run.execute"]}
{"id": "C44", "title": "Blocks see exactly the trees they ask for", "statement": "With zones=..., process_tree is called exactly once, in document order, for every tree whose zone is selected (and, with if_empty_tree=skip/delete, that has some words), and for no other; with if_empty_tree=delete exactly the empty selected trees disappear.", "quantifier": "every document and parameter setting", "why_tests_cant": "All documents, including deletions during iteration.", "anchors": ["udapi/core/block.py: Block.process_document, process_bundle, _should_process_tree"]}
{"id": "C45", "title": "Reading in parts neither loses nor reorders nor splits sentences", "statement": "With bundles_per_doc=k, concatenating the documents produced by successive reads gives all trees of the input in order, each exactly once, every document has at most k bundles, and trees of one bundle stay in one bundle.", "quantifier": "every input sequence of trees and every k", "why_tests_cant": "A state machine over a stream with a one-tree buffer; all streams.", "anchors": ["udapi/core/basereader.py: BaseReader.process_document, filtered_read_tree, try_fast_load"]}
{"id": "C46", "title": "Each input file is processed once, in order", "statement": "Calling next_filename repeatedly returns the files in the given order, each once, and then always None; has_next_file is true exactly if the next call returns a file; number_of_files counts them; entries of a @filelist are taken relative to the list's directory unless absolute.", "quantifier": "every list of files", "why_tests_cant": "All lists.", "anchors": ["udapi/core/files.py: Files"]}
{"id": "C47", "title": "Writers give stdout back", "statement": "After any sequence of documents handled by a writer, sys.stdout is the stream it was before, every file opened for output is closed, and files are written in the given order.", "quantifier": "every sequence of documents and file settings", "why_tests_cant": "All sequences.", "anchors": ["udapi/core/basewriter.py: BaseWriter.before_process_document, after_process_document"]}
{"id": "C48", "title": "Whitespace tokenisation is reversible", "statement": "Tokenising a sentence with tokenize.OnWhitespace and detokenising with compute_text gives the sentence with white space runs normalised to one space and trimmed.", "quantifier": "every text", "why_tests_cant": "All strings.", "anchors": ["udapi/block/tokenize/onwhitespace.py: OnWhitespace.process_tree", "udapi/core/node.py: Node.compute_text"]}
{"id": "C49", "title": "SpaceAfter restored from text reproduces the text", "statement": "If ud.SetSpaceAfterFromText processes a tree without reporting a mismatch, compute_text of the tree gives back root.text.", "quantifier": "every text and tokenisation", "why_tests_cant": "All strings.", "anchors": ["udapi/block/ud/setspaceafterfromtext.py: SetSpaceAfterFromText.process_tree", "udapi/core/node.py: Node.compute_text"]}
{"id": "C50", "title": "steal_nodes moves words between trees", "statement": "After target.steal_nodes(nodes), both trees are well formed, the target's words are its old words followed by the moved ones in word order, the source keeps the others, edges among moved words and among kept words are preserved, and multi-word tokens of moved words belong to the target.", "quantifier": "every pair of trees and every non-empty list of nodes of one of them", "why_tests_cant": "All selections, including cut edges and multi-word tokens.", "anchors": ["udapi/core/root.py: Root.steal_nodes"]}
{"id": "C51", "title": "flatten attaches everything to the root and resets relations", "statement": "root.flatten() leaves a tree with the same words in the same order in which every word depends on the root with deprel 'root'.", "quantifier": "every well-formed tree", "why_tests_cant": "All trees.", "anchors": ["udapi/core/root.py: Root.flatten"]}
{"id": "C52", "title": "Segmentation loses no text", "statement": "Joining the sentences produced by segment.Simple with single spaces (or, with keep_spaces, concatenating them) gives back the input text.", "quantifier": "every text and every boundary decision", "why_tests_cant": "All strings and heuristics.", "anchors": ["udapi/block/segment/simple.py: Simple.segment_string"]}
{"id": "C53", "title": "util.Split partitions a document", "statement": "The documents produced by util.Split, concatenated, are the input document's bundles in order; with bundles_per_doc=k all but the last have k bundles; with parts=n there are n of them.", "quantifier": "every document length, n and k", "why_tests_cant": "Rounding makes the number of parts depend on the length in a way samples miss.", "anchors": ["udapi/block/util/split.py: Split.process_document"]}
{"id": "C54", "title": "ud.RemoveMwt removes all multi-word tokens", "statement": "After ud.RemoveMwt a tree has no multi-word tokens.", "quantifier": "every tree", "why_tests_cant": "Trees with any number of multi-word tokens; the list is edited while being iterated.", "anchors": ["udapi/block/ud/removemwt.py: RemoveMwt.process_tree", "udapi/core/mwt.py: MWT.remove"]}
{"id": "C55", "title": "get(key, default) and setdefault honour the default", "statement": "On a FEATS/MISC object, d.get(k, default) returns the default when k is absent, and d.setdefault(k, default) stores the default when k is absent; for a present k both return the stored value.", "quantifier": "every reachable FEATS/MISC object, every key, every default", "why_tests_cant": "The behaviour is inherited from collections.abc and depends on __getitem__ raising KeyError, for every key and every state; a test sees one key.", "anchors": ["udapi/core/dualdict.py: DualDict.__getitem__ (inherited Mapping.get, MutableMapping.setdefault)"]}
{"id": "C56", "title": "Removing a node twice is harmless", "statement": "Calling node.remove() (in any mode) on a node that has already been removed by node.remove() does not raise and leaves the tree as it is.", "quantifier": "every well-formed tree, every word, every pair of modes", "why_tests_cant": "the second call goes through the stale slots of a detached node; whether these ever reach the live tree depends on all shapes of the tree", "anchors": ["udapi/core/node.py: Node.remove"]}
{"id": "C57", "title": "The technical root is never among the words", "statement": "No shift call on the technical root (shift_after_node, shift_before_node, shift_after_subtree, shift_before_subtree, with or without children) changes the list of words of the tree.", "quantifier": "every well-formed tree, every reference node, all parameters", "why_tests_cant": "the inherited methods run index arithmetic with ord 0; negative indices silently hit the end of the list for every tree size", "anchors": ["udapi/core/root.py: Root.shift", "udapi/core/node.py: Node._shift_before_ord"]}
{"id": "C58", "title": "Filtering a node list does not change it", "statement": "Calling a list of nodes obtained from node.children or node.descendants, e.g. nodes(add_self=True), any number of times gives the same answer each time and leaves the list as it was.", "quantifier": "every node list and every sequence of calls with any of add_self, preceding_only, following_only", "why_tests_cant": "Tests call a fresh list once; the effect shows only when the same list object is called again.", "anchors": ["udapi/core/node.py: ListOfNodes.__call__"]}
{"id": "C59", "title": "Removing an empty node renumbers only its neighbours at the same place", "statement": "After removing an empty node, the remaining empty nodes keep their order and each still follows the same word; ids stay distinct from the ids of words.", "quantifier": "every tree and every empty node in it", "why_tests_cant": "The range of ids that is renumbered depends on the decimals of all empty nodes in the sentence; it goes wrong only for particular combinations around a word boundary.", "anchors": ["udapi/core/node.py: EmptyNode.remove"]}
{"id": "C60", "title": "Enhanced dependencies keep pointing at the same nodes when the tree changes", "statement": "When words are inserted, removed or moved, the enhanced dependencies of every node keep pointing at the same nodes, and raw_deps shows their new ids.", "quantifier": "every list of enhanced dependencies and every change of word order", "why_tests_cant": "Depends on whether deps was ever accessed before the change, i.e. on the history of calls, and on every possible renumbering.", "anchors": ["udapi/core/node.py: Node.raw_deps, Node.deps, Node.remove, Node._shift_before_ord"]}
{"id": "C61", "title": "Automatically assigned bundle ids are unique", "statement": "Every bundle made by create_bundle gets an id that no other bundle of the document has, also after bundles were removed or given other ids.", "quantifier": "every history of create_bundle, remove and bundle_id assignments", "why_tests_cant": "Invariant over histories; collisions need particular ids assigned before a later creation.", "anchors": ["udapi/core/document.py: Document.create_bundle", "udapi/core/bundle.py: Bundle.bundle_id"]}
{"id": "C62", "title": "The last sentence of a file needs no empty line after it", "statement": "A CoNLL-U file whose last line ends with a newline but is not followed by an empty line is read like the same file with the empty line.", "quantifier": "every file made of sentence blocks", "why_tests_cant": "The outcome depends on the way the last block ends; the tests use files with the empty line.", "anchors": ["udapi/block/read/conllu.py: Conllu.read_trees, Conllu.read_tree_from_lines"]}
{"id": "C63", "title": "Reading a file one sentence at a time gives the same sentences as reading it at once", "statement": "The sentences read by repeated read_tree (bundles_per_doc, split_docs, sent_id_filter) are those that read_trees finds in the same text.", "quantifier": "every text made of sentence blocks, comment blocks and empty lines", "why_tests_cant": "Two algorithms have to agree on every text; the difference shows only for files with additional empty lines or blocks without words.", "anchors": ["udapi/block/read/conllu.py: Conllu.read_trees, Conllu.read_tree", "udapi/core/basereader.py: BaseReader.process_document"]}
{"id": "C64", "title": "Blocks without words are skipped", "statement": "A block of comment lines without any word is skipped wherever it stands in the file.", "quantifier": "every file made of blocks with and without words", "why_tests_cant": "Depends on the position of the block.", "anchors": ["udapi/core/basereader.py: BaseReader.try_fast_load", "udapi/block/read/conllu.py: Conllu.read_trees"]}
{"id": "C65", "title": "max_docs reads exactly the first documents", "statement": "With max_docs=n the sentences read are those before the (n+1)-st sentence that starts a document; if there are at most n documents, all sentences are read.", "quantifier": "every file made of sentence blocks and every n", "why_tests_cant": "All files and limits; the failing cases need additional empty lines or a missing last empty line.", "anchors": ["udapi/block/read/conllu.py: Conllu.read_trees", "udapi/core/basereader.py: BaseReader.try_fast_load"]}
{"id": "C66", "title": "Comment lines of unset attributes are left out", "statement": "write.Conllu leaves out the lines of attributes that are not set (newdoc, newpar, global.Entity) and, with print_sent_id=0, the lines of sent_id, newdoc and newpar, and writes everything else.", "quantifier": "every tree and every order of its comment lines", "why_tests_cant": "Depends on which comment is the first line of the sentence.", "anchors": ["udapi/block/write/conllu.py: Conllu.process_tree"]}
{"id": "C67", "title": "print_text=0 leaves out the text", "statement": "With print_text=0 write.Conllu prints no text comment and nothing in its place.", "quantifier": "every tree", "why_tests_cant": "All trees, including those whose text comment was read from a file.", "anchors": ["udapi/block/write/conllu.py: Conllu.process_tree"]}
{"id": "C68", "title": "Only the comment named sent_id sets the sentence id", "statement": "A comment with another name leaves sent_id alone and is kept as a comment.", "quantifier": "every comment line", "why_tests_cant": "All comment names; the failing ones start with sent_id.", "anchors": ["udapi/block/read/conllu.py: RE_SENT_ID, Conllu.parse_comment_line"]}
{"id": "C69", "title": "Comments are written back as they were read", "statement": "Reading the comment lines of a sentence and writing them again gives the same lines in the same order.", "quantifier": "every list of comment lines in the usual form", "why_tests_cant": "All orders of metadata and free comments.", "anchors": ["udapi/block/read/conllu.py: Conllu.parse_comment_line", "udapi/block/write/conllu.py: Conllu.process_tree"]}
{"id": "C70", "title": "Multi-word tokens keep the spacing of the text", "statement": "Creating a multi-word token from words and removing one leave it unchanged whether a space follows the last of the words, and leave other words alone.", "quantifier": "every tree, every list of words, with or without earlier multi-word tokens over them", "why_tests_cant": "Depends on every combination of old tokens, old SpaceAfter values and the MISC given to the new token.", "anchors": ["udapi/core/root.py: Root.create_multiword_token", "udapi/core/mwt.py: MWT.remove"]}
{"id": "C71", "title": "Evaluation blocks write their result to the file given", "statement": "After eval.F1, eval.Parsing and the CoNLL evaluation blocks have finished, the result is in the file given by `files`, the file is closed, and sys.stdout is what it was before.", "quantifier": "every number of documents and every setting of `files`", "why_tests_cant": "Depends on the number of documents and on the destination; tests print to standard output.", "anchors": ["udapi/core/basewriter.py: BaseWriter.before_process_document", "udapi/core/basewriter.py: BaseWriter.after_process_document", "udapi/block/eval/f1.py: F1.process_end", "udapi/block/eval/parsing.py: Parsing.process_end"]}
{"id": "C72", "title": "max_docs with split_docs reads the first documents whole", "statement": "Reading a file sentence by sentence with split_docs and max_docs=m gives the first m documents of the file, all of them complete.", "quantifier": "every file of documents marked by newdoc, every m", "why_tests_cant": "The document counter is changed in three places of the reading loop; which of them run depends on all documents before.", "anchors": ["udapi/core/basereader.py: BaseReader.process_document"]}
{"id": "C73", "title": "Reading gives no empty documents", "statement": "If no input file is empty, none of the documents read is empty.", "quantifier": "all lists of files, all values of bundles_per_doc", "why_tests_cant": "Depends on divisibility of the number of sentences by bundles_per_doc.", "anchors": ["udapi/core/basereader.py: BaseReader.process_document", "udapi/core/basereader.py: BaseReader.is_multizone_reader"]}
{"id": "C74", "title": "Documents do not mix files", "statement": "Without `merge`, all sentences of a document come from the same file.", "quantifier": "all lists of files, all values of bundles_per_doc", "why_tests_cant": "Depends on what is left in the buffer at the end of a file.", "anchors": ["udapi/core/basereader.py: BaseReader.process_document"]}
{"id": "C75", "title": "Sentences without an id get a bundle id of their own", "statement": "A sentence read without sent_id is put into a new bundle whose id is assigned by the document and is not the id of another bundle read.", "quantifier": "all files, in which any of the sentences may lack ids", "why_tests_cant": "All mixtures of sentences with and without ids.", "anchors": ["udapi/core/basereader.py: BaseReader.process_document"]}
{"id": "C76", "title": "Both ways of loading give the same documents", "statement": "Loading the sentences of a file at once (try_fast_load) and reading them one by one give the same documents with the same bundles.", "quantifier": "all lists of files, with and without merge and max_docs", "why_tests_cant": "Two separate implementations of the same loop; they have to agree on every input.", "anchors": ["udapi/core/basereader.py: BaseReader.try_fast_load", "udapi/core/basereader.py: BaseReader.process_document"]}
{"id": "C77", "title": "The mentions of a document can be listed", "statement": "doc.coref_mentions gives all mentions of the document, whatever sentences and zones they are in.", "quantifier": "every document with mentions, in one or more zones", "why_tests_cant": "The comparison raises only for certain pairs of mentions; all pairs of sentences and zones have to be covered.", "anchors": ["udapi/core/document.py: Document.coref_mentions", "udapi/core/coref.py: CorefMention.__lt__", "udapi/core/node.py: Node.precedes"]}
{"id": "C78", "title": "Coreference entities are strictly ordered", "statement": "The order used to sort the entities of a document is a strict order, and incomparable entities have the same id.", "quantifier": "all triples of entities, with and without mentions", "why_tests_cant": "Transitivity over all triples, including entities without mentions.", "anchors": ["udapi/core/coref.py: CorefEntity.__lt__"]}
{"id": "C79", "title": "Words, mentions and entities agree about each other", "statement": "After any calls, a mention is in word.coref_mentions exactly when the word is in mention.words, and in entity.mentions exactly when entity is mention.entity; no list has a mention twice; removing a mention takes it out of all lists.", "quantifier": "all sequences of creating, removing and changing mentions, rejected calls included", "why_tests_cant": "All histories of calls; the links are kept in three places and updated by five functions.", "anchors": ["udapi/core/coref.py: CorefMention.__init__, words, span, head, entity, remove", "udapi/core/coref.py: CorefEntity.create_mention"]}
{"id": "C80", "title": "The mentions of an entity are listed in document order", "statement": "entity.mentions is sorted after any calls.", "quantifier": "all sequences of creating, removing and changing mentions", "why_tests_cant": "All histories of calls; only some of them sort the list again.", "anchors": ["udapi/core/coref.py: CorefMention.words, span, entity", "udapi/core/coref.py: CorefEntity.create_mention, mentions"]}
{"id": "C81", "title": "Rejected calls on mentions change nothing", "statement": "If create_mention, or an assignment to words, span or head, raises an exception, all mentions, words and entities are as before.", "quantifier": "every reachable state and every rejected call", "why_tests_cant": "All states and all ways a call can fail.", "anchors": ["udapi/core/coref.py: CorefMention.__init__, words, span, head", "udapi/core/coref.py: CorefEntity.create_mention"]}
{"id": "C82", "title": "Every mention has a head among its words", "statement": "After any calls, a mention that belongs to an entity has at least one word and its head is one of its words.", "quantifier": "all sequences of calls", "why_tests_cant": "All histories of calls.", "anchors": ["udapi/core/coref.py: CorefMention.words, span, head"]}
{"id": "C83", "title": "Extra attributes of mentions survive writing and reading", "statement": "The items of mention.other are the same after the mention was stored in the MISC attribute Entity and loaded again.", "quantifier": "every mention and all calls on mention.other", "why_tests_cant": "All names and values, including those that contain characters of the notation or are named as one of its fields.", "anchors": ["udapi/core/coref.py: store_coref_to_misc, load_coref_from_misc, OtherDualDict"]}
{"id": "C84", "title": "compute_text detokenises the tokens of the tree", "statement": "compute_text() is the forms of token_descendants joined with a space, except after tokens with SpaceAfter=No and except for trailing white space; with use_mwt=False it is the same for the words. token_descendants has every multi-word token and every word outside of one exactly once.", "quantifier": "every tree whose multi-word tokens cover consecutive words", "why_tests_cant": "All trees, with multi-word tokens anywhere.", "anchors": ["udapi/core/node.py: Node.compute_text", "udapi/core/root.py: Root.token_descendants"]}
{"id": "C85", "title": "Tokenisers can keep all white space", "statement": "With keep_spaces=1 the text of the tree is the concatenation of SpacesBefore, forms, and SpacesAfter or a space or nothing, after unescaping.", "quantifier": "every text and both tokenisers", "why_tests_cant": "All strings.", "anchors": ["udapi/block/tokenize/onwhitespace.py: OnWhitespace.process_tree", "udapi/block/tokenize/simple.py: Simple.tokenize_sentence"]}
{"id": "C86", "title": "Segmentation gives every bundle its own id and its position", "statement": "After segment.Simple the bundle ids of the document are distinct if they were before, and bundle.number is the position of the bundle in the document.", "quantifier": "every document", "why_tests_cant": "All documents, zones and ids.", "anchors": ["udapi/block/segment/simple.py: Simple.process_document"]}
{"id": "C87", "title": "transform.Flatten attaches all words to the root or to the first word", "statement": "transform.Flatten keeps the words and their order, leaves a well-formed tree in which every word depends on the root with deprel 'root', or with oneroot the first word depends on the root and all others on it with deprel 'dep', and changes no other tree.", "quantifier": "every well-formed tree", "why_tests_cant": "All trees.", "anchors": ["udapi/block/transform/flatten.py: Flatten.process_tree", "udapi/core/node.py: Node.parent"]}
{"id": "C88", "title": "ud.FixPunctChild leaves punctuation without children", "statement": "ud.FixPunctChild keeps words and their order, leaves a well-formed tree and attaches every word to its nearest ancestor whose relation is not punct, so that punctuation has no children; other trees do not change.", "quantifier": "every well-formed tree and all relations (the relation of the root is not punct)", "why_tests_cant": "Chains of punctuation of any length and all orders of words.", "anchors": ["udapi/block/ud/fixpunctchild.py: FixPunctChild.process_node", "udapi/core/node.py: Node.parent"]}
{"id": "C89", "title": "ud.FixChain leaves no chains of one relation", "statement": "After ud.FixChain no word has the same relation, one of the given, as its parent; words, their order and other trees do not change and the tree is well formed.", "quantifier": "every well-formed tree, all relations and lists of relations", "why_tests_cant": "Chains of any length in any word order.", "anchors": ["udapi/block/ud/fixchain.py: FixChain.process_node"]}
{"id": "C90", "title": "After ud.FixRoot exactly one word has the relation root and depends on the root", "statement": "ud.FixRoot accepts every tree; after it exactly one word depends on the root and exactly this word has the relation root or a subtype of it; the other former children of the root depend on it with the relation parataxis; nothing else changes.", "quantifier": "every well-formed tree and all relations", "why_tests_cant": "Any number of children of the root and any relations.", "anchors": ["udapi/block/ud/fixroot.py: FixRoot.process_tree"]}
{"id": "C91", "title": "ud.FixMultiSubjects leaves at most one subject per node", "statement": "After ud.FixMultiSubjects every node has at most one child that is a subject and not an outer one; exactly the later subjects get another relation.", "quantifier": "every well-formed tree and all relations", "why_tests_cant": "Any number of children with any relations.", "anchors": ["udapi/block/ud/fixmultisubjects.py: FixMultiSubjects.process_node"]}
{"id": "C92", "title": "ud.FixLeaf moves the children of function words to the nearest content word", "statement": "ud.FixLeaf attaches every word that depends on a function word and may not to its nearest ancestor that is no function word; all other words keep their parents, and the tree stays well formed with the same words in the same order.", "quantifier": "every well-formed tree, all relations and duplicate-free lists of relations", "why_tests_cant": "Chains of function words of any length.", "anchors": ["udapi/block/ud/fixleaf.py: FixLeaf.process_node"]}
{"id": "C93", "title": "After ud.FixRightheaded no head follows its dependent", "statement": "After ud.FixRightheaded no word with one of the given relations precedes its parent; words and their order do not change and the tree is well formed.", "quantifier": "every well-formed tree, all relations and lists of relations", "why_tests_cant": "Any number of dependents in any word order.", "anchors": ["udapi/block/ud/fixrightheaded.py: FixRightheaded.process_node"]}
{"id": "C94", "title": "transform.Proj makes trees projective", "statement": "After transform.Proj the tree is projective; words and their order do not change, words whose edges are projective keep their parents, the others depend on one of their former ancestors and are marked in MISC with the relation of their former parent exactly if they moved.", "quantifier": "every well-formed tree, both lifting orders", "why_tests_cant": "All trees; counterexamples need five words in a special order.", "anchors": ["udapi/block/transform/proj.py: Proj.process_tree", "udapi/core/node.py: Node.is_nonprojective"]}
{"id": "C95", "title": "The bridging links of a mention are a list", "statement": "mention.bridging behaves as a list of links owned by the mention: links inserted, replaced and deleted through it are those of the mention, no other mention changes, links to the entity of the mention itself are rejected without effect, and looking at it changes nothing.", "quantifier": "every sequence of calls", "why_tests_cant": "All sequences of reads and edits; links are lost only when an empty list is read twice.", "anchors": ["udapi/core/coref.py: CorefMention.bridging", "udapi/core/coref.py: BridgingLinks.insert"]}
{"id": "C96", "title": "Selecting bridging links by relation returns the matching links and changes nothing", "statement": "mention.bridging(regex) returns the links whose relation matches and leaves the links of all mentions as they are.", "quantifier": "every state and every regular expression", "why_tests_cant": "All sets of links and patterns.", "anchors": ["udapi/core/coref.py: BridgingLinks.__call__", "udapi/core/coref.py: BridgingLinks.__init__"]}
{"id": "C97", "title": "Bridging links written to MISC are read back as the same links", "statement": "The links of all mentions that start at a word are written to Bridge in MISC and read back as links of the same mentions with the same targets and relations, in sorted order.", "quantifier": "every list of mentions, links, ids and relations", "why_tests_cant": "All ids, relations and nestings of mentions.", "anchors": ["udapi/core/coref.py: BridgingLinks.from_string", "udapi/core/coref.py: BridgingLinks.__str__", "udapi/core/coref.py: store_coref_to_misc"]}
{"id": "C98", "title": "Storing coreference drops exactly the references to entities without mentions", "statement": "When coreference is stored in MISC, links to entities without mentions are deleted, all others stay in order, and what is stored can be read.", "quantifier": "every list of links", "why_tests_cant": "All positions of links to entities without mentions.", "anchors": ["udapi/core/coref.py: BridgingLinks._delete_targets_without_mentions", "udapi/core/coref.py: store_coref_to_misc"]}
{"id": "C99", "title": "Split antecedents written to MISC are read back", "statement": "The split antecedents of entities are written to SplitAnte in MISC and read back as the same antecedents in the same order.", "quantifier": "every list of entities and antecedents", "why_tests_cant": "All ids and lists of antecedents.", "anchors": ["udapi/core/coref.py: store_coref_to_misc", "udapi/core/coref.py: load_coref_from_misc"]}
{"id": "C100", "title": "util.JoinSentence joins exactly the marked sentences and loses nothing", "statement": "After util.JoinSentence every sentence with the given MISC attribute is appended to the sentence before; words, word order and edges stay, all trees are well formed, the attribute is removed, and empty nodes are kept. Joining by sent_id does the same for one sentence.", "quantifier": "every document with one tree per bundle and every choice of marked words", "why_tests_cant": "All trees, chains of joined sentences and positions of the attribute.", "anchors": ["udapi/block/util/joinsentence.py: JoinSentence.process_document", "udapi/core/root.py: steal_nodes", "udapi/core/bundle.py: remove"]}
{"id": "C101", "title": "util.SplitSentence splits exactly before the marked words and loses nothing", "statement": "After util.SplitSentence every sentence is cut exactly before the words with the given MISC attribute, or before the given word; words and word order stay, all trees are well formed and have words, every word keeps its parent if that is in the same sentence and otherwise is attached to the root, words attached to the root of a split sentence have the relation root, the attribute is removed, and the call ends.", "quantifier": "every document with one tree per bundle, every choice of marked words and every misc_value", "why_tests_cant": "All trees and positions of split points, also several per sentence and in several sentences.", "anchors": ["udapi/block/util/splitsentence.py: SplitSentence.process_document", "udapi/block/util/splitsentence.py: SplitSentence.make_zeros_roots", "udapi/core/root.py: steal_nodes"]}
{"id": "C102", "title": "After util.SplitSentence bundle numbers increase along the document", "statement": "After util.SplitSentence a later bundle has a larger number than an earlier one, so that precedes orders words of different sentences by their position.", "quantifier": "every document and every choice of split points", "why_tests_cant": "All positions of split sentences.", "anchors": ["udapi/block/util/splitsentence.py: SplitSentence.process_document", "udapi/core/document.py: create_bundle", "udapi/core/node.py: precedes"]}
{"id": "C103", "title": "segment.Merge joins exactly the sentences after a semicolon and loses nothing", "statement": "After segment.Merge every sentence that follows a sentence ending with a semicolon is appended to it; words, word order and edges stay, all trees are well formed, empty nodes are kept, bundles are numbered by their positions, and nothing is raised.", "quantifier": "every document and all forms", "why_tests_cant": "All trees, forms and chains of merged sentences.", "anchors": ["udapi/block/segment/merge.py: Merge.process_document", "udapi/block/segment/merge.py: Merge.should_merge_bundles", "udapi/core/root.py: steal_nodes"]}
{"id": "C104", "title": "ud.JoinToken joins exactly the words it can join and keeps the text", "statement": "After ud.JoinToken a word with the given MISC attribute (and value) has become part of the word before it if neither is in a multi-word token and there is no space between them; a word that stays has the forms of its group put together in order and the SpaceAfter of the last of them; parents and relations are those of one word of the group; the tree is well formed and its text is unchanged. A marked word that cannot be joined keeps the attribute and gets a Bug that names the reason; nothing is raised.", "quantifier": "every well-formed tree, all multi-word tokens, all attributes and spaces, chains of joined words of every length", "why_tests_cant": "All trees, also those in which the first of the joined words depends on a later one, and all chains.", "anchors": ["udapi/block/ud/jointoken.py: JoinToken.process_node", "udapi/core/node.py: Node.prev_node", "udapi/core/node.py: Node.compute_text", "udapi/core/node.py: Node.remove"]}
{"id": "C105", "title": "Discontinuous mentions written to MISC are read back as the same mentions", "statement": "Storing mentions of one or more continuous parts as brackets with part numbers (eid[1/2]) in the MISC attribute Entity and loading them again gives the same mentions with the same words, heads and attributes.", "quantifier": "every set of mentions of any nesting and any number of parts", "why_tests_cant": "All interleavings of parts of several mentions; the loader pairs the parts by their order only.", "anchors": ["udapi/core/coref.py: store_coref_to_misc, load_coref_from_misc, RE_DISCONTINUOUS"]}
{"id": "C106", "title": "corefud.MergeSameSpan leaves one mention for every set of words", "statement": "After corefud.MergeSameSpan no two mentions with a word in the tree have the same words (with same_entity_only: no two of one entity); for every mention there was, one with the same words is left, and its entity has the same or a smaller id; all other mentions keep words, head and entity, and the lists of mentions of words and entities are exactly those of the mentions left. Nothing is raised. An entity that loses its only mention stays in the document without mentions, and its other mentions are not moved to the other entity.", "quantifier": "every state reached by calls of the API, every order of the set of mentions, all entity ids", "why_tests_cant": "All groups of mentions with the same words, of any number of entities, in all orders of a set.", "anchors": ["udapi/block/corefud/mergesamespan.py: MergeSameSpan.process_tree", "udapi/core/coref.py: CorefMention.words"]}
{"id": "C107", "title": "corefud.FixInterleaved merges interleaved mentions and loses no mention", "statement": "After corefud.FixInterleaved no two mentions of the tree are interleaved or crossing (as far as the parameters ask for it); the mentions left are unions of the mentions there were, so that every word of a mention is in a mention of the same entity; nothing is raised and the links between words, mentions and entities agree.", "quantifier": "every state reached by calls of the API, every order of the set of mentions, all parameters", "why_tests_cant": "All configurations of three and more mentions and all orders of a set.", "anchors": ["udapi/block/corefud/fixinterleaved.py: FixInterleaved.process_tree", "udapi/core/coref.py: CorefMention.words"]}
{"id": "C108", "title": "corefud.IndexClusters numbers the entities of all documents consecutively", "statement": "After corefud.IndexClusters on a series of documents the entities have ids made of the prefix and consecutive numbers from start, unique across the documents and in the order of the entities; the keys of the dicts are the ids; a prefix with a forbidden character is rejected.", "quantifier": "every series of documents with any number of entities, every prefix and start", "why_tests_cant": "All numbers of documents and entities, also documents without entities; uniqueness is across all of them.", "anchors": ["udapi/block/corefud/indexclusters.py: IndexClusters.process_document", "udapi/core/coref.py: CorefEntity.eid, CorefEntity.__lt__"]}
{"id": "C109", "title": "corefud.RemoveNoCorefEntities removes the entities and their mentions", "statement": "After corefud.RemoveNoCorefEntities the document has exactly the entities whose id does not start with NOCOREF, no word lists a mention of a removed entity, and a file written afterwards has no mention of a removed entity.", "quantifier": "every state reached by calls of the API and all ids", "why_tests_cant": "All sets of entities, mentions and ids.", "anchors": ["udapi/block/corefud/removenocorefentities.py: RemoveNoCorefEntities.process_document", "udapi/core/coref.py: store_coref_to_misc"]}
{"id": "C110", "title": "corefud.Link2Cluster makes the connected components of the antecedent links", "statement": "After corefud.Link2Cluster two nodes are in one entity exactly if they are connected by antecedent links, every node is in at most one entity and the mentions of an entity are in word order; the block fails exactly if a node is reached from itself along its antecedents. Every entity of the document has mentions.", "quantifier": "every document and all ids and antecedents, also cataphoric and unknown ones", "why_tests_cant": "All graphs of links and all orders in which entities are created, extended and merged.", "anchors": ["udapi/block/corefud/link2cluster.py: Link2Cluster.process_document", "udapi/core/document.py: create_coref_entity"]}
{"id": "C111", "title": "corefud.Delete with empty=1 removes empty nodes and keeps the words connected to the root", "statement": "corefud.Delete with empty=1 ends on every enhanced graph. Afterwards no word depends on an empty node; words without a full stop in DEPS are unchanged; if the technical root could be reached from every word along enhanced dependencies, it can be reached from every word through words only. A word that cannot reach the root without empty nodes gets exactly the dependencies of the chains of empty nodes above it, and the root for a cycle of empty nodes. No word becomes its own enhanced parent and every word keeps at least one.", "quantifier": "every enhanced graph with cycles and every order of words", "why_tests_cant": "All graphs: cycles of empty nodes, words on cycles with empty nodes, and dependencies rewritten before they are followed.", "anchors": ["udapi/block/corefud/delete.py: Delete.is_root_reachable_by_deps, _deps_ignore_nodes, process_document"]}
{"id": "C112", "title": "corefud.MoveHead picks a highest word of the mention", "statement": "corefud.MoveHead sets the head of every mention to one of its words; if the words form a treelet of the basic tree it is the root of that treelet; unless enhanced dependencies form a cycle, the basic parent of the head is outside the mention; in the categories treelet and gappy (without enhanced dependencies) the head governs all words; a second run changes nothing; the block does not fail.", "quantifier": "every mention, basic tree, enhanced dependencies and previous head", "why_tests_cant": "All trees and mentions with gaps, empty nodes and cycles in enhanced dependencies.", "anchors": ["udapi/block/corefud/movehead.py: MoveHead.find_head, process_coref_mention"]}
{"id": "C113", "title": "ud.FixPunct attaches punctuation projectively", "statement": "ud.FixPunct keeps the words and their order, leaves one word below the root with the relation root (the only word with this relation), attaches every PUNCT word projectively and without children, the other words to their nearest ancestors that are not PUNCT, and both marks of a pair around a subtree to the head of that subtree; a second run changes nothing and the block does not fail.", "quantifier": "every dependency tree, tagging and forms", "why_tests_cant": "All trees and all positions of punctuation; the filter for one mark must not be spoilt by the marks attached later.", "anchors": ["udapi/block/ud/fixpunct.py: FixPunct.process_tree, _fix_subord_punct, _fix_paired_punct, _fix_pair, _will_be_projective"]}
{"id": "C114", "title": "eval.Conll18 and eval.Conll17 count what they say", "statement": "For gold and predicted trees, only words with the same lowercased form are aligned, in the same order, each at most once; UAS counts the aligned words whose parents correspond (root to root or aligned words) and that were not rehanged, LAS also requires the same universal relation, CLAS restricts LAS to content words of the gold tree, BLEX also requires the lemma and MLAS the part of speech, the universal features (in any order) and corresponding function words; hence AllTags ≤ UPOS, MLAS and BLEX ≤ CLAS ≤ LAS ≤ UAS ≤ Words and all precisions, recalls, F1 scores and aligned accuracies lie between 0 and 1; LAS is perfect exactly when the forms, parents and universal relations agree and no word was rehanged; a tree evaluated against itself is perfect in every metric; Conll17 counts the same UAS and LAS.", "quantifier": "every list of pairs of predicted and gold trees, every lowercasing", "why_tests_cant": "All pairs of trees with different tokenization.", "anchors": ["udapi/block/eval/conll18.py: Conll18.process_tree, _morpho_match, _ufeats, process_end, prec_rec_f1", "udapi/block/eval/conll17.py: Conll17.process_tree"]}
{"id": "C115", "title": "eval.Conll18 print_raw prints the numbers of the metric", "statement": "For each metric listed in the documentation of print_raw, the four numbers printed for the sentences (predicted, gold, aligned, correct) add up to the numbers from which process_end computes the score of that metric; the alignment is as long as possible.", "quantifier": "every list of pairs of trees, every documented metric", "why_tests_cant": "All documents; a wrong key of a Counter silently gives 0.", "anchors": ["udapi/block/eval/conll18.py: Conll18.__init__, process_tree"]}
{"id": "C116", "title": "util.MarkDiff marks nothing exactly when the trees are the same", "statement": "A word is marked exactly when no word of the other tree is the same in an unchanged part with a corresponding parent; the other words keep their Mark with add=1 and have none with add=0; with mark_attr=0 no Mark changes. With add=0 no word of the predicted and gold tree carries Mark after util.MarkDiff exactly when the strings joined from the compared attributes are the same word by word and, unless ignore_parent is set, so are the parents; the comment is added to both trees exactly when the numbers of words differ; ADD-WORD minus DELETE-WORD of the statistics is the difference of the numbers of words.", "quantifier": "every pair of trees, all parameters", "why_tests_cant": "All pairs of trees; a difference must not stay unnoticed.", "anchors": ["udapi/block/util/markdiff.py: MarkDiff.process_tree"]}
{"id": "C117", "title": "util.MarkDiff sees differences of attributes and aligns one-to-one", "statement": "Words with different values of a compared attribute or with different parents are marked; the stored alignment is one-to-one, the documented align=1 stores it, and marks of earlier comparisons with the same gold tree are kept.", "quantifier": "every pair of trees, all parameters", "why_tests_cant": "Needs values containing underscores, replaced parts of different lengths, or several predicted zones.", "anchors": ["udapi/block/util/markdiff.py: MarkDiff.process_tree"]}
{"id": "C118", "title": "util.ResegmentGold gives the pred zone the gold sentences", "statement": "After util.ResegmentGold each bundle has one pred tree whose tokens have exactly the characters of the gold tree, and no token is lost, changed or moved; if the two zones do not contain the same characters, ValueError is raised.", "quantifier": "every gold and pred segmentation and tokenization", "why_tests_cant": "All pairs of segmentations: sentences joined, split, joined and split again.", "anchors": ["udapi/block/util/resegmentgold.py: ResegmentGold.process_document"]}
{"id": "C119", "title": "ResegmentGold.choose_root leaves one root by its preferences", "statement": "After choose_root exactly one word depends on the root: a former child of a root if there is one among the children, with the form of the gold subroot if possible and then closest to it; the other children depend on it and are marked as rehanged, and nothing else changes; it is marked as rehanged only if it was no child of a root before.", "quantifier": "every reachable tree, all forms and former roots, every gold tree", "why_tests_cant": "All trees with several roots.", "anchors": ["udapi/block/util/resegmentgold.py: ResegmentGold.choose_root"]}
{"id": "C120", "title": "The drawing of write.TextModeTrees determines the tree", "statement": "In the output of write.TextModeTrees each node has one symbol in its row, a horizontal line leads from it to the left to a corner, and a vertical line from the corner leads to the symbol of its parent; no other edges can be read in the drawing. So two sentences printed equally have the same tree.", "quantifier": "every tree including non-projective ones and trees with empty nodes, every indent, every layout, every order in which the stack is sorted", "why_tests_cant": "All trees: crossing edges, rows with other attributes in between, several open subtrees.", "anchors": ["udapi/block/write/textmodetrees.py: TextModeTrees.process_tree"]}
{"id": "C121", "title": "write.TextModeTrees counts the gaps of subtrees", "statement": "_compute_gaps keeps for each node the number of printed nodes between the leftmost and the rightmost node of its subtree that do not belong to the subtree.", "quantifier": "every tree and every node", "why_tests_cant": "All trees, with subtrees interleaved in any way.", "anchors": ["udapi/block/write/textmodetrees.py: TextModeTrees._compute_gaps"]}
{"id": "C122", "title": "ud.ComplyWithText makes the tokens comply with the text", "statement": "If ud.ComplyWithText logs no warning, then afterwards the forms and SpaceAfter of the tokens give the original text (with its white space normalised), so the text is not edited. With fix_text the text of the result always is the text of its tokens, and if it was edited, the text before is kept in a comment; without fix_text neither the text nor the comments change.", "quantifier": "every sentence, every text, all parameters", "why_tests_cant": "All pairs of a text and tokens, with every alignment difflib can give.", "anchors": ["udapi/block/ud/complywithtext.py: ComplyWithText.process_tree, solve_diffs, solve_diff, _nodes_to_chars"]}
{"id": "C123", "title": "The differences solved by ud.ComplyWithText start at tokens", "statement": "merge_diffs raises no exception, and each difference it returns starts with the first character of a token, except for an insertion, which can only be the first difference, at the beginning of the sentence; the differences marked as equal have equal characters on both sides. unspace_diffs raises IndexError exactly if difflib reports a deletion at the end of the text.", "quantifier": "every list of tokens with forms that are not empty and have no white space at their ends, every text", "why_tests_cant": "All alignments given by difflib.", "anchors": ["udapi/block/ud/complywithtext.py: ComplyWithText.unspace_diffs, merge_diffs"]}
{"id": "C124", "title": "ud.ComplyWithText deletes only punctuation and adds only what its parameters permit", "statement": "Whatever the text is, and also if warnings are logged: the old tokens, together with the words of new multi-word tokens, stay in their order; an old token stays, or becomes a word of a new multi-word token, or it was punctuation and allow_delete_punct is on; a new token is a multi-word token over 2 to max_mwt_length neighbouring words, or punctuation with allow_add_punct, or with allow_goeswith a part of an old token.", "quantifier": "every sentence whose forms are not empty and have no white space at their ends, every text, all parameters, every run without an exception", "why_tests_cant": "All pairs of a text and tokens, with every alignment difflib can give.", "anchors": ["udapi/block/ud/complywithtext.py: ComplyWithText.process_tree, solve_diffs, solve_diff"]}
{"id": "C125", "title": "split_docs gives the documents of the files", "statement": "With split_docs and no other limits, each document read is the sequence of sentences from one newdoc mark to the next one or to the end of the file.", "quantifier": "all files, all sentences, with and without merge", "why_tests_cant": "All divisions of all files.", "anchors": ["udapi/core/basereader.py: BaseReader.process_document"]}
{"id": "C126", "title": "sent_id_filter keeps exactly the matching sentences and the document marks", "statement": "With sent_id_filter exactly the sentences of a file whose sent_id matches are read, in their order; the first one of each document has the newdoc of the document even if the sentence with the mark was skipped, and no other sentence has one. With split_docs the documents are those of the file restricted to the matching sentences, without those that have none.", "quantifier": "every file, every filter", "why_tests_cant": "All files and all filters.", "anchors": ["udapi/core/basereader.py: BaseReader.filtered_read_tree, process_document"]}
{"id": "C127", "title": "ud.AddMwt keeps the tokens and the text", "statement": "Whatever analyses the subclass returns, after ud.AddMwt the tokens of the tree (token_descendants) have the same forms and the same spaces as before, and compute_text is the same; every word is in exactly one token, and only tokens have SpaceAfter=No.", "quantifier": "all trees whose words are those of their tokens, all analyses (that do not put SpaceAfter=No in MISC of a word), all rules for letter case", "why_tests_cant": "All trees, analyses and numbers of words; nodes that already belong to a multi-word token.", "anchors": ["udapi/block/ud/addmwt.py: AddMwt.process_node", "udapi/core/root.py: Root.create_multiword_token, token_descendants"]}
{"id": "C128", "title": "ud.AddMwt makes exactly the words of the analysis", "statement": "For a node with an analysis, the words of the analysis stand in the place of the node in their order: the main one is the node itself with its parent, the other ones are new nodes below the node or below its parent; each has the documented values (* is the original value, also inside FEATS), upper case like the original. All other words and tokens stay. Exceptions are raised exactly for an invalid main, an empty form or too few values. No MISC attribute is both at a word and at the token.", "quantifier": "all trees, nodes and analyses", "why_tests_cant": "All analyses with all attributes, positions of the main word and stars.", "anchors": ["udapi/block/ud/addmwt.py: AddMwt.process_node, multiword_analysis"]}
{"id": "C129", "title": "ud.SetSpaceAfter marks exactly the documented spaces, sentence by sentence", "statement": "For each tree, SpaceAfter=No is added exactly at the tokens that end with a word of not_after or an opening quote, or are followed by a word of not_before or a closing quote, unless the next word is goeswith: at the multi-word token if the word is its last word, nowhere if it is another word of one. No SpaceAfter=No is removed, nothing else changed. “ closes a quotation in sentences with „ and opens one in other sentences; no other sentence has influence on it.", "quantifier": "all blocks (lists), all documents, all trees with multi-word tokens", "why_tests_cant": "All numbers and positions of quotes; all sequences of sentences (the lists of the block are changed by each sentence).", "anchors": ["udapi/block/ud/setspaceafter.py: SetSpaceAfter.process_tree, mark_no_space, is_goeswith_exception"]}
{"id": "C130", "title": "ud.JoinAsMwt makes multi-word tokens of exactly the longest groups and keeps the text", "statement": "The longest groups of neighbouring words that belong to no multi-word token, have no space and letters at each boundary become multi-word tokens (two or more words): the form is the forms together, SpaceAfter=No is that of the last word, the words lose SpaceAfter and get back their OrigForm. Everything else stays. compute_text is the same, every word is in exactly one token, and a second run changes nothing.", "quantifier": "all trees, all definitions of letters, both values of revert_orig_form", "why_tests_cant": "All lengths of groups and sequences of calls, each of which sees the tokens made before.", "anchors": ["udapi/block/ud/joinasmwt.py: JoinAsMwt.process_node", "udapi/core/root.py: Root.create_multiword_token"]}
{"id": "C131", "title": "ud.SplitUnderscoreTokens divides words into their parts and keeps tokens valid", "statement": "Each word with underscores (except the word _) whose lemma has the same number of them is replaced by its parts: the first part is the node itself, the other ones are new nodes below it with the same UPOS and XPOS and the documented deprel, in their order, and SpaceAfter=No is at the last part. All other words stay. The text is the old one with spaces instead of these underscores, and each word belongs to exactly one token.", "quantifier": "all trees, all options", "why_tests_cant": "All numbers and positions of underscores and words, multi-word tokens.", "anchors": ["udapi/block/ud/splitunderscoretokens.py: SplitUnderscoreTokens.process_node, deprel_for"]}
{"id": "C132", "title": "util.Filter keeps exactly the words it is asked to keep, in their order and below their nearest kept ancestor", "statement": "delete_subtree deletes exactly the words that are, or are below, a word with a true expression; the others keep order and parents. keep_subtree keeps exactly the words that are, or are below, such a word, and their parents within the kept subtrees. keep_node keeps exactly the words with a true expression, each attached to its nearest kept ancestor. A tree without any word to be kept is removed, trees are removed by delete_tree, delete_tree_if_node, keep_tree and keep_tree_if_node exactly under the documented conditions, no other tree changes, and if several parameters are given, they are evaluated in their order.", "quantifier": "all trees, all expressions (for delete_subtree those that do not depend on the rest of the tree)", "why_tests_cant": "All shapes of trees and sets of words; subtrees are deleted inside of deleted subtrees, words are rehanged several times.", "anchors": ["udapi/block/util/filter.py: Filter.process_tree", "udapi/core/node.py: Node.remove"]}
{"id": "C133", "title": "After ud.GoeswithFromText the computed text is the stored text", "statement": "If the stored text consists of the forms of the tokens up to spaces, then after the block compute_text gives the stored text (up to the number of spaces between words). Words that are written with spaces in the text are divided: the parts together are the form, the first one is the node itself, the others are new nodes below it with the same UPOS and XPOS and the relation goeswith; everything else stays up to SpaceAfter. A tree whose text differs in other characters is not changed. No exception is raised.", "quantifier": "all trees, all texts, both values of keep_lemma", "why_tests_cant": "All positions of spaces within and between forms; the loop consumes two copies of the text in parallel.", "anchors": ["udapi/block/ud/goeswithfromtext.py: GoeswithFromText.process_tree"]}
{"id": "C134", "title": "ud.FixAdvmodByUpos leaves no relation with a wrong UPOS, and keeps the others", "statement": "After the block no word has one of the relations advmod, expl, aux, cop, case, mark, cc, det, nummod, punct with a part of speech that the block considers wrong for it (advmod only with ADV, aux and cop only with AUX, punct only with PUNCT, ...). All other words keep their relations, and a second run changes nothing.", "quantifier": "all well-formed trees, all relations and parts of speech", "why_tests_cant": "Nine relations with subtypes times all parts of speech; the new relation must be right in each case.", "anchors": ["udapi/block/ud/fixadvmodbyupos.py: FixAdvmodByUpos.process_node"]}
{"id": "C135", "title": "ud.FixCompoundName makes names flat unless they contain digits", "statement": "Proper nouns attached as compounds to a proper noun become a flat name: the first word takes the place of the head, the others depend on it with flat:name. Names with digits are left alone. The words and their order stay, other words keep parents and relations, and no exception is raised.", "quantifier": "all well-formed trees, all relations, parts of speech and positions of digits", "why_tests_cant": "The head may be anywhere in the name, the name may be part of another one, and reattaching must not produce cycles.", "anchors": ["udapi/block/ud/fixcompoundname.py: FixCompoundName.process_node"]}
{"id": "C136", "title": "ud.FixPseudoCop turns copulas with the given lemmas into verbs", "statement": "A word with one of the given lemmas that is attached as cop (or aux, with noncopaux) takes the place of its parent: it gets its head and relation and the tag VERB, the parent becomes its xcomp, and the dependents of the parent that belong to the clause move to it. After the block no word with the given lemmas is attached as a copula. No exception is raised.", "quantifier": "all well-formed trees, all lemmas, both values of noncopaux", "why_tests_cant": "Several copulas in one tree influence each other; reattachment must not produce cycles.", "anchors": ["udapi/block/ud/fixpseudocop.py: FixPseudoCop.process_node"]}
{"id": "C137", "title": "ud.FixMwtSpace removes multi-word tokens with spaces seamlessly", "statement": "The block removes exactly those multi-word tokens whose form has a space and consists of the forms of their words with single spaces between them. Words and other tokens stay, and so does the text of the tree.", "quantifier": "all trees whose words are divided into tokens", "why_tests_cant": "Any number of tokens, with any SpaceAfter attributes at tokens and words.", "anchors": ["udapi/block/ud/fixmwtspace.py: FixMwtSpace.process_node", "udapi/core/mwt.py: MWT.remove"]}
{"id": "C138", "title": "ud.Basic2Enhanced gives every node without DEPS its basic dependency", "statement": "After the block every node has enhanced dependencies. Those that had none have exactly one, their basic parent and relation; the others keep theirs. If every word that had its own DEPS can be reached from the root in the enhanced graph, every word can.", "quantifier": "all well-formed trees, all states of the two DEPS slots, all empty nodes", "why_tests_cant": "The column is stored in two forms (string and list) that may or may not be computed, and reachability depends on all nodes.", "anchors": ["udapi/block/ud/basic2enhanced.py: Basic2Enhanced.process_tree", "udapi/core/node.py: Node.raw_deps, Node.deps"]}
{"id": "C139", "title": "ud.AddPunctType sets PunctType and PunctSide exactly for the listed punctuation", "statement": "After the block a word has PunctType (PunctSide) exactly if it is tagged PUNCT and its form is in the table of types (sides), with the value of the table. Members of a pair have the same type and opposite sides. Other features stay, a second run changes nothing, and words that are not punctuation are written as before.", "quantifier": "all states of FEATS (string or dict), all forms and tags", "why_tests_cant": "FEATS may be stored as a string or as a dict, with any other features.", "anchors": ["udapi/block/ud/addpuncttype.py: AddPunctType.process_node", "udapi/core/dualdict.py: DualDict.__setitem__, __delitem__"]}
{"id": "C140", "title": "ud.SetTranslation gives each sentence its line as the comment text_en", "statement": "The k-th sentence gets the k-th line of the file as its comment text_en: the line is added after the existing comments, or replaces the existing translation if overwrite is set. The other comments and the sentences without a line are written as before.", "quantifier": "all comments, all files, all numbers of sentences", "why_tests_cant": "Comments are one string with line breaks; the line read from the file still has its line break.", "anchors": ["udapi/block/ud/settranslation.py: SetTranslation.process_tree", "udapi/block/write/conllu.py: comment lines"]}
{"id": "C141", "title": "OrdTuple, float and int ords are totally ordered by position", "statement": "For all pairs of ords of words, of the first nine empty nodes after a word (floats) and of later ones (OrdTuple), < and == are the order and the equality of their positions; so they form a total order in which nine is followed by ten. The string of an OrdTuple is read as the same OrdTuple, and the constructor refuses strings that should be floats.", "quantifier": "all ords", "why_tests_cant": "Nine combinations of types, with reflected comparison methods made by functools.total_ordering.", "anchors": ["udapi/core/node.py: OrdTuple"]}
{"id": "C142", "title": "node.get_attrs: depth, direction, edge length, counts; one value per name", "statement": "depth is the number of steps to the technical root; dir and edge say on which side of the parent the word is, and how far; children and siblings are the numbers of words with this (the same) parent. get_attrs gives one value for each requested name.", "quantifier": "all trees that edits can make, all nodes, all lists of names", "why_tests_cant": "Depth and counts range over trees of any shape.", "anchors": ["udapi/core/node.py: Node._get_attr, Node.get_attrs"]}
{"id": "C143", "title": "corefud.SingleParent leaves an empty node with the dependencies on one parent", "statement": "An empty node with several enhanced dependencies keeps exactly those on one of its parents; a word among the parents is chosen, and no other word among them is higher in the tree. If one of these words governs all the others, it is the one. Nodes with at most one dependency stay as they are, and a second run changes nothing.", "quantifier": "all well-formed trees, all lists of dependencies", "why_tests_cant": "Depends on the shape of the whole tree and on all lists of parents, including repeated ones.", "anchors": ["udapi/block/corefud/singleparent.py: SingleParent.process_tree", "udapi/core/coref.py: find_minimal_common_treelet"]}
{"id": "C144", "title": "demo.RehangPrepositions puts each preposition above its parent", "statement": "The block ends without an exception, keeps the words and their order and a well-formed tree. Each preposition ends up above its former parent, below the words that were above the parent; dominance among the other words stays the same.", "quantifier": "all well-formed trees, all tags", "why_tests_cant": "Later moves start from the tree changed by the earlier ones; several prepositions may have the same parent.", "anchors": ["udapi/block/demo/rehangprepositions.py: RehangPrepositions.process_node"]}
{"id": "C145", "title": "corefud.FixToValidate: the relation root exactly below the technical root, a space at the end of each paragraph", "statement": "After the block a word has the relation root exactly if it depends on the technical root. Words below the technical root stay there; other words with the relation root get cc, amod, obl or parataxis; all other words keep parents and relations. No sentence before a new document or paragraph ends without a space, and nothing else changes.", "quantifier": "all well-formed trees, all tags and relations, all lists of sentences", "why_tests_cant": "Words below punctuation are moved while the loop runs, so the result depends on the order of the moves in arbitrary trees.", "anchors": ["udapi/block/corefud/fixtovalidate.py: FixToValidate"]}
{"id": "C146", "title": "ud.Convert1to2 makes goeswith and flat structures head-initial", "statement": "After the step for goeswith and flat, every word with one of these relations follows its parent. The leftmost of a head and its goeswith/flat dependents takes over the head's relation and place in the tree; the others depend on it. No exception is raised, the words and their order stay, and a second run changes nothing.", "quantifier": "all well-formed trees, all relations", "why_tests_cant": "Depends on all tree shapes, in particular on several structures that govern each other.", "anchors": ["udapi/block/ud/convert1to2.py: Convert1to2.change_headfinal", "udapi/block/ud/convert1to2.py: Convert1to2.process_tree"]}
{"id": "C147", "title": "ud.Convert1to2 attaches commas and conjunctions to the following conjunct", "statement": "A conjunction, comma or semicolon below the head of a coordination depends afterwards on the next conjunct, if only conjunctions lie between them among the dependents of the head and the word is not before the whole coordination; all other words keep their parents. No exception is raised, and a projective tree stays projective.", "quantifier": "all well-formed trees, all relations and lemmas", "why_tests_cant": "Each step reads the tree changed by the earlier ones; the result is stated on the original tree for all of them at once.", "anchors": ["udapi/block/ud/convert1to2.py: Convert1to2.reattach_coordinations", "udapi/block/ud/convert1to2.py: Convert1to2.process_tree"]}
{"id": "C148", "title": "ud.Convert1to2 turns remnants into conjuncts and orphans", "statement": "In a tree with remnants no word is a remnant afterwards: each becomes a conjunct of the first conjunct or an orphan below such a conjunct. Of the remnants that do not depend on remnants, the one whose correlate has the most important relation (nsubj, obj, iobj, obl, advmod, csubj, xcomp, ccomp, advcl) is promoted and the others depend on it. Other words keep parent and relation; a second run changes nothing; no exception is raised.", "quantifier": "all trees reachable by the editing operations, all relations", "why_tests_cant": "The recursion works on a tree that it changes itself, with chains of any length, and the first conjunct is found by a search over the whole tree.", "anchors": ["udapi/block/ud/convert1to2.py: Convert1to2.fix_remnants_in_tree", "udapi/block/ud/convert1to2.py: Convert1to2._recursive_fix_remnants", "udapi/core/node.py: find_minimal_common_treelet"]}
{"id": "C149", "title": "ud.Convert1to2 converts tags, relations and features of each word", "statement": "After the word-by-word step of the conversion no word has a relation, tag or feature of UD 1: relations are renamed with their subtypes, neg becomes advmod or det according to the part of speech, nmod below a predicate becomes obl, copulas are AUX or PRON, Negative becomes Polarity. All else stays, no exception is raised, and a second run changes nothing, as the class documents.", "quantifier": "all well-formed trees, all annotations with a relation on each word", "why_tests_cant": "Each edit reads annotations of other words, of which some are already converted; the effect depends on the order of the words.", "anchors": ["udapi/block/ud/convert1to2.py: Convert1to2.process_tree", "udapi/block/ud/convert1to2.py: Convert1to2.change_deprel_simple", "udapi/block/ud/convert1to2.py: Convert1to2.change_neg", "udapi/block/ud/convert1to2.py: Convert1to2.change_nmod", "udapi/block/ud/convert1to2.py: Convert1to2.change_feats"]}
{"id": "C150", "title": "add_comment keeps the other comments, fix_text keeps the old text", "statement": "`root.add_comment(t)` adds one line after the lines of the comment and keeps the others. After `fix_text` the text of the tree is the one computed from the words up to white space; a text that differed is kept in the last comment line, otherwise the comment stays; a second run changes nothing.", "quantifier": "all comments, texts and words", "why_tests_cant": "Depends on all line separators and white space characters at the end of a comment.", "anchors": ["udapi/core/root.py: Root.add_comment", "udapi/core/root.py: Root.get_sentence", "udapi/block/ud/convert1to2.py: Convert1to2.fix_text", "udapi/block/write/conllu.py: Conllu.process_tree"]}
{"id": "C151", "title": "mwe.Normalize moves the type of each multi-word expression to its first word", "statement": "After the block every word is annotated with the same numbers of multi-word expressions as before, in the same order; the type stands exactly at the first word of the expression and is the last type that was given to it in the sentence; every annotation can be read again, and a second run changes nothing.", "quantifier": "all sentences and all values of Mwe, including unreadable ones", "why_tests_cant": "Values are free text; expressions overlap, and types are given at any word, repeatedly or not at all.", "anchors": ["udapi/block/mwe/normalize.py: Normalize.collect_mwes", "udapi/block/mwe/normalize.py: Normalize.process_tree"]}
{"id": "C152", "title": "mwe.ToSubDeprels adds the types of the expressions a word shares with its parent", "statement": "The relation of each word is extended by a colon and the type, in lower case and without full stops, of each expression to which both the word and its parent belong, in the order of the word's annotation; all other relations stay, the universal part of every relation stays, and no subtype is empty.", "quantifier": "all sentences, parents, values of Mwe and relations", "why_tests_cant": "Depends on the annotation of two words and on types given anywhere in the sentence.", "anchors": ["udapi/block/mwe/tosubdeprels.py: ToSubDeprels.collect_mwes", "udapi/block/mwe/tosubdeprels.py: ToSubDeprels.process_tree"]}
{"id": "C153", "title": "util.Normalize numbers empty nodes n.1, n.2, ... after the word n", "statement": "With `empty_node_ord` the empty nodes after the word n become n.1, n.2, ... in their order, words keep their numbers, numbers of different nodes differ, numbers that are already like this stay, and a second run changes nothing.", "quantifier": "all sequences of words and empty nodes", "why_tests_cant": "Numbers are decimal fractions, so that it matters how many empty nodes follow one word.", "anchors": ["udapi/block/util/normalize.py: Normalize.process_tree", "udapi/core/node.py: EmptyNode.ord"]}
{"id": "C154", "title": "util.Normalize gives sentences different consecutive ids", "statement": "With any option that asks for it each sentence id is the stem of the file name (if asked for), the prefix, and consecutive numbers from the given start; with sent_id_reset_at_newdoc the numbers restart with 1 at each new document. Ids of different sentences differ.", "quantifier": "all options, prefixes, file names and sequences of bundles", "why_tests_cant": "Numbers run over all sentences, and ids are concatenated from free strings without separators.", "anchors": ["udapi/block/util/normalize.py: Normalize.__init__", "udapi/block/util/normalize.py: Normalize.process_bundle"]}
{"id": "C155", "title": "transform.Deproj moves marked words back, and restores what transform.Proj moved", "statement": "The block raises no exception and keeps the tree well formed with the same words in the same order. Only words with a label move; a word moves to the first word in breadth-first order below its parent and outside its own subtree whose universal relation is the label. After transform.Proj the block restores the parents and the relations. A second run changes nothing.", "quantifier": "all well-formed trees, relations and labels, both places of labels", "why_tests_cant": "The search goes through subtrees of any shape, and other words may be moved before.", "anchors": ["udapi/block/transform/deproj.py: Deproj.process_node", "udapi/block/transform/deproj.py: Deproj.head_strategy", "udapi/block/transform/proj.py: Proj.mark"]}
{"id": "C156", "title": "read.AddText finds the spaces between tokens and the paragraphs in the raw text", "statement": "If the raw text is the sequence of the tokens of the document with white space between them, then after the block a token has SpaceAfter=No exactly if no white space follows it in the text, each sentence gets the text computed from its tokens and these marks, and newpar is set at the first sentence and at each sentence before which an empty line stands. If the block ends without a warning or an exception, then the tokens do stand in the text in this order with only white space between them.", "quantifier": "all documents and raw texts", "why_tests_cant": "Tokens, white space and sentences can be combined in any way; the end of the text is a special position.", "anchors": ["udapi/block/read/addtext.py: AddText.process_document", "udapi/core/node.py: Node.compute_text"]}
{"id": "C157", "title": "Sentences written as plain text are read back", "statement": "What write.Sentences writes, read.Sentences reads back: the same number of sentences with the same texts, and with newdoc=1 and newdoc_if_empty_line=1 the same starts of documents, where the first sentence always starts one. read.Text makes one sentence of each paragraph, with the lines joined by spaces. read.AddSentences gives the k-th line to the k-th tree, leaves the rest of the file to the next document, and raises an exception exactly if there are too few lines.", "quantifier": "all lists of sentences with texts of one line that do not end with stripped characters; all files for read.AddSentences", "why_tests_cant": "The texts and the pattern of empty lines and document starts are unbounded.", "anchors": ["udapi/block/read/sentences.py: Sentences.read_tree", "udapi/block/read/sentences.py: Sentences.after_process_document", "udapi/block/read/text.py: Text.read_tree", "udapi/block/read/addsentences.py: AddSentences.process_document", "udapi/block/write/sentences.py: Sentences.process_tree"]}
{"id": "C158", "title": "Trees written in the VISL-cg format are read back", "statement": "What write.Vislcg writes, read.Vislcg reads without an exception: the same number of trees, in each tree the same words in the same order with the same LEMMA, XPOS, FEATS, DEPREL and parent, and the same multi-word tokens with their forms.", "quantifier": "all lists of trees whose fields contain no line breaks, and no white space in XPOS, FEATS and DEPREL", "why_tests_cant": "The fields, the number of features and the places of multi-word tokens are unbounded.", "anchors": ["udapi/block/write/vislcg.py: Vislcg.process_tree", "udapi/block/write/vislcg.py: Vislcg._node", "udapi/block/read/vislcg.py: Vislcg.read_tree", "udapi/block/read/vislcg.py: Vislcg._node"]}
{"id": "C159", "title": "corefud.FixParentheses adds missing neighbouring parentheses to mentions", "statement": "If a mention contains one parenthesis of a pair and not the other, and the other one stands directly next to the mention, it is added to the mention; nothing else is added, and mentions with balanced parentheses do not change. The words of the mention stay in word order, and exactly the words of a mention have it among their mentions. With mark=1 exactly the added words are marked.", "quantifier": "all trees, lemmas and mentions, also with empty nodes", "why_tests_cant": "Three kinds of parentheses on two sides of any mention interact through the changed list of words.", "anchors": ["udapi/block/corefud/fixparentheses.py: FixParentheses.process_coref_mention", "udapi/core/coref.py: CorefMention.words"]}
{"id": "C160", "title": "The corefud.Mark blocks mark exactly the words of the pairs of mentions they look for", "statement": "MarkNested marks exactly the words of two mentions one of which contains the other, MarkInterleaved those of two disjoint mentions one of which has a word between two words of the other, MarkSameSubSpan those of two mentions with a common longest part without gaps, MarkCrossing the common nodes of two mentions neither of which contains the other; each restricted as the parameters say. The order in which the set of mentions is passed through does not matter. MarkPairs marks exactly the words of the pairs of mentions that have all properties given as only and none given as exclude, and counts each pair once.", "quantifier": "all trees with empty nodes, all lists of mentions in word order, all parameters", "why_tests_cant": "The relations are tested on strings of spans and on the first and last words of mentions of any shape, for all pairs.", "anchors": ["udapi/block/corefud/marknested.py: MarkNested.process_tree", "udapi/block/corefud/markinterleaved.py: MarkInterleaved.process_tree", "udapi/block/corefud/marksamesubspan.py: MarkSameSubSpan.process_tree", "udapi/block/corefud/markcrossing.py: MarkCrossing.process_node", "udapi/core/coref.py: nodes_to_span", "udapi/block/corefud/markpairs.py: MarkPairs.process_tree"]}
{"id": "C161", "title": "corefud.CountGaps counts the sequences of sentences and the paragraphs without mentions", "statement": "The block counts by length the longest sequences of sentences of one document without mentions; their total length is the number of sentences without mentions. It counts by length the paragraphs without mentions.", "quantifier": "all sequences of sentences with any marks of new documents and paragraphs", "why_tests_cant": "Starts of documents and paragraphs, mentions and ends of files can follow each other in any order; the last paragraph has its own code.", "anchors": ["udapi/block/corefud/countgaps.py: CountGaps.process_document"]}
{"id": "C162", "title": "Bugs are added to the MISC attribute Bug once and nothing is lost", "statement": "Adding a bug puts it after the bugs that are there, unless it is there; no other attribute changes; adding the same bugs again changes nothing. check_allowed_features adds exactly the bugs of the features or values that are not allowed, check_required_features those of the missing features. MarkMwtBugsAtNodes adds the bugs of a multi-word token to its words.", "quantifier": "all MISC and FEATS, all tables of allowed and required features, all bugs", "why_tests_cant": "The lists of bugs are packed in one string and taken apart again at each addition.", "anchors": ["udapi/block/util/markmwtbugsatnodes.py: MarkMwtBugsAtNodes", "udapi/block/ud/markfeatsbugs.py: MarkFeatsBugs.bug, check_allowed_features, check_required_features"]}
{"id": "C163", "title": "RemoveMisc, ConcatMentionMisc and util.Mark change exactly the MISC attributes they should", "statement": "RemoveMisc removes exactly the attributes whose names without indices are given. ConcatMentionMisc moves the texts of MentionMisc_ attributes, in their order and with their names, to MentionMisc with the same index, from where they can be read back. util.Mark marks exactly the selected nodes; with add=0 it removes the mark, ToDo and Bug from the others. All other attributes stay.", "quantifier": "all MISC dictionaries, all names and indices, any set of digits", "why_tests_cant": "The dictionary changes while its names are passed through, and several attributes are merged into one.", "anchors": ["udapi/block/corefud/removemisc.py: RemoveMisc.process_tree", "udapi/block/corefud/concatmentionmisc.py: ConcatMentionMisc.process_tree", "udapi/block/util/mark.py: Mark.process_node"]}
{"id": "C164", "title": "corefud.GuessSpan gives a mention the subtree of its head and the empty nodes that belong to it", "statement": "If the head is a word, the new words of the mention are the words of its subtree and those empty nodes inside or at the boundary of the span that have an enhanced parent in the subtree or whose two neighbouring words are in it; they are in word order. If the head is an empty node, the words are the head and the empty nodes between the same two words that have it as an enhanced parent. No empty node between two neighbouring words of the mention is missing, and no word outside the subtree is added.", "quantifier": "all numbers of words, all sets of empty nodes, all enhanced dependencies, all subtrees with or without gaps", "why_tests_cant": "Decimal positions of empty nodes are compared with rounded positions of words at both ends of the span.", "anchors": ["udapi/block/corefud/guessspan.py: GuessSpan.process_coref_mention"]}
{"id": "C165", "title": "util.See prints the most frequent values of the matching nodes with their numbers", "statement": "The counters have the numbers of occurrences of each value among all and among the matching nodes. The printed values are different, sorted by frequency, at most n, with their numbers of occurrences, and no value left out is more frequent than a printed one. The header has the number of different values. The first line has the numbers of trees, nodes, matching nodes and trees with a matching node.", "quantifier": "all sequences of trees and nodes with any values, all n", "why_tests_cant": "The total is kept in the same counter as the values, so it competes with them for the places among the most common ones.", "anchors": ["udapi/block/util/see.py: See.process_tree, process_node, process_end"]}
{"id": "C166", "title": "util.Normalize numbers empty nodes and sentences without holes and sorts FEATS and MISC, without changing what they say", "statement": "With empty_node_ord the empty nodes between two words are numbered 1, 2, 3..., the order of all nodes stays, no two nodes have the same ord, and enhanced dependencies lead to the same nodes as before; a second normalization changes nothing. FEATS and MISC have the same names and values as before, sorted by their names in lower case, so two texts with the same content become equal. Sentence ids are consecutive numbers with the given prefix, all different.", "quantifier": "all trees with any ords of empty nodes (even repeated ones), all enhanced dependencies, all texts of FEATS and MISC, any lower-casing, all sequences of bundles, documents and files", "why_tests_cant": "Dependencies are kept as text with the old ords until they are read; ords are decimal numbers; ids are built of strings that can run into each other.", "anchors": ["udapi/block/util/normalize.py: Normalize.process_bundle, process_tree, process_node"]}
{"id": "C167", "title": "corefud.PrintMentions prints exactly the mentions with the requested properties, highlights exactly their words and leaves no traces", "statement": "A mention is selected iff it has (only) or has not (exclude) each requested property: one word; no gap; no word in a gap; an empty node; at most one word with its head outside (treelet); all children of its words inside (forest), up to punctuation around it and function words of its heads (almost forest). Words with a copula are not tested. The first max_trees selected mentions are printed, each with marks on exactly its own words; the total counts all selected mentions. A treelet that is a forest is the subtree of one word. After printing, no word has a Mark.", "quantifier": "all trees, all mentions with sorted words of the tree, all values of the parameters, all entities, all existing marks", "why_tests_cant": "The tests are nested loops with exceptions inside; marks of one mention must be gone before the next one is printed; the limit changes what is cleaned up.", "anchors": ["udapi/block/corefud/printmentions.py: PrintMentions._ok, _is_auxiliary_etc, _is_forest, _is_almost_continuous, process_document"]}
{"id": "C168", "title": "The output of write.Sdparse determines the tree", "statement": "Two trees (forms without spaces and not empty, relations without an opening parenthesis, tags without an opening bracket) with the same output have the same words, the same tags and features if these are printed, the same parents and the same relations. Different words have different names in the lines of dependencies.", "quantifier": "all pairs of trees, all forms with slashes and backslashes, all repeated forms, all parameters", "why_tests_cant": "It is about pairs of trees; escaped characters, numbers after repeated forms and separators may run into each other.", "anchors": ["udapi/block/write/sdparse.py: Sdparse.process_tree, _escape, _form, _node"]}
{"id": "C169", "title": "read.Conll with the default columns gives the trees of read.Conllu; the order of columns does not matter", "statement": "For sentences whose IDs are 1, 2, 3, ..., read.Conll with its default parameters gives the same tree as read.Conllu, or the same exception. Columns with known names can be in any order, and columns named _ are ignored.", "quantifier": "all sequences of lines with numbers 1, 2, 3, ..., strict or not, all orders of columns", "why_tests_cant": "The two readers share no code for words; a test compares them on some files, and what is printed afterwards hides the difference in the lists of children.", "anchors": ["udapi/block/read/conll.py: Conll.parse_node_line, read_tree_from_lines", "udapi/core/node.py: Node.create_child"]}
{"id": "C170", "title": "Coreference written by write.OldCorefUD is read by read.OldCorefUD", "statement": "After write.OldCorefUD the MISC attributes of each node determine all mentions with this head: read.OldCorefUD gets the same texts (id, span, type, bridging, split antecedents, other attributes) in the same order, for any number of mentions with one head, and leaves the other attributes in MISC as they were. The texts of bridging links, split antecedents and other attributes are read back as they were. Ids with hyphens get different new ids without hyphens.", "quantifier": "all documents, all numbers of mentions with one head, all ids, all other attributes in MISC", "why_tests_cant": "Indices are added only from the second mention on and the first one is renamed then; tests have at most a few mentions with the same head, and rarely ids with special characters.", "anchors": ["udapi/block/write/oldcorefud.py: OldCorefUD.process_document", "udapi/block/read/oldcorefud.py: OldCorefUD.process_document, _fix_id"]}
{"id": "C171", "title": "Ids that are unique in one newdoc only stay apart across documents and files", "statement": "With GRP in global.Entity, mentions get the same entity exactly if the ids in the file are the same and there is no newdoc between their trees; ids from files loaded later differ from all earlier ones. Storing gives the ids in the file back, so that storing and loading again, after any number of other files, keeps which mentions belong together. FixEntityAcrossNewdoc splits entities exactly at newdoc and restores the header.", "quantifier": "all sequences of trees with or without newdoc, all mentions, all ids, all numbers of documents loaded before", "why_tests_cant": "The number of documents is kept in the module across files, and tests load one file with few documents.", "anchors": ["udapi/core/coref.py: load_coref_from_misc, store_coref_to_misc, CorefEntity.eid_or_grp", "udapi/block/corefud/fixentityacrossnewdoc.py: FixEntityAcrossNewdoc.process_document"]}
{"id": "C172", "title": "Coreference read from CoNLL-2012 files", "statement": "The mentions loaded from a CoNLL-2012 file are exactly the mentions meant by the brackets in its last column: each closing bracket ends the mention of this entity and document that was opened last. This holds whether the brackets of a word are separated by bars or not and for any order of them; files in which a closing bracket matches nothing are rejected. Entities of different documents have different ids.", "quantifier": "all files with any number of words, documents, entities and mentions, nested or crossing", "why_tests_cant": "Closing brackets are moved before opening ones and their order is reversed; whether this keeps the mentions depends on all brackets of a word and on the other words.", "anchors": ["udapi/block/read/conll2012.py: Conll2012.parse_comment_line, parse_node_line", "udapi/core/coref.py: load_coref_from_misc"]}
{"id": "C173", "title": "What ud.MarkBugs reports and marks", "statement": "ud.MarkBugs reports nothing in a sentence exactly if all its tests hold for all words. MISC Bug keeps what it was; all messages reported for a word become items of it, and nothing else is added. A second run changes nothing. The statistics tell how many words have each bug. Copulas are reported unless they have one of the max_cop_lemmas most frequent lemmas.", "quantifier": "all documents, all earlier values of Bug, all choices of tests", "why_tests_cant": "There are about twenty tests, which interact only in the value of Bug, where a message that is part of an earlier one is dropped.", "anchors": ["udapi/block/ud/markbugs.py: MarkBugs.log, process_node, after_process_document"]}
{"id": "C174", "title": "Where segment.Simple ends a sentence", "statement": "segment.Simple ends a sentence between two words exactly if the first ends with . ! or ? (perhaps before one closing quote or bracket), the second begins with a capital letter (perhaps after one opening quote or bracket), and the first is neither an initial of a name such as A. nor an abbreviation of its list, which is of např. and e.g. The sentences of a text are groups of its words, divided exactly there.", "quantifier": "all texts and pairs of words over Unicode", "why_tests_cant": "The pattern for abbreviations has periods that match any character, so that other words are taken for abbreviations and e.g. is not; this depends on the last letters of a word.", "anchors": ["udapi/block/segment/simple.py: Simple.is_boundary, is_nonfinal_abbrev, segment_string"]}
{"id": "C175", "title": "CoNLL-U Plus files are read by their header", "statement": "read.Conllup reads each file with the columns named in its header # global.columns: every attribute of a word is the text of the column of its name, wherever the column is, and columns of other names are in MISC under their capitalized names. With the columns of CoNLL-U the result is that of read.Conll.", "quantifier": "all headers, all lists of names of columns, all lines, sentences and sequences of files", "why_tests_cant": "The names of columns stay in the reader for all further files, and lines of multi-word tokens are read by position; a test with one file in the usual order of columns shows neither.", "anchors": ["udapi/block/read/conllup.py: Conllup.parse_comment_line, parse_node_line", "udapi/block/read/conll.py: Conll.read_tree_from_lines"]}
{"id": "C176", "title": "Words get the analysis that UDPipe gives for them", "statement": "After UDPipe's tag_parse_tree, every word has the head, relation and tags of the parsed word at its position; the words, their order and other trees stay and the tree is well formed. With tag only, the dependencies stay; with parse only, the tags stay. tokenize_tag_parse_tree makes one word for each word that UDPipe found, with its attributes and head. No head that UDPipe returns in a tree is ever rejected as a cycle, in whatever order the heads are set.", "quantifier": "all trees reachable by API calls, all forms, all results of the tagger and parser that are trees", "why_tests_cant": "The heads are set one by one with a setter that rejects cycles, so the question is whether some intermediate state has a cycle; tests with a few sentences and one model cannot cover all shapes of trees, and forms with spaces are rare.", "anchors": ["udapi/tool/udpipe.py: UDPipe.tag_parse_tree, tokenize_tag_parse_tree", "udapi/tool/udpipeonline.py: UDPipeOnline.tag_parse_tree", "udapi/core/root.py: Root.flatten", "udapi/core/node.py: Node.parent"]}
{"id": "C177", "title": "udpipe.Base keeps the bundles of a document", "statement": "After udpipe.Base, every bundle of the document is in it once and in its order. If the sentences are split, the new bundles follow their bundle, have one sentence each in the order of the text, the same zone, and the ids of the bundle with -1, -2, ...; trees of other zones stay. The same holds when a whole document is processed by the web service: each bundle gets the analysis of its own tree. The service is asked to keep the sentences if and only if they are not to be split.", "quantifier": "all documents, zones, parameters of the block, and all results of UDPipe", "why_tests_cant": "Documents with one zone show nothing of the problem; with two zones the output depends on how often each bundle is appended, which needs all numbers of zones and of sentences.", "anchors": ["udapi/block/udpipe/base.py: Base.process_document", "udapi/tool/udpipeonline.py: UDPipeOnline.process_document, tokenize_tag_parse_tree"]}
{"id": "C178", "title": "SetSpaceAfter keeps the text and the words in agreement, also for English and Romanian", "statement": "If the text of a sentence agrees with its words before ud.SetSpaceAfter, ud.en.SetSpaceAfter or ud.ro.SetSpaceAfter, it does so after it (with fix_text). The blocks of the languages remove, in addition to the spaces of the general block, exactly those of their rules: in English before n't and 's, after an opening and before a closing single quote, around hyphens of compounds and between $ and a number; in Romanian before suffixes with a hyphen that are not numbers and after prefixes with a hyphen.", "quantifier": "all sentences, texts, lists of the block, tags and heads of words", "why_tests_cant": "Almost every sentence ends with punctuation, so that the general block has something to mark and the text is computed; only sentences in which the rules of the language alone apply show the difference.", "anchors": ["udapi/block/ud/setspaceafter.py: SetSpaceAfter.process_tree, mark_no_space", "udapi/block/ud/en/setspaceafter.py: SetSpaceAfter.process_tree", "udapi/block/ud/ro/setspaceafter.py: SetSpaceAfter.process_tree"]}
{"id": "C179", "title": "The subspans of a mention are its maximal runs of words", "statement": "The subspans into which a mention is divided when it is written are together the words of the mention in word order; each of them has no gap (empty nodes included) and between two of them there is a node outside the mention. A mention without gap has one subspan without id; otherwise the k-th of n subspans has the id [k/n]. No exception is raised for a mention with words.", "quantifier": "all sentences with empty nodes, all mentions with words in any order without repetition", "why_tests_cant": "The subspans are found by writing the words as text (3-5,7) and reading each part of the text; all positions of gaps and empty nodes matter.", "anchors": ["udapi/core/coref.py: CorefMention._subspans, CorefMentionSubspan.__init__, nodes_to_span, span_to_nodes"]}
{"id": "C180", "title": "Which lines PrintFixed prints, and that the second run finds what the first collected", "statement": "A word with fixed children prints one line with a cell for every word from the head to the last fixed child: form and tag for the head and its fixed children, X for the words between. A word without fixed children prints a line if and only if a known expression of two or more words starts there, and then the shortest one. So an expression without gap that the first run collected is reported in the second run wherever its forms occur without annotation. No exception is raised.", "quantifier": "all sentences, all lists of known expressions, both values of only_forms", "why_tests_cant": "Fixed children may be anywhere, forms may have spaces, and the search depends on all known expressions together (first words, longest length, shortest match).", "anchors": ["udapi/block/ud/printfixed.py: PrintFixed.__init__, PrintFixed.process_node"]}
{"id": "C181", "title": "The counts printed by util.Wc", "statement": "The numbers of trees, words, multi-word tokens, empty nodes and paragraphs are those of the trees in the zones; the number of tokens is the number of words outside multi-word tokens and of multi-word tokens; every document is counted at least once, by its first tree or by its trees with newdoc. The printed line of tab-separated values can be read back, and the printed lines determine all numbers. No exception is raised.", "quantifier": "all documents whose multi-word tokens cover consecutive words, all zones, all counts so far", "why_tests_cant": "Multi-word tokens, zones, newdoc and empty bundles may be combined in any way, and the number of tokens is computed in two different ways.", "anchors": ["udapi/block/util/wc.py: Wc.process_tree, Wc.process_end", "udapi/core/root.py: Root.token_descendants"]}
{"id": "C182", "title": "HTML writers show the texts as they are", "statement": "What a browser shows of a node, of the headers and of a sentence in the HTML written by TextModeTreesHtml and SentencesHtml is the text itself, whatever characters it has.", "quantifier": "all texts and attribute values, marked and unmarked nodes, with and without color", "why_tests_cant": "Any of the characters < > & and quotes may occur anywhere in the texts, also as the names of characters such as &lt;.", "anchors": ["udapi/block/write/textmodetreeshtml.py: TextModeTreesHtml.add_node, colorize_attr, print_headers", "udapi/block/write/textmodetrees.py: TextModeTrees.add_node", "udapi/block/write/sentenceshtml.py: SentencesHtml.process_tree"]}
{"id": "C183", "title": "Which trees of a bundle TextModeTreesHtml prints", "statement": "The printed trees of a bundle are the trees in the zones that have a marked node or comment (all of them without marked_only); with whole_bundle all trees of the bundle if there is such a tree. They are printed in their order. No exception is raised.", "quantifier": "all bundles, all marks, all zones, both values of marked_only and whole_bundle", "why_tests_cant": "Depends on which trees of the bundle are in the zones and on the marks of the trees before.", "anchors": ["udapi/block/write/textmodetreeshtml.py: TextModeTreesHtml.process_bundle", "udapi/block/write/textmodetrees.py: TextModeTrees.should_print_tree"]}
{"id": "C184", "title": "Reading the Corpus of Czech Verse", "statement": "The trees are the verses of the file in their order; the stanzas are the groups that begin with newpar and the poems the groups that begin with newdoc, which is the id of the poem. The words of a tree are the words of the verse, each followed by its punctuation. Reading tree by tree gives the same trees and then reports the end. Files with an empty stanza or poem are read.", "quantifier": "all files, all numbers of poems, stanzas, verses and words, all positions of punctuation", "why_tests_cant": "The numbers of poems, stanzas and verses and the places of punctuation are unbounded.", "anchors": ["udapi/block/read/ccv.py: Ccv.read_tree, Ccv.read_trees"]}
{"id": "C185", "title": "Addresses of nodes and multi-word tokens", "statement": "The address of a node determines the address of its tree and its ord: after the last # is the ord, before it the address of the tree, whatever characters the id of the tree has. Nodes with different ords have different addresses, also empty nodes with more than nine in one gap. The address of a multi-word token is the address of its tree, # and the range of its words.", "quantifier": "all tree addresses, all ords (integers, floats, OrdTuples), all ranges", "why_tests_cant": "Tree ids are arbitrary strings, which may contain # and digits, and ords are unbounded.", "anchors": ["udapi/core/node.py: Node.address, OrdTuple.__str__", "udapi/core/mwt.py: MWT.address"]}
{"id": "C186", "title": "The table of words written by write.Tikz", "statement": "There is a row for each attribute with a cell for each word in order; the cell is the value with the special characters escaped. Different values are printed differently. All rows are equally long, so that the cells of a word are below each other.", "quantifier": "all trees, all lists of attributes, all values", "why_tests_cant": "Values are arbitrary strings, including those that look like escapes, and the number of words is unbounded.", "anchors": ["udapi/block/write/tikz.py: Tikz._tex_escape, Tikz.process_tree"]}
{"id": "C187", "title": "Edges, heights, comments and translations written by write.Tikz", "statement": "The lines of the edges determine the words, their parents and relations, and with enhanced=1 the enhanced graph. Drawn as a tree, each word is one level below its parent and the deepest word is at level 0. Each line of the comment of the tree is a comment of LaTeX. The translation is printed whole in a balanced command.", "quantifier": "all trees, all enhanced graphs, all relations, all comments", "why_tests_cant": "The shapes of trees and graphs and the texts of comments are unbounded.", "anchors": ["udapi/block/write/tikz.py: Tikz._tex_escape, Tikz.process_tree"]}
{"id": "C188", "title": "Mentions as elements of HTML", "statement": "write.CorefHtml prints the words of a sentence in their order, each of them within exactly the elements of the mentions that contain it, larger mentions outside, and words without mention within a separate element. All opened tags are closed, also if mentions cross.", "quantifier": "all sentences, all sets of mentions (nested, crossing, with gaps), both directions of writing", "why_tests_cant": "The number of ways in which mentions nest and cross is unbounded.", "anchors": ["udapi/block/write/corefhtml.py: CorefHtml.process_tree, CorefHtml._start_subspan"]}
{"id": "C189", "title": "Ids and colours in the HTML of coreference", "statement": "The ids of entities are valid for selectors and different for different entities; the id of a mention determines its entity and number and is not the id of another entity. The i-th entity of a type has the i-th colour, modulo the number of colours, so successive entities of a type differ.", "quantifier": "all ids, all numbers of mentions, all lists of entities and types", "why_tests_cant": "Ids are arbitrary strings.", "anchors": ["udapi/block/write/corefhtml.py: _dom_esc, CorefHtml.process_document"]}
{"id": "C190", "title": "Documents in the HTML of coreference", "statement": "The trees are divided into documents before each newdoc and keep their order; the first document is in the page and the i-th one in the file doc<i>, each in one place.", "quantifier": "all sequences of trees with and without newdoc", "why_tests_cant": "The number of trees and documents is unbounded.", "anchors": ["udapi/block/write/corefhtml.py: CorefHtml.process_document"]}
{"id": "C191", "title": "Trees in the JSON of write.Html", "statement": "The values of nodes are read from the page as they are, with quotation marks and backslashes. The links to the first son and the right brother determine the children of each node in their order. All nodes of a page have different ids.", "quantifier": "all trees, all strings as values and ids", "why_tests_cant": "Values are arbitrary strings and the shapes of trees are unbounded.", "anchors": ["udapi/block/write/html.py: Html.print_doc_json, Html.print_node_json, _id, _esc"]}
{"id": "C192", "title": "Trees in the format of Treex", "statement": "A tree is read back from what write.Treex prints: the words, their order, parents and values. All nodes have different ids, also in different trees of a bundle. The language and the selector determine the zone.", "quantifier": "all trees, all values, all zones", "why_tests_cant": "Values are arbitrary strings and the shapes of trees are unbounded.", "anchors": ["udapi/block/write/treex.py: Treex.process_tree, Treex.print_subtree"]}
{"id": "C193", "title": "Numbers of corefud.Stats", "statement": "The columns of corefud.Stats count the entities and mentions they are named after: the numbers of entities and mentions, their lengths, the distributions (which sum up to the totals), mentions with empty words, with gaps and of more treelets, and the UPOS of heads. With per_doc each row is about its own document; otherwise the order of documents does not matter.", "quantifier": "all documents, entities, mentions and parameters", "why_tests_cant": "The number of documents, entities and mentions and their lengths are unbounded.", "anchors": ["udapi/block/corefud/stats.py: Stats.process_document, Stats.after_process_document"]}
{"id": "C194", "title": "Table of corefud.Stats", "statement": "The lines of the header have as many columns as the rows, the rules are under the cells they belong to. The output consists of pages with a header, at most max_rows_per_page rows and a footer; the document begins and ends once.", "quantifier": "all parameters, all numbers of documents", "why_tests_cant": "There are unboundedly many combinations of parameters and documents.", "anchors": ["udapi/block/corefud/stats.py: Stats.process_end, Stats.print_header, Stats.print_footer"]}
{"id": "C195", "title": "Types of entities in corefud.FixCorefUD02", "statement": "Types of entities are harmonised: a type with spec. or gen. before it becomes the same as without, and gstype of all mentions tells the difference; appos is moved to all mentions but the first. Upper case does not matter. Running the block twice is the same as running it once.", "quantifier": "all strings as types, all lists of mentions", "why_tests_cant": "Types are arbitrary strings.", "anchors": ["udapi/block/corefud/fixcorefud02.py: FixCorefUD02.process_document"]}
{"id": "C196", "title": "Bridging relations and the header in corefud.FixCorefUD02", "statement": "Labels of bridging relations are harmonised: the inverse relation gets the prefix i, indirect_ is removed, no hyphen is left, other labels stay; different relations stay different; running twice is the same as once. The header of GUM is replaced without changing which entities are read.", "quantifier": "all strings as labels, all ids and types in brackets", "why_tests_cant": "Labels and ids are arbitrary strings.", "anchors": ["udapi/block/corefud/fixcorefud02.py: FixCorefUD02.process_document", "udapi/core/coref.py: load_coref_from_misc"]}
{"id": "C197", "title": "Shortcuts in the code of util.Eval", "statement": "In the code given to util.Eval, $. is replaced by this. and count_X by self.count[X], token by token; all other code stays as it is.", "quantifier": "all strings as code", "why_tests_cant": "The code is an arbitrary string.", "anchors": ["udapi/block/util/eval.py: Eval.expand_eval_code"]}
{"id": "C198", "title": "What util.Eval executes and what util.FindBug prints", "statement": "util.Eval executes each given code on all its objects in the selected trees, each once and in the order of the document. util.FindBug prints the bundles on which the inspected block fails, as they were before; with first_error_only the first one only and the exception is raised. The block fails on what was printed.", "quantifier": "all documents, all combinations of codes, all blocks as state machines", "why_tests_cant": "Documents and blocks are arbitrary.", "anchors": ["udapi/block/util/eval.py: Eval.process_document, Eval.process_bundle, Eval.process_tree", "udapi/block/util/findbug.py: FindBug.process_document"]}
{"id": "C199", "title": "Mentions printed by corefud.PrintEntities", "statement": "The mentions of an entity are grouped by their forms: each form once, with the number of its mentions and their ranges, by falling counts. The prefix printed is the longest common prefix of the ranges and the ranges can be read back. An entity is printed iff its id matches and it has enough mentions.", "quantifier": "all lists of mentions, all strings as forms and ranges", "why_tests_cant": "The number of mentions and the strings are unbounded.", "anchors": ["udapi/block/corefud/printentities.py: PrintEntities.process_document"]}
{"id": "C200", "title": "Possessives of multiword expressions", "statement": "mwe.Possessives reports each multiword expression on which a possessive depends, tells whether it belongs to the expression and prints the words of the expression with the words depending on it in parentheses.", "quantifier": "all trees, all values of Mwe", "why_tests_cant": "Shapes of trees and values of Mwe are unbounded.", "anchors": ["udapi/block/mwe/possessives.py: Possessives.collect_mwes, Possessives.process_tree"]}
{"id": "C201", "title": "zellig_harris.EnhanceDeps adds exactly the relations of its two rules", "statement": "After the block, the enhanced dependencies of every word are the old ones, unchanged and first, followed by the relations given by two rules, each once and none which was there: a conjunct A of B (B not the technical root) gets B's parent with B's relation; a child C of B with one of the relations subj, subjpass, dobj, iobj, compl gets A with that relation if A has no child with it. A second run changes nothing.", "quantifier": "for every tree, every assignment of relations and every state of the enhanced dependencies", "why_tests_cant": "the relations added for one word depend on those added for others before, and the absence of duplicates is a claim about all orders and old contents", "anchors": ["udapi/block/zellig_harris/enhancedeps.py:55-118"]}
{"id": "C202", "title": "The effective children agree with the secondary dependencies", "statement": "`echildren` of a word are its children and the shared dependents of the coordination to which it belongs, the same as EnhanceDeps adds; `en_verb_mydobj` yields the objects of the participle to the right.", "quantifier": "for every tree and every word", "why_tests_cant": "two functions written separately should agree on every tree", "anchors": ["udapi/block/zellig_harris/enhancedeps.py:6-52", "udapi/block/zellig_harris/queries.py:4-26"]}
{"id": "C203", "title": "msf.Init copies the features and lets phrase features win", "statement": "After msf.Init, MISC of a word has MSFX for every feature X but eight with the value of X, or with the value of PhraseX if there was such an attribute; no PhraseX is left; other attributes are unchanged; the case of a word without one comes from its only adposition, from MISC, from its first modifier with a case, or from its relation, in this order. A second run changes nothing.", "quantifier": "for every word with any features, attributes and children", "why_tests_cant": "attribute names are arbitrary and are read and written in one loop", "anchors": ["udapi/block/msf/init.py:11-53"]}
{"id": "C204", "title": "msf.CreateAbstract, RemoveFunc and NumPhrase move features without losing them", "statement": "A finite verb with agreement features but without a subject, basic or enhanced, gets one abstract subject, which has exactly the verb's agreement features, and the verb loses them; a second run creates nothing. RemoveFunc deletes the MSF attributes of function words only. NumPhrase gives a counted noun the case of its quantifier, of the adposition or of its relation, and does not delete a known case.", "quantifier": "for every tree, every word and every state of MISC", "why_tests_cant": "depends on all combinations of attributes present and absent, and on the state left by the first run", "anchors": ["udapi/block/msf/createabstract.py:13-45", "udapi/block/msf/removefunc.py:11-17", "udapi/block/msf/numphrase.py:11-36"]}
{"id": "C205", "title": "demo.Complexity reports the depth of the tree, of clauses, and all clauses", "statement": "Every word is visited once and gets its distance from the root and the number of finite heads on the way; the maxima printed are the height of the tree and the greatest number of finite heads on a way; the clauses reported are the finite heads, and the same words are taken for heads of clauses when t-units are made.", "quantifier": "for every tree", "why_tests_cant": "a claim about a breadth-first loop on trees of any shape", "anchors": ["udapi/block/demo/complexity.py:217-233"]}
{"id": "C206", "title": "demo.Complexity divides a sentence into t-units", "statement": "A t-unit is a main clause with all its dependent clauses: each main clause gives one, and their words are those of the sentence. `subtree_within_clause` gives the words of the clause in their order.", "quantifier": "for every tree", "why_tests_cant": "a claim about a depth-first loop with a stack on trees of any shape", "anchors": ["udapi/block/demo/complexity.py:143-162", "udapi/block/demo/complexity.py:187-208", "udapi/block/demo/complexity.py:235-237"]}
{"id": "C207", "title": "ud.pt.AddHyphenMwt finds the maximal hyphen compounds", "statement": "The compounds found are stretches of tokens alternating acceptable tokens and hyphens, cannot be continued on either side, share no token, come in the order of the sentence, and cover every hyphen between two acceptable tokens; their tokens at odd places are exactly the hyphens.", "quantifier": "for every sequence of tokens and every choice of acceptable tokens that are no hyphens", "why_tests_cant": "two nested loops moving one index over sentences of any length", "anchors": ["udapi/block/ud/pt/addhyphenmwt.py:9-20"]}
{"id": "C208", "title": "ud.pt.AddHyphenMwt takes only the hyphens out of the tree", "statement": "A compound is joined exactly when it is connected and only its head has children outside; then exactly its hyphens leave the tree and its other words form the multiword token. Otherwise some of its words are marked and nothing is deleted.", "quantifier": "for every tree and every set of words in it", "why_tests_cant": "depends on how the words of a compound hang together in trees of any shape", "anchors": ["udapi/block/ud/pt/addhyphenmwt.py:21-36"]}
{"id": "C209", "title": "Relations are changed in the basic tree and in the enhanced graph at once", "statement": "After es.FixTenerQue.reattach, ru.FixToEst.set_basic_and_enhanced or attach of ca.ElQue the node has the new basic relation; if the old one was among its enhanced relations, the new one is now, and the other enhanced relations are kept. es.FixTenerQue puts the auxiliary in the place of the main verb, distributes its children by their relations, and keeps every node whose basic relation is an enhanced one such a node.", "quantifier": "for every node, every list of enhanced relations and every tree", "why_tests_cant": "depends on arbitrary enhanced relations, also several to one parent", "anchors": ["udapi/block/ud/es/fixtenerque.py:20-47", "udapi/block/ud/ru/fixtoest.py:19-35", "udapi/block/ud/ca/elque.py:102-115"]}
{"id": "C210", "title": "ud.da.FixMultiSubject leaves one subject", "statement": "After the block a predicate has at most one subject. Where it changes something, the predicate had two subjects and keeps exactly one; every child that moves goes to a sibling that is not farther away, counting each comma as ten words; no child is lost.", "quantifier": "for every node with any children and any positions of commas", "why_tests_cant": "depends on all relative positions of children and commas", "anchors": ["udapi/block/ud/da/fixmultisubject.py:15-123"]}
{"id": "C211", "title": "corefud.Gum2CorefUD pairs opening and closing brackets", "statement": "The value of Entity is cut into items without losing anything, and items written one after another are read back unless an opening comes directly before a closing. Every closing item ends one mention of its entity, namely the one opened last; mentions of one entity are apart or nested; the openings are the beginnings of the finished mentions and of those left open. A tree is refused exactly if up to some item an entity is closed more often than opened.", "quantifier": "for every value of Entity and every sequence of items", "why_tests_cant": "a regular expression and a stack on inputs of any length and nesting", "anchors": ["udapi/block/corefud/gum2corefud.py:13-62"]}
{"id": "C212", "title": "corefud.Gum2CorefUD deletes the mentions left open and entities left without mentions", "statement": "A mention that is not closed in its tree is removed from its entity; an entity that loses all its mentions is removed from the document, and no other one is.", "quantifier": "for every state of the entities and every list of mentions left open", "why_tests_cant": "needs trees with errors, and depends on which entity was read last", "anchors": ["udapi/block/corefud/gum2corefud.py:104-111"]}
{"id": "C213", "title": "ud.Google2ud merges words without changing the text", "statement": "When words are merged (goeswith, Turkish ig, affixes), the text of the sentence stays the same and no word hangs on the deleted one.", "quantifier": "for every sentence, every pair of words, every tree and every language setting of the block", "why_tests_cant": "depends on positions, spaces and the shape of the tree for sentences of any length", "anchors": ["udapi/block/ud/google2ud.py:192-194", "udapi/block/ud/google2ud.py:237-288", "udapi/block/ud/google2ud.py:394-400"]}
{"id": "C214", "title": "ud.Google2ud turns heads round and keeps a tree", "statement": "Turning round copulas, Turkish coordination, objects of prepositions and multiword prepositions leaves a tree in which the new head has the place and relation of the old one and the former siblings hang where documented; after the block no acomp or attr is left.", "quantifier": "for every tree, every order of the words and every relation", "why_tests_cant": "loops rewrite the tree while they walk over words found before; trees of any shape", "anchors": ["udapi/block/ud/google2ud.py:184-191", "udapi/block/ud/google2ud.py:209-217", "udapi/block/ud/google2ud.py:290-331", "udapi/block/ud/google2ud.py:442-466"]}
{"id": "C215", "title": "ud.mr.AddFormsInMwt cuts a multiword token into the forms of its words", "statement": "The forms set put together are the form of the token (with an additional character in possessive pronouns); a token that can be cut is cut, for two words in the only possible way and for three with the first part as long as possible; a word that has a form keeps it.", "quantifier": "for every token, every list of words and every choice of words without forms", "why_tests_cant": "regular expressions on strings of any length with several possible cuts", "anchors": ["udapi/block/ud/mr/addformsinmwt.py:14-97"]}
{"id": "C216", "title": "corefud.MiscStats counts the values of MISC and prints the most frequent ones", "statement": "Every attribute, with indices removed, is reported once with the number of its occurrences; of its values at most the given number is printed, each with the number of its occurrences, from the most frequent on, and no value left out is more frequent than a printed one. The numbers of all values add up to the number of the attribute.", "quantifier": "for every sequence of attributes and values and every maximal number of values", "why_tests_cant": "frequencies in data of any size, with ties", "anchors": ["udapi/block/corefud/miscstats.py:25-38"]}
{"id": "C217", "title": "Spurious auxiliaries become the heads of their verbs", "statement": "In ud.kk.FixSpuriousAux, ud.ug.FixSpuriousAux and for the phase verbs of ud.hi.FixAux a listed auxiliary takes the place and relation of its verb, which becomes its xcomp; exactly the children with the relations listed move; the result is a tree, and root is the relation of exactly the words on the technical root if it was so before. After the block no listed auxiliary is left with aux.", "quantifier": "for every tree, every order of the words and any number of auxiliaries", "why_tests_cant": "the loop changes the tree on which the next words are looked at", "anchors": ["udapi/block/ud/kk/fixspuriousaux.py:8-30", "udapi/block/ud/ug/fixspuriousaux.py:8-47", "udapi/block/ud/hi/fixaux.py:46-72"]}
{"id": "C218", "title": "tutorial.RemoveCommas deletes the commas and keeps the rest of the text", "statement": "Afterwards the sentence consists of its words other than commas in their order, and its text is the text before without the commas.", "quantifier": "for every sentence, with any number of commas anywhere", "why_tests_cant": "deletion while walking over positions that shift; spacing around commas", "anchors": ["udapi/block/tutorial/removecommas.py:8-13"]}
{"id": "C219", "title": "tutorial.Parse makes a right chain", "statement": "The block makes every word hang on the next one and the last on the technical root; it ends with an exception exactly if some word hangs on an earlier one. root is the relation of exactly the words on the technical root.", "quantifier": "for every tree over any number of words", "why_tests_cant": "the cycle check runs on a tree that is half changed", "anchors": ["udapi/block/tutorial/parse.py:28-33"]}
{"id": "C220", "title": "ud.bg.RemoveDotAfterAbbr deletes a dot that the text does not have", "statement": "If the text of the sentence agrees with its words, nothing is changed; if it lacks the last of two dots, that word is deleted, so that they agree.", "quantifier": "for every sentence and all spaces in it", "why_tests_cant": "depends on the ends of arbitrary forms and texts", "anchors": ["udapi/block/ud/bg/removedotafterabbr.py:33-37"]}
{"id": "C221", "title": "ud.es.FixExclamation separates exclamation marks and keeps the text", "statement": "A word with an exclamation mark at its beginning or end becomes the word without it and one new word for each mark, directly before or after it and tagged as punctuation. The text of the sentence stays the same, afterwards no word has an exclamation mark glued to it, and a second run changes nothing.", "quantifier": "for every sentence without multiword tokens and any forms and spaces", "why_tests_cant": "arbitrary forms with marks on both sides, and spaces that must move to the new words", "anchors": ["udapi/block/ud/es/fixexclamation.py:8-48"]}
{"id": "C222", "title": "ud.de.FixGSD joins ordinal numbers with their dots and keeps the text", "statement": "The text of the sentence stays the same; afterwards no dot within the sentence stands directly after a number, and every ordinal number in digits is an adjective with its form as lemma and NumType=Ord. The children of a deleted dot move to the number and nothing else moves.", "quantifier": "for every sentence without multiword tokens, with any number of numbers and dots in a row", "why_tests_cant": "words are deleted while the loop runs; dots may follow each other; trees of any shape", "anchors": ["udapi/block/ud/de/fixgsd.py:10-55"]}
{"id": "C223", "title": "ud.gl.To2 turns copulas, prepositions and punctuation round", "statement": "The block leaves a tree in which root is the relation of exactly the words on the technical root. A complement of ser or estar takes the place and relation of its copula, which ends as its cop. Prepositions with case and punctuation have no children afterwards; the child that takes the place is the first of those with the highest preference.", "quantifier": "for every tree and every order of the words", "why_tests_cant": "each step changes the tree and relations on which the later words are looked at", "anchors": ["udapi/block/ud/gl/to2.py:7-63"]}
{"id": "C224", "title": "Missing lemmas are filled in and others kept", "statement": "ud.Lemmatize, ud.zh.Lemmatize and ud.yue.Lemmatize change no lemma that is there (zh: unless told to) and none of a typo; a second run changes nothing. ud.Lemmatize gives exactly the basic forms named in its comments their form as lemma, in lower case but for proper nouns. After zh and yue every word without lemma has one: from the dictionary, for negated and doubled verbs the verb, else the form.", "quantifier": "for all forms, lemmas, tags and features, any lower-casing and dictionary", "why_tests_cant": "a decision over many features, and precedence of and and or", "anchors": ["udapi/block/ud/lemmatize.py:8-44", "udapi/block/ud/zh/lemmatize.py:8-85", "udapi/block/ud/yue/lemmatize.py:8-47"]}
{"id": "C225", "title": "zellig_harris blocks extract contexts", "statement": "zellig_harris.Baseline prints exactly the contexts with a relation in the pool, itself or merged, and children with a preposition, each once; the blocks run with the documented parameters, and an unknown query is reported as such.", "quantifier": "for every pool, every node with any children, all parameters and zones", "why_tests_cant": "the order of parameters passed on to the base class only shows when a tree is visited", "anchors": ["udapi/block/zellig_harris/baseline.py:4-61", "udapi/block/zellig_harris/baseline.py:115-165", "udapi/block/zellig_harris/configurations.py:9-73", "udapi/core/block.py:145-166"]}
{"id": "C226", "title": "Slavic verb phrases list the word and its auxiliaries once, and tenses and moods exclude each other", "statement": "The blocks msf.slavic.Past, Conditional, Present, Imperative, Infinitive and Future list in Phrase the number of the word and of children of it, in ascending order and each once. No word is found both by Past and by Conditional, or both by Present and by Future.", "quantifier": "for every word with any children, features and relations", "why_tests_cant": "the groups of children overlap only for rare combinations of features; each block has its own conditions", "anchors": ["udapi/block/msf/phrase.py:33-73", "udapi/block/msf/slavic/past.py:23-190", "udapi/block/msf/slavic/conditional.py:11-81", "udapi/block/msf/slavic/present.py:11-85", "udapi/block/msf/slavic/imperative.py:11-72", "udapi/block/msf/slavic/infinitive.py:11-81", "udapi/block/msf/slavic/future.py:11-175"]}
{"id": "C227", "title": "The article of a split contraction is hung on a word after it", "statement": "After a Spanish or French contraction was split, postprocess_mwt ends without an exception and leaves a tree in which only the article has moved. The article of a Spanish contraction hangs on a later word; a French one does so unless more words follow it below the preposition. Where the head is looked for, it is the first noun on the way up from the next word, as long as the steps go to the right, else the next word. The Czech variant moves the second word only below the verb above a fixed first word.", "quantifier": "for every tree in which the article has no children, and all forms, tags and relations", "why_tests_cant": "a loop over the heads of an arbitrary tree; ends of sentences", "anchors": ["udapi/block/ud/es/addmwt.py:101-109", "udapi/block/ud/fr/addmwt.py:61-82", "udapi/block/ud/cs/addmwt.py:186-188"]}
{"id": "C228", "title": "es.ElQue hangs relative clauses on their determiner and keeps basic and enhanced relations in step", "statement": "With fix=1 the block ends without an exception and leaves a tree. A determiner before the relative pronoun takes the place of the verb, which becomes its relative clause, and the pronoun stays on the verb. A word whose only enhanced relation agreed with the basic one still has that; words with several enhanced relations keep them.", "quantifier": "for every tree, every pattern of preposition, determiner, pronoun and verb, and any relations", "why_tests_cant": "up to four words are moved one after the other, with a cycle check at each step", "anchors": ["udapi/block/ud/es/elque.py:20-112", "udapi/core/node.py:311-346"]}
{"id": "C229", "title": "msf.slavic.Preprocessor makes the annotation uniform", "statement": "After the block no verb has a case, is passive or lacks a voice, no finite auxiliary lacks a voice, there is no Polarity=Pos and no Mood=Sub, aux:cnd is conditional, and reflexive expl have Reflex=Yes; other words do not get it. The one future auxiliary of a present verb has Tense=Fut and no other tense changes. Genders that are not doubtful stay. A second run changes nothing.", "quantifier": "for every sentence, any order of the words and any annotation", "why_tests_cant": "words change the annotation of their children and read that of their subjects, before or after those are visited", "anchors": ["udapi/block/msf/slavic/preprocessor.py:12-71"]}
{"id": "C230", "title": "ud.id.FixGSD rejoins numerals and reduplications", "statement": "Each call of rejoin_ordinal_numerals, rejoin_decades and merge_reduplication that joins two or three words leaves one word in their place with the space of the last; with a plain hyphen only spaces disappear from the text. There is no exception, the words that hung on the deleted ones hang on the one kept, nothing else moves except that a numeral on its number takes the place of that, and the result is a tree.", "quantifier": "for every sentence without multiword tokens, every tree and any forms", "why_tests_cant": "arbitrary trees between the three words; the setter of parent checks for cycles at every child", "anchors": ["udapi/block/ud/id/fixgsd.py:85-133", "udapi/block/ud/id/fixgsd.py:135-182", "udapi/block/ud/id/fixgsd.py:184-287"]}
{"id": "C231", "title": "de.FixHDT splits every contraction of preposition and article and keeps text and tree", "statement": "Each word that is a listed contraction with PronType=Art becomes a multiword token of two words: a preposition whose form is its lemma up to case, and a form of the article that ends as the contraction does. The other words, the text and the spaces stay, capitalisation is taken over, the result is a tree with the article next to the preposition, or below it for root, conj and reparandum, and a second run changes nothing.", "quantifier": "for every sentence, every letter case of every contraction and every tree", "why_tests_cant": "two chains of patterns that must cover the same contractions in all letter cases; renumbering of arbitrary trees", "anchors": ["udapi/block/ud/de/fixhdt.py:20-109", "udapi/core/root.py:170-191"]}
{"id": "C232", "title": "FixEdeprels maps case-enhanced relations to the listed ones, once and for all", "statement": "In the Lithuanian block each listed marker gets the case of the table whatever case it had, after each of the six relations; everything after an outermost marker is dropped; the prepositions po and už get their own case or the accusative, never nominative or vocative; apart from two corrections the relation before the marker stays, other relations stay, and a second run changes nothing. The loops over the two tables do the same for Czech.", "quantifier": "for every relation, every marker and every case of the adposition", "why_tests_cant": "relations are arbitrary strings; earlier rules can hide later ones", "anchors": ["udapi/block/ud/lt/fixedeprels.py:8-125", "udapi/block/ud/cs/fixedeprels.py:13-33", "udapi/block/ud/cs/fixedeprels.py:341-358", "udapi/block/ud/ru/fixedeprels.py:173-190"]}
{"id": "C233", "title": "demo.Newspeak negates antonyms and prefixes comparatives, once and for all", "statement": "A word with a listed antonym becomes the antonym of opposite polarity in form and tag; comparatives and superlatives of other lemmas get vele or převele before a generated form of the first degree, or stay if there is none. The tag keeps its length and all letters but the polarity, a second run changes nothing, and the only exception is a short tag of a word with an antonym.", "quantifier": "for every word, every tag and every generator of forms", "why_tests_cant": "the generator is an external tool; the tag is changed by position", "anchors": ["udapi/block/demo/newspeak.py:13-67", "udapi/tool/morphodita.py:21-30"]}
{"id": "C234", "title": "es.FixVerbFeats gives non-finite verbs exactly the features of their form", "statement": "Infinitives keep only VerbForm=Inf and are their own lemmas; gerunds keep only VerbForm=Ger; participles have four features, with gender and number from the old features or else from the ending, and participles in -ad- have the infinitive as lemma. All other words stay as they are, and a second run changes nothing.", "quantifier": "for every word, all its features and every mapping of letters to lower case", "why_tests_cant": "forms are infinitely many and the three patterns overlap", "anchors": ["udapi/block/ud/es/fixverbfeats.py:8-37"]}
{"id": "C235", "title": "ud.Google2ud joins prefixes and suffixes with their words without changing the text", "statement": "After the loop over affixes the words that are no prefixes and suffixes remain, in their order and with the spaces after them. The letters of the sentence are the same in the same order, and the text is the same if affixes are written together with their words.", "quantifier": "for every sentence with any sequence of words, prefixes and suffixes", "why_tests_cant": "prefixes and suffixes may follow each other in any number and the loop deletes words it goes over", "anchors": ["udapi/block/ud/google2ud.py:203-204", "udapi/block/ud/google2ud.py:394-403", "udapi/core/node.py:727-743"]}
{"id": "C236", "title": "ga.To2 and FixNeg of Hebrew and Romanian leave no old features and relations", "statement": "After ga.To2 no word has Case=Com, Form=Emph, nmod:prep or nmod:tmod; a non-finite verb is a verbal noun exactly if the word before it is ag and depends on it, else an infinitive; all other features, forms, lemmas and parents stay. Hebrew negative copulas become cop and nothing else changes; no Romanian word has the relation neg. A second run of each block changes nothing, and a note in ToDo goes away exactly when it is solved.", "quantifier": "for every sentence, every word and all features", "why_tests_cant": "a dozen rules act one after the other on the same word and one looks at the word before, which was changed already", "anchors": ["udapi/block/ud/ga/to2.py:12-38", "udapi/block/ud/he/fixneg.py:13-25", "udapi/block/ud/ro/fixneg.py:13-20", "udapi/block/ud/convert1to2.py:94-104"]}
