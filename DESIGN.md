# Formal model of udapi-python: design

Source modelled: `/repo` (udapi-python), read as text only. Nothing in `/repo` is built or run.

## Conventions

* Models are total computable Lean functions over `List`, `Nat`, `Int`, `Option`, `Except`.
  Python exceptions are values; where an exception can leave a partly changed object, the function
  returns the changed state together with the error.
* Python strings are `List Char`. Identity of Python objects is a natural number id.
* Loops whose termination depends on the data get explicit fuel; running out of fuel is a separate
  outcome, and the theorems show that it does not happen in the states they talk about.
* Every definition cites the file and lines it models. A `Simplified:` remark says what is left out.
* `Verif/<Area>/Model.lean` holds the model, `Spec.lean` the specification vocabulary, `Lemmas*.lean`
  helper facts and `Props.lean` the property theorems with a non-vacuity `example` beside each.
* Where the code does not have a property, the file proves the negation on a concrete witness
  (named `..._violated`), and a `_partial` theorem covers the part that does hold.

## Trusted base

* Lean 4.33.0 kernel. Axioms used: at most `propext`, `Classical.choice`, `Quot.sound`.
* The faithfulness of the hand-written models to the Python text (no code is extracted).
* Python built-ins as modelled: list, dict (insertion ordered), stable sort, slicing, `str.split`, `str.join`.

## Plan per property

* **C01 FEATS/MISC behave as a plain mapping.** DualDict as a state (string option, association list); every method a function on it. Abstract spec: a plain finite map. Proof: simulation invariant, induction over call sequences.
* **C02 str(FEATS/MISC) re-parses to the current mapping.** Char-level split/join model of the parser and serializer. Proof: split∘join = id for separator-free pieces, plus stable sort is a permutation.
* **C03 The string form of FEATS/MISC does not depend on edit order.** Stable merge sort by lowered name, lowering an arbitrary function. False when two names differ only by case: witness + `_partial` with the no-collision hypothesis.
* **C04 Looking at FEATS/MISC never changes them.** Same state model; observers return the new state; prove abstraction and printed string unchanged.
* **C05 Extra fields of coreference mentions behave as a plain mapping.** Second state model with ',' ':' and %2C escaping. clear() stores '_' which re-parses as a flag: witness; `_partial` for histories without clear/None.
* **C06 Universal part and subtype of the relation are independent.** deprel as Option string, split at the first ':'. Get/set laws by list lemmas.
* **C07 Every sequence of tree edits leaves a well-formed ordered tree.** Heap of nodes (parent, children, ord, root) plus per-root word list; each method is a function on the heap, with Python exceptions as values. Invariant by induction over reachable histories.
* **C08 A rejected re-attachment changes nothing.** parent setter on a heap with several trees. Same-tree rejections proved atomic; cross-tree move is not: witness.
* **C09 Re-attachment is rejected exactly when it would create a cycle.** iff over well-formed heaps through the ancestor relation.
* **C10 Re-attachment changes exactly one edge.** Frame theorem for the parent setter.
* **C11 create_child adds exactly one word at the end.** Frame theorem for create_child.
* **C12 remove() deletes exactly the subtree.** remove(): both code paths refined to one specification (filter of the word list).
* **C13 remove(children='rehang') deletes exactly one word.** remove(rehang): refined to a filter of the word list and an edge redirection.
* **C14 Word-order shifts land exactly where asked.** The three in-place array loops of _shift_before_ord are modelled loop by loop (List.set on the word list and writes to ord) and refined to `before ++ block ++ after`.
* **C15 Word-order shifts never change the dependency structure.** Frame theorem for the shifts.
* **C16 descendants are exactly the transitive dependents.** Explicit stack loop with fuel; completeness and absence of duplicates from well-formedness; fuel never runs out.
* **C17 add_self / preceding_only / following_only filters.** ListOfNodes.__call__ on sorted lists.
* **C18 prev_node and next_node are inverse.** Index arithmetic on the word list, including Python's negative index rule.
* **C19 is_nonprojective means what its documentation says.** Counting argument: sublist of the span has full length iff equal.
* **C20 is_nonprojective_gap means what its documentation says.** Crossing edge versus subtree span: path induction.
* **C21 find_minimal_common_treelet returns the minimal connected treelet.** Queue loop. Wrong when the root is popped while other components remain: witness; `_partial` for nodes of equal depth.
* **C22 Multi-word tokens never overlap.** State: list of MWTs, words per MWT, mwt per word. Invariant over call histories.
* **C23 token_descendants covers each word exactly once.** Fold over the word list with last_mwt_id.
* **C24 create_empty_child assigns a fresh position right after (before) the node.** ords of empty nodes in tenths (exact arithmetic in place of binary floats). Ten empty nodes at one place raise TypeError: witness; `_partial` below ten.
* **C25 Removing or shifting words keeps empty nodes in place.** Tenths model of the three renumbering loops. Collisions after a shift and overflow past .9: witnesses; `_partial`.
* **C26 raw_deps and deps are two views of the same enhanced dependencies.** Char-level serializer/parser with a node table. Stale raw_deps after emptying deps: witness.
* **C27 Removing an empty node only removes edges from it.** Unpacking a dict yields its key names; modelled literally; witness, `_partial` for graphs without edges from the removed node.
* **C28 Reading any CoNLL-U sentence gives a well-formed tree or an error.** read_tree_from_lines at the level of tab-split columns on the heap model; result is well formed. fix_cycles with a self-loop: witness.
* **C29 Writing and reading back CoNLL-U preserves the tree.** Writer model producing lines, reader model consuming them; round trip.
* **C30 A CoNLL-U file is split into its sentences.** Split on runs of newlines.
* **C31 Sentence metadata survive writing and reading.** Regex of each metadata line as a hand-written matcher.
* **C32 Zones are unique within a bundle.** Bundle state machine; invariant over histories.
* **C33 Tree addresses identify trees.** Same state machine. 'id/' for the empty zone and the rejected self-assignment: witnesses.
* **C34 Bundle numbers follow document order.** List of numbers; invariant over create/remove.
* **C35 New coreference entities get fresh ids.** Search loop over a finite id set; termination by pigeonhole.
* **C36 Mention spans and word lists convert both ways.** Ranges to string and back; decimal printing and parsing.
* **C37 Mentions are strictly ordered.** Lexicographic comparison key.
* **C38 Entity brackets written to MISC are read back as the same mentions.** Bracket serializer and stack-per-entity loader for continuous mentions.
* **C39 find_lcs returns a longest common subsequence.** find_lcs with prefix stripping, DP table and backtracking; optimality against all common sublists.
* **C40 eval.F1 counts are consistent.** focus re-alignment loops with explicit index errors; never raised.
* **C41 eval.Parsing scores are ordered.** Counters over a list of tree pairs.
* **C42 Scenario command lines are parsed faithfully.** Left fold over words.
* **C43 Scenario execution order.** Event trace of Run.execute over an arbitrary schedule of end-of-input answers.
* **C44 Blocks see exactly the trees they ask for.** Event trace of process_document.
* **C45 Reading in parts neither loses nor reorders nor splits sentences.** Stream state machine with buffer. Multi-zone bundles can be split: witness; conservation proved.
* **C46 Each input file is processed once, in order.** Files state machine; @filelist prefix rule inverted: witness.
* **C47 Writers give stdout back.** Writer state machine.
* **C48 Whitespace tokenisation is reversible.** Tokenizer loop and compute_text.
* **C49 SpaceAfter restored from text reproduces the text.** Matching loop and compute_text; both texts have the same words for every accumulator of the splitter. Refuted for white space other than single spaces.
* **C50 steal_nodes moves words between trees.** Invariant of the loop over the nodes, which describes parents, children, ords and roots after any number of them; both trees derived from it. A second store for the multi-word tokens of all trees. Refuted for numbering of the source, and for multi-word tokens of whole trees, of the last word, and of other words.
* **C51 flatten attaches everything to the root and resets relations.** flatten does not set deprel: witness; structure part proved.
* **C52 Segmentation loses no text.** Fold over split tokens.
* **C53 util.Split partitions a document.** Chunking; number of parts can be smaller: witness.
* **C54 ud.RemoveMwt removes all multi-word tokens.** Iteration over a list mutated in the loop body: witness with two tokens; `_partial` for at most one.
* **C55 get/setdefault with a default.** Same state model as C01. Both ignore the default because `__getitem__` never raises: proved for every state; `_partial` for present names.
* **C56 Removing a node twice is harmless.** Same heap as C07; the second call always raises: proved for every tree; `_partial`: it changes nothing.
* **C57 The technical root is never among the words.** Separate list model with Python's negative indices; violated for every tree.
* **C58 Filtering a node list does not change it.** `ListOfNodes.__call__` returns the changed list object together with the result; violated by every node for `add_self`.
* **C59 Removing an empty node renumbers only its neighbours at the same place.** Tenths model; the renumbered range crosses the next word: witness; `_partial` otherwise.
* **C60 Enhanced dependencies keep pointing at the same nodes when the tree changes.** Two environments (before, after); parsed lists follow, unparsed strings go stale: proved for every change that renumbers a parent.
* **C61 Automatically assigned bundle ids are unique.** Same document machine as C34; the counter ignores ids set by hand: witness; `_partial` without them.
* **C62 The last sentence of a file needs no empty line after it.** Same splitter as C30; always an IndexError; `_partial` otherwise.
* **C63 Reading one sentence at a time gives the same sentences as reading at once.** Both loops as functions of the text with the sentence reader as a parameter; the second stops at the first None.
* **C64 Blocks without words are skipped.** First block without words: AttributeError for every file; `_partial` otherwise.
* **C65 max_docs reads exactly the first documents.** Third loop; two kinds of failure; `_partial` for exactly one empty line.
* **C66 Comment lines of unset attributes are left out.** Writer of comments as a state machine over (lines dealt with, lines printed); None as the first line raises.
* **C67 print_text=0 leaves out the text.** Same model; the placeholder stays.
* **C68 Only the comment named sent_id sets the sentence id.** The regular expression has no word boundary: violated for every such name.
* **C69 Comments are written back as they were read.** Reader and writer composed; all lines in the usual form.
* **C70 Multi-word tokens keep the spacing of the text.** `create_multiword_token` with the MISC slots of words and tokens; proved for free words, violated for replaced and removed tokens.
* **C71 Evaluation blocks write their result to the file given.** Same writer machine as C47 with `process_end`.
* **C72 max_docs with split_docs reads the first documents whole.** Same stream machine as C45; the counter is followed document by document: violated for every m > 1.
* **C73 Reading gives no empty documents.** Same machine; readers of one zone return as soon as the document is full.
* **C74 Documents do not mix files.** Same machine; the buffered sentence starts the next document.
* **C75 Sentences without an id get a bundle id of their own.** Same machine; invariant on the id of the last bundle.
* **C76 Both ways of loading give the same documents.** A second model of the loop, `try_fast_load`; both refined to one fold over the sentences.
* **C77 The mentions of a document can be listed.** Same comparison as C37, with zones; it raises for words of different zones.
* **C78 Coreference entities are strictly ordered.** Comparison by the first mentions, then ids; reduced to C37.
* **C79 Words, mentions and entities agree about each other.** A store of mentions with the three kinds of lists; invariant over all histories of calls, rejected ones included, that never empty a mention; refuted for emptied mentions, because a comparison then changes the words (`touch`).
* **C80 The mentions of an entity are listed in document order.** Same store; `insort` and `sort` keep the order, the setter of words does not restore it.
* **C81 Rejected calls on mentions change nothing.** Same store; every function returns the state it leaves behind with its error.
* **C82 Every mention has a head among its words.** Same store; invariant for histories without empty word lists.
* **C83 Extra attributes of mentions survive writing and reading.** `OtherDualDict` of C05 joined with the writer and loader of C38.
* **C84 compute_text detokenises the tokens of the tree.** Both loops skip the words of the last multi-word token; joint induction.
* **C85 Tokenisers can keep all white space.** Tokeniser loop with SpacesBefore and SpacesAfter; refuted for blank texts.
* **C86 Segmentation gives every bundle its own id and its position.** Fold over bundles; ids cut at the last hyphen. Refuted for several zones and for numbers.
* **C87 transform.Flatten attaches all words to the root or to the first word.** Setter of the parent of C08 in two loops.
* **C88 ud.FixPunctChild leaves punctuation without children.** Loop over the words as a fold with exceptions; specification: nearest ancestor that is no punctuation, kept as an invariant of single lifts.
* **C89 ud.FixChain leaves no chains of one relation.** Same loop. Refuted for chains that run from right to left.
* **C90 After ud.FixRoot exactly one word has the relation root and depends on the root.** Refuted for trees without words.
* **C91 ud.FixMultiSubjects leaves at most one subject per node.** Refuted for the root and for relations that are `None`.
* **C92 ud.FixLeaf moves the children of function words to the nearest content word.** Specification as in C88; enhanced dependencies left out.
* **C93 After ud.FixRightheaded no head follows its dependent.** Refuted for chains.
* **C94 transform.Proj makes trees projective.** `is_nonprojective` of C19 inside the loop; specification: no word between a word and its parent that is not below the parent. Refuted in general, proved if no non-projective word is below another one.
* **C95 The bridging links of a mention are a list.** Objects named by numbers; invariant: every mention has its own object. Refuted for objects read while empty.
* **C96 Selecting bridging links by relation returns the matching links and changes nothing.** Refuted for every mention with links.
* **C97 Bridging links written to MISC are read back as the same links.** `split` and `join` of C01; refuted for nested mentions of one entity and for ids with colons.
* **C98 Storing coreference drops exactly the references to entities without mentions.** A loop over a list that is shortened meanwhile, by position. Refuted for two in a row.
* **C99 Split antecedents written to MISC are read back.** As C97; refuted for single antecedents.
* **C100 util.JoinSentence joins exactly the marked sentences and loses nothing.** Fold over the bundles with `steal_nodes` of C50; specification: sentences with flags are concatenated. Refuted for empty nodes and for `sent_id`.
* **C101 util.SplitSentence splits exactly before the marked words and loses nothing.** `steal_nodes` from a tree whose words are not yet numbered from 1 (`WFo`); the loop over the growing list of bundles has fuel, and the theorems say how much suffices. Specification: a list is cut before marked elements. Refuted for first words, empty nodes, an empty `misc_value`, multi-word tokens.
* **C102 After util.SplitSentence bundle numbers increase along the document.** Refuted for documents numbered from 1.
* **C103 segment.Merge joins exactly the sentences after a semicolon and loses nothing.** As C100. Refuted for documents and sentences without words, empty nodes, and numbers.
* **C104 ud.JoinToken joins exactly the words it can join and keeps the text.** On a well-formed tree in which the technical root has no `SpaceAfter=No` and the last word of every multi-word token is a word of the tree: words, forms, `SpaceAfter`, parents, relations, text and bug reports after the block. Refuted: a marked first word is not reported as such, because `prev_node` of the first word is the technical root. Left out: enhanced dependencies, empty nodes.
* **C105 Discontinuous mentions written to MISC are read back as the same mentions.** The writer of C38 on the parts of mentions, with ids `eid[i/n]`; loader with the stacks and the list `discontinuous_mentions`, a mention being identified by its place in that list. Invariants between words and between the chunks of a word. Refuted for overlapping discontinuous mentions of one entity and for ids with `[`.
* **C106 corefud.MergeSameSpan leaves one mention for every set of words.** On the states of C79-C82; the order of the set of mentions is a parameter. Loop invariant: a removed mention has no words, so that it is never mistaken for one that is left.
* **C107 corefud.FixInterleaved merges interleaved mentions and loses no mention.** As C106; the parts of a span are a parameter. Proved with a ghost function that tells which mention has taken over the words of a mention. Refuted: mentions are lost because of a statement after `break`; the result depends on the order of a set and can be interleaved.
* **C108 corefud.IndexClusters numbers the entities of all documents consecutively.** Loop over the dict of each document, the counter being handed on. Refuted: the numbers follow the dict, not the order of entities.
* **C109 corefud.RemoveNoCorefEntities removes the entities and their mentions.** Proved for the dict of entities. Refuted for the words (they still list the mentions), for the file (the writer does nothing without entities) and for entities with one id.
* **C110 corefud.Link2Cluster makes the connected components of the antecedent links.** Invariant: two nodes are in one entity iff they are connected by the links so far; a functional graph has an undirected cycle iff a directed one. Refuted for ids used twice, ids of entities in use, and merged entities, which stay empty. Left out: bridging.
* **C111 corefud.Delete with empty=1 removes empty nodes and keeps the words connected to the root.** Walks avoiding a set of nodes; the search along simple paths finds a walk because a shortest walk does not repeat nodes; a way longer than the number of nodes must meet a cycle. Refuted for a word on a cycle with an empty node and for empty nodes without parents.
* **C112 corefud.MoveHead picks a highest word of the mention.** Every word climbs to a word whose parent is outside; with one such word it is the root of the treelet. `find_minimal_common_treelet` is a parameter (C21). Refuted: empty nodes without parents raise.
* **C113 ud.FixPunct attaches punctuation projectively.** The word before a mark always passes the filter, as an adjacent parent gives no gap that the parent does not fill already. A mark between an earlier mark and its parent `p` gets a parent in the subtree of `p`, so that earlier marks stay projective. A mark at the border of a complete subtree causes no gap.
* **C114 eval.Conll18 and eval.Conll17 count what they say.** The blocks of `difflib` form a chain of equal items with nothing in common in the gaps (`Diff.Chain`), so that the aligned pairs increase in both coordinates and `align_map` is a partial injection; lists of function words correspond item by item exactly when the alignment maps one set onto the other (`zip_of_mono`). Every number is the number of aligned pairs with a property stated without the model (`C114_meaning`), from which the inequalities follow. As many aligned pairs as words means that the alignment is the identity.
* **C115 eval.Conll18 print_raw prints the numbers of the metric.** `count[key]` of a Counter is 0 for an unknown key. Refuted: `Feats` and `Lemma` print 0 correct words for all trees; the longest block first is not a longest common subsequence.
* **C116 util.MarkDiff marks nothing exactly when the trees are the same.** Operations that are all `equal` cover both lists, so the lists are equal; equal lists give one operation and the identity alignment. `processTree` changes only Mark, ToDo, Bug and Align.
* **C117 util.MarkDiff sees differences of attributes and aligns one-to-one.** `replace` aligns `i - pred_lo + gold_lo` without a bound by `gold_hi`.
* **C118 util.ResegmentGold gives the pred zone the gold sentences.** Two prefixes of one list of tokens with characters are equal if they have equally many characters (`prefix_unique`), so every cut is forced; `grow` takes whole trees from the stack and `cut_stream` shows that the characters that remain begin where the gold sentence ends, also for crossing tokens.
* **C119 ResegmentGold.choose_root leaves one root by its preferences.** Sorting by distance puts a closest word first; the loop attaches siblings, which cannot make a cycle.
* **C120 The drawing of write.TextModeTrees determines the tree.** Invariant of the loop over the stack: rows only grow, the ghost column `nd` is where a node was drawn, rows of nodes on the stack end with a corner or a line, and for a drawn node the corners of its children and the vertical lines are in its column (`St`, `KidDrawn`). Reading is unique because the first cell to the left that is no line is the corner and the first cell up or down that is no vertical line is the parent.
* **C121 write.TextModeTrees counts the gaps of subtrees.** Subtrees of different children are disjoint, so the counts add up; the span minus the size of the subtree is the number of other rows.
* **C122 ud.ComplyWithText makes the tokens comply with the text.** `Lay fs s`: the forms in their order with white space between them are the text. Invariant of `solve` over the merged differences: the tokens before the current boundary are laid out in the text up to the current position, the others are untouched. `fillNo_spec`: tokens laid out in a text with single spaces comply with it after SpaceAfter=No is filled in.
* **C123 The differences solved by ud.ComplyWithText start at tokens.** `Cov`: the differences so far cover the tree and the text up to a position of the operation list except for spaces; proved by induction over the operations of difflib (`Ops`, C114).
* **C124 ud.ComplyWithText deletes only punctuation and adds only what its parameters permit.** `Part p n b w s new`: the tokens `new` in the place of the old tokens `num n b`; invariant of `solve` over the merged differences, together with the layout of C122 if no warning was logged.
* **C125 split_docs gives the documents of the files.** One call of `process_document` from a reader whose next sentence is known (`Ready`) gives the sentences up to the next `newdoc`, and the reader is ready for the next document.
* **C126 sent_id_filter keeps exactly the matching sentences and the document marks.** `go`: all trees with the state of the loop; over each document of a division, it gives the restriction of the document.
* **C127 ud.AddMwt keeps the tokens and the text.** `Tiles`: the words divided into tokens; `splitNode` replaces one word, or one word inside a tile, by the words of the analysis, and the tile keeps its form and space.
* **C128 ud.AddMwt makes exactly the words of the analysis.** Each loop gives the word number i a value that depends on the value number i (`fill_get`); together `IsWord`.
* **C129 ud.SetSpaceAfter marks exactly the documented spaces, sentence by sentence.** `calls` are the positions passed to `mark_no_space`; `mem_all` shows they are those of `Glued`, defined from the numbers of quotes before a position; `Added` is the effect.
* **C130 ud.JoinAsMwt makes multi-word tokens of exactly the longest groups and keeps the text.** `Groups`: the words divided into longest groups by `Joins`; the loop over the words makes one token for each group of two or more (`loop`).
* **C131 ud.SplitUnderscoreTokens divides words into their parts and keeps tokens valid.** `Parts`: the parts of one word, `Splits`: all words in their order; the text of the parts is that of the word with spaces (`detok_parts`).
* **C132 util.Filter keeps exactly the words it is asked to keep, in their order and below their nearest kept ancestor.** `Gone`: the tree after deleting subtrees, with `remove` of nodes that are already detached (`remove_detached`); `Spliced`: after rehanging.
* **C133 After ud.GoeswithFromText the computed text is the stored text.** `Written`: the parts of a divided word, `Result`: all tokens; `St` is the invariant of the loop (rest of the text = rest of the tokens up to spaces).
* **C134 ud.FixAdvmodByUpos leaves no relation with a wrong UPOS, and keeps the others.** `Bad` is the table of wrong pairs.
* **C135 ud.FixCompoundName makes names flat unless they contain digits.** `Flat` relates the states before and after the conversion of one name.
* **C136 ud.FixPseudoCop turns copulas with the given lemmas into verbs.** `Lifted` relates the states before and after one conversion; `Good` is the invariant of the loop.
* **C137 ud.FixMwtSpace removes multi-word tokens with spaces seamlessly.** The tokens are those of C127 (`Tiles`).
* **C138 ud.Basic2Enhanced gives every node without DEPS its basic dependency.** `Missing`: nothing in the column DEPS. `Reach`: reachability in the enhanced graph.
* **C139 ud.AddPunctType sets PunctType and PunctSide exactly for the listed punctuation.** `feat` is the value of a feature; `pairs` the list of paired marks.
* **C140 ud.SetTranslation gives each sentence its line as the comment text_en.** `shown` are the comment lines as the writer prints them; `Translated` says what they should be.
* **C141 OrdTuple, float and int ords are totally ordered by position.** `pos` is the position as a pair, `Before` its order.
* **C142 node.get_attrs: depth, direction, edge length, counts; one value per name.** `DepthIs` is the depth in C13; other attributes are functions of the node.
* **C143 corefud.SingleParent leaves an empty node with the dependencies on one parent.** `single` is the new list of dependencies; depths are stated with `DepthIs`.
* **C144 demo.RehangPrepositions puts each preposition above its parent.** `rehang` is the block on one tree; dominance is stated with `Anc`.
* **C145 corefud.FixToValidate: the relation root exactly below the technical root, a space at the end of each paragraph.** `fixRoots` are the two steps on one tree, `fixSpaces` the third one on the list of sentences.
* **C146 ud.Convert1to2 makes goeswith and flat structures head-initial.** `IsTop` names the leftmost word of a structure; the loop invariant describes the tree when a prefix of the words has been treated.
* **C147 ud.Convert1to2 attaches commas and conjunctions to the following conjunct.** `Target` is the conjunct a delimiter belongs to, stated on the original tree.
* **C148 ud.Convert1to2 turns remnants into conjuncts and orphans.** `Mid` is the state between two levels of the recursion: the remnants that are still labelled so have their old parents.
* **C149 ud.Convert1to2 converts tags, relations and features of each word.** `seen` is what the edits of a word read: new annotations to its left, old ones elsewhere.
* **C150 add_comment keeps the other comments, fix_text keeps the old text.** `lines` are the comment lines that the writer prints.
* **C151 mwe.Normalize moves the type of each multi-word expression to its first word.** `Names` says which strings name an expression, `First` and `LastType` are read off the sentence before the run.
* **C152 mwe.ToSubDeprels adds the types of the expressions a word shares with its parent.** `Sub` relates an expression to the type that is appended.
* **C153 util.Normalize numbers empty nodes n.1, n.2, ... after the word n.** An ord is an integer or a float with exact decimal digits; `toFloat` drops trailing zeros.
* **C154 util.Normalize gives sentences different consecutive ids.** A bundle is its newdoc mark, the stem of its file and its id.
* **C155 transform.Deproj moves marked words back, and restores what transform.Proj moved.** `Earlier` is the breadth-first order, defined by the paths to the common ancestor, not by a queue.
* **C156 read.AddText finds the spaces between tokens and the paragraphs in the raw text.** The layout of the text is given by pairs of token and gap, independently of the scan. Opening of files and several files are not modelled.
* **C157 Sentences written as plain text are read back.** One file, one document, one tree in each bundle; newline translation of Python is not modelled.
* **C158 Trees written in the VISL-cg format are read back.** The words have the numbers of their parents as in the file; attaching the nodes is modelled for the CoNLL-U reader (C28).
* **C159 corefud.FixParentheses adds missing neighbouring parentheses to mentions.** The lemmas are a parameter; the state has the words, the nodes linked to the mention and the marks.
* **C160 The corefud.Mark blocks mark exactly the words of the pairs of mentions they look for.** `Run` and `Gap` say what parts and gaps of spans are without the string of the span.
* **C161 corefud.CountGaps counts the sequences of sentences and the paragraphs without mentions.** The counters are represented by the sequences they have counted.
* **C162 Bugs are added to the MISC attribute Bug once and nothing is lost.** Bugs are read from the string at each step as in the code.
* **C163 RemoveMisc, ConcatMentionMisc and util.Mark change exactly the MISC attributes they should.** `pieces` lists the texts that go to an attribute.
* **C164 corefud.GuessSpan gives a mention the subtree of its head and the empty nodes that belong to it.** Positions are numbers in tenths as in `Span.lean`.
* **C165 util.See prints the most frequent values of the matching nodes with their numbers.** A Python Counter is the list of its items in the order of insertion; `most_common` is a stable sort.
* **C166 util.Normalize numbers empty nodes and sentences without holes and sorts FEATS and MISC, without changing what they say.** Ords and dependencies are those of `Deps/Model.lean`, columns those of `DualDict/Model.lean`.
* **C167 corefud.PrintMentions prints exactly the mentions with the requested properties, highlights exactly their words and leaves no traces.** Words, spans and the values of the parameters are those of `Coref/MarkPairs.lean`; marks are a function of tree and word, and each printed mention comes with the marks at that time.
* **C168 The output of write.Sdparse determines the tree.** The output is the list of printed lines; the tree is the list of its words with the numbers of their parents.
* **C169 read.Conll with the default columns gives the trees of read.Conllu; the order of columns does not matter.** The reader with the names of columns and the splitting of a line as parameters; names that are no CoNLL-U columns are not modelled.
* **C170 Coreference written by write.OldCorefUD is read by read.OldCorefUD.** MISC of a node is the dictionary of DualDict; a mention is given by the texts written for it.
* **C171 Ids that are unique in one newdoc only stay apart across documents and files.** A mention is given by the number of its tree and the id of its entity; trees are given by newdoc.
* **C172 Coreference read from CoNLL-2012 files.** Uses the loader of Store.lean; the meaning of the column is a machine with one stack for each entity.
* **C173 What ud.MarkBugs reports and marks.** Messages are a function of the sentence only; `log` is a fold over them. The specification `Clean` states the tests without the messages.
* **C174 Where segment.Simple ends a sentence.** `is_boundary` as written; str.isupper and str.isdigit are arbitrary functions that are false for opening quotes.
* **C175 CoNLL-U Plus files are read by their header.** `parse_node_line` and the kept names as written; str.lower and str.capitalize are arbitrary functions.
* **C176 Words get the analysis that UDPipe gives for them.** UDPipe together with the CoNLL-U reader is an arbitrary function from the text to a list of words with heads; its contract (one word for each word of the input, the heads form a tree) is a hypothesis of the theorems. Multi-word tokens and the text of trees are left out.
* **C177 udpipe.Base keeps the bundles of a document.** `process_document` of the block and of the web service; the analysis of one tree is an arbitrary function. `sent_id`, `number` and `if_empty_tree=delete` are left out.
* **C178 SetSpaceAfter keeps the text and the words in agreement, also for English and Romanian.** The text of the tree is added to the model of C129; the rules of the languages give the positions for which mark_no_space is called.
* **C179 The subspans of a mention are its maximal runs of words.** `_subspans` on top of the model of nodes_to_span and span_to_nodes of C36; a node is its ord in tenths.
* **C180 Which lines PrintFixed prints, and that the second run finds what the first collected.** `PrintFixed.__init__` and `process_node` on a list of words (lower-cased form, tag, relation, head); an AttributeError is `none`.
* **C181 The counts printed by util.Wc.** `process_tree` and `process_end` of Wc on the trees of C84; trees identified by their position; an IndexError is `none`.
* **C182 HTML writers show the texts as they are.** `add_node`, `colorize_attr`, the headers and SentencesHtml as strings; `view` (tags dropped, named characters decoded) is the reference reader of HTML.
* **C183 Which trees of a bundle TextModeTreesHtml prints.** `process_bundle` with `allnodes` as a variable that may be unbound; a tree is given by its marks.
* **C184 Reading the Corpus of Czech Verse.** `read_trees` and `read_tree` with the cache; the JSON values are given; an IndexError is `none`.
* **C185 Addresses of nodes and multi-word tokens.** `address` over the ords of C141; the address of the tree is any string (C33).
* **C186 The table of words written by write.Tikz.** `texEscape` as four replacements, `table` as the loop over the words.
* **C187 Edges, heights, comments and translations written by write.Tikz.** `edges`, `heights`, `commentLines` and `deptrans`; the preamble is left out.
* **C188 Mentions as elements of HTML.** `sentence` is the loop over the words with the stack of open subspans; `read` is the reference reader of tags.
* **C189 Ids and colours in the HTML of coreference.** `domEsc`, `mentionId` and `colours` with the Counter.
* **C190 Documents in the HTML of coreference.** `documents` is the loop over the trees, `files` what is written where.
* **C191 Trees in the JSON of write.Html.** `esc`, `hint`, `domId`, `firstson`, `rbrother`; `readString` and `follow` are the reference readers.
* **C192 Trees in the format of Treex.** `printRoot` prints a forest as tokens, `read` is the reference reader.
* **C193 Numbers of corefud.Stats.** `run` counts documents, `runPer` resets after each of them; `keptOf` and `mentionsOf` are the reference lists.
* **C194 Table of corefud.Stats.** Lines of the header are lists of numbers of spanned columns; `perDoc` is the sequence of printed parts.
* **C195 Types of entities in corefud.FixCorefUD02.** `remove` is str.replace with the empty string; `fixType`, `fixEntity`.
* **C196 Bridging relations and the header in corefud.FixCorefUD02.** `fixRel`, `fixHeader`, `readChunk`.
* **C197 Shortcuts in the code of util.Eval.** `sub` is re.sub with count_(\S+), `dollar` the replacement of $. .
* **C198 What util.Eval executes and what util.FindBug prints.** `processDocument` lists the executions, `findBug` runs a step function over bundles.
* **C199 Mentions printed by corefud.PrintEntities.** `groups`, `commonPrefix` (as in the standard library), `rangesLine`.
* **C200 Possessives of multiword expressions.** `numbers`, `mweDescendants`, `report`; `Anc` is the reference relation.
* **C201 zellig_harris.EnhanceDeps adds exactly the relations of its two rules.** zellig_harris.EnhanceDeps adds exactly the relations of its two rules, once each, and is idempotent
* **C202 The effective children agree with the secondary dependencies.** what `echildren` and `en_verb_mydobj` return; they disagree with EnhanceDeps for every conjunct, and a word can be its own effective child
* **C203 msf.Init copies the features and lets phrase features win.** msf.Init: which MSF attributes the word has, where the case comes from, that no Phrase attribute is left; a second run undoes the phrase features
* **C204 msf.CreateAbstract, RemoveFunc and NumPhrase move features without losing them.** CreateAbstract, RemoveFunc, NumPhrase: which features go where; an existing abstract subject is not seen, clausal subjects get none, a known genitive can be deleted
* **C205 demo.Complexity reports the depth of the tree, of clauses, and all clauses.** the breadth-first loop of demo.Complexity gives depths, clause depths and clauses; old marks are counted differently
* **C206 demo.Complexity divides a sentence into t-units.** t-units of demo.Complexity: clause and dependent clauses divide the subtree, but there is one unit per dependent clause and none for a simple sentence
* **C207 ud.pt.AddHyphenMwt finds the maximal hyphen compounds.** pt.AddHyphenMwt finds exactly the maximal hyphen compounds
* **C208 ud.pt.AddHyphenMwt takes only the hyphens out of the tree.** which hyphen compounds are joined; words hanging on a hyphen are deleted with it
* **C209 Relations are changed in the basic tree and in the enhanced graph at once.** `reattach`, `set_basic_and_enhanced`, `attach` and es.FixTenerQue: when the enhanced graph keeps in step with the tree
* **C210 ud.da.FixMultiSubject leaves one subject.** da.FixMultiSubject: what moves where; when more than one subject is left
* **C211 corefud.Gum2CorefUD pairs opening and closing brackets.** Gum2CorefUD cuts Entity into items and pairs openings and closings correctly
* **C212 corefud.Gum2CorefUD deletes the mentions left open and entities left without mentions.** Gum2CorefUD removes mentions left open, but deletes the entity read last instead of the empty one
* **C213 ud.Google2ud merges words without changing the text.** google2ud merges: goeswith keeps the text; suffixes lose a space, distant words are moved
* **C214 ud.Google2ud turns heads round and keeps a tree.** google2ud head swaps keep a tree; an acomp below a later acomp is left
* **C215 ud.mr.AddFormsInMwt cuts a multiword token into the forms of its words.** mr.AddFormsInMwt: the only possible cuts; a lemma with special characters breaks it
* **C216 corefud.MiscStats counts the values of MISC and prints the most frequent ones.** MiscStats: totals and the most frequent values
* **C217 Spurious auxiliaries become the heads of their verbs.** kk/ug.FixSpuriousAux and hi.FixAux: lifting auxiliaries keeps a tree and its root; chains are not finished
* **C218 tutorial.RemoveCommas deletes the commas and keeps the rest of the text.** tutorial.RemoveCommas: words and text; glued commas become spaces
* **C219 tutorial.Parse makes a right chain.** tutorial.Parse: right chain, exactly when it fails, wrong root relations
* **C220 ud.bg.RemoveDotAfterAbbr deletes a dot that the text does not have.** bg.RemoveDotAfterAbbr: nothing to do on consistent text; ellipses are missed
* **C221 ud.es.FixExclamation separates exclamation marks and keeps the text.** es.FixExclamation: text kept, nothing glued left, idempotent
* **C222 ud.de.FixGSD joins ordinal numbers with their dots and keeps the text.** de.FixGSD: text kept, ordinals joined and tagged; exception when the number hangs on its dot
* **C223 ud.gl.To2 turns copulas, prepositions and punctuation round.** gl.To2: tree and root kept; copulas after their complement and chained prepositions go wrong
* **C224 Missing lemmas are filled in and others kept.** Lemmatize (ud, zh, yue): what is kept and filled; typos, comparatives and plain Chinese verbs go wrong
* **C225 zellig_harris blocks extract contexts.** zellig_harris.Baseline and Configurations: contexts printed; constructors pass args as zones
* **C226 Slavic verb phrases list the word and its auxiliaries once, and tenses and moods exclude each other.** msf.slavic Past, Conditional, Present, Imperative, Infinitive, Future: what is listed, and which blocks exclude each other
* **C227 The article of a split contraction is hung on a word after it.** postprocess_mwt of es, fr and cs: head of the article, tree kept; exception at the end of the sentence
* **C228 es.ElQue hangs relative clauses on their determiner and keeps basic and enhanced relations in step.** es.ElQue: tree and enhanced relations kept in step, exact cycle check of the parent setter; two patterns raise an exception
* **C229 msf.slavic.Preprocessor makes the annotation uniform.** msf.slavic.Preprocessor: what holds afterwards, idempotence without doubtful genders
* **C230 ud.id.FixGSD rejoins numerals and reduplications.** id.FixGSD: rejoined numerals and reduplications keep letters and tree; numerals below their dash raise an exception
* **C231 de.FixHDT splits every contraction of preposition and article and keeps text and tree.** de.FixHDT: contractions split into preposition and article in all letter cases; text, tree and idempotence
* **C232 FixEdeprels maps case-enhanced relations to the listed ones, once and for all.** FixEdeprels: Lithuanian block complete (tables, idempotence); hidden entries and two runs in Czech
* **C233 demo.Newspeak negates antonyms and prefixes comparatives, once and for all.** demo.Newspeak: antonyms and degrees for any generator, idempotence; negated words are negated twice
* **C234 es.FixVerbFeats gives non-finite verbs exactly the features of their form.** es.FixVerbFeats: features and lemmas of infinitives, gerunds and participles, idempotence; finite forms as vendo lose their features
* **C235 ud.Google2ud joins prefixes and suffixes with their words without changing the text.** Google2ud affixes: words, letters and text after joining; suffixes at the start, spaces after suffixes and prefixes at the end go wrong
* **C236 ga.To2 and FixNeg of Hebrew and Romanian leave no old features and relations.** ga.To2, he.FixNeg, ro.FixNeg: state afterwards, what stays, idempotence; notes in ToDo are lost or kept wrongly

## What is modelled

| Directory | Source | Left out |
|---|---|---|
| `Verif/DualDict` | core/dualdict.py, core/feats.py, coref.py `OtherDualDict`; block/ud/addpuncttype.py, ud/markfeatsbugs.py, util/markmwtbugsatnodes.py, util/mark.py, corefud/removemisc.py, corefud/concatmentionmisc.py | language-specific markfeatsbugs.py |
| `Verif/Deprel` | core/node.py `udeprel`, `sdeprel` | |
| `Verif/Tree` | core/node.py, core/root.py: edges, word order, removal, traversal, treelets, `flatten`, `steal_nodes`, `get_attrs`; block/transform/flatten.py | attributes of nodes other than ord |
| `Verif/Blocks` | block/demo/rehangprepositions.py, block/corefud/fixtovalidate.py; block/ud/markbugs.py (but for the overview), fixpunctchild.py, fixchain.py, fixroot.py, fixmultisubjects.py, fixleaf.py, fixrightheaded.py, fixpunct.py; block/transform/proj.py; block/util/joinsentence.py, splitsentence.py, resegmentgold.py (process_document, choose_root); block/segment/merge.py; block/ud/jointoken.py; block/util/filter.py; block/ud/fixadvmodbyupos.py, fixcompoundname.py, fixpseudocop.py, convert1to2.py (change_headfinal, fix_remnants_in_tree, reattach_coordinations, the edits of single words); block/mwe/normalize.py, tosubdeprels.py; block/transform/deproj.py; block/ud/printfixed.py; block/mwe/possessives.py (MwePoss.lean); block/msf/init.py, createabstract.py, removefunc.py, numphrase.py (Msf.lean); tool/udpipe.py, tool/udpipeonline.py (tag_parse_tree and the making of words; UDPipe itself is an arbitrary function), block/ud/da/fixmultisubject.py; `block/ud/google2ud.py` head swaps (copulas, Turkish coordination, pobj/pcomp, `fix_multiword_prep`) on parent functions; `block/ud/kk/fixspuriousaux.py`, `block/ud/ug/fixspuriousaux.py`, phase verbs of `block/ud/hi/fixaux.py`; `ud/gl/to2.py` (`Galician`), `msf/phrase.py` and `msf/slavic/{past,conditional,present,imperative,infinitive,future}.py` (`Slavic`); `postprocess_mwt` of `ud/{es,fr,cs}/addmwt.py` (`Articles`), `ud/es/elque.py` (`ElQue`), `msf/slavic/preprocessor.py` (`SlavicPre`), the joining methods of `ud/id/fixgsd.py` (`Indonesian`), ud/de/fixhdt.py | enhanced dependencies in fixleaf.py and fixpunct.py; attributes other than the parent and the relation; texts and coreference of split and joined sentences |
| `Verif/Mwt` | core/mwt.py, core/root.py multi-word tokens | |
| `Verif/Empty` | core/node.py (with `OrdTuple`, `address`), core/mwt.py (address), core/root.py empty nodes; block/util/normalize.py (empty_node_ord) | binary floats: ords are exact tenths |
| `Verif/Deps` | core/node.py `deps`, `raw_deps`, removal of empty nodes; block/ud/basic2enhanced.py, block/corefud/singleparent.py, block/util/normalize.py (without newdoc_from_filename), block/zellig_harris/enhancedeps.py, queries.py (Secondary.lean), block/ud/es/fixtenerque.py, block/ud/ru/fixtoest.py `set_basic_and_enhanced`, block/ud/ca/elque.py `attach`; `zellig_harris/{baseline,configurations}.py` (`Contexts`), ud/lt/fixedeprels.py and the two table loops of ud/cs and ud/ru/fixedeprels.py | ords of empty nodes with two decimal places |
| `Verif/Bundle` | core/bundle.py, core/document.py, block/util/normalize.py (sentence ids), block/udpipe/base.py, tool/udpipeonline.py (process_document) | files of the document; the requests to the web service |
| `Verif/Conllu` | block/read/conllu.py, block/read/conll.py (Conll.lean), block/read/conllup.py (Conllup.lean), block/write/conllu.py, block/ud/settranslation.py; core/root.py (add_comment, get_sentence); block/ud/convert1to2.py (fix_text) | encoding of files |
| `Verif/Eval` | block/eval/f1.py, block/eval/parsing.py, block/eval/conll17.py, block/eval/conll18.py (process_tree, process_end), block/util/markdiff.py (process_tree), block/util/see.py; `difflib.SequenceMatcher` without junk | printing of the tables, bootstrap resampling (main) |
| `Verif/Run` | core/run.py, core/block.py, core/files.py, core/basereader.py, core/basewriter.py, block/util/split.py, block/read/ccv.py (lemmas, tags and the other copied values left out), block/util/eval.py and findbug.py (EvalCode.lean; the code given by the user is an arbitrary function) | `path` renaming of writers, the regular expression of `sent_id_filter` (a parameter), compression |
| `Verif/Text` | core/node.py `compute_text`, core/root.py `token_descendants`, block/ud/setspaceafterfromtext.py, block/ud/complywithtext.py, block/ud/addmwt.py, block/ud/setspaceafter.py, block/ud/en/setspaceafter.py, block/ud/ro/setspaceafter.py, block/ud/joinasmwt.py, block/ud/splitunderscoretokens.py, block/ud/goeswithfromtext.py, block/ud/fixmwtspace.py, block/tokenize, block/segment/simple.py, block/read/addtext.py, block/read/sentences.py, block/read/text.py, block/read/addsentences.py, block/write/sentences.py, block/util/wc.py, block/ud/pt/addhyphenmwt.py; `block/ud/google2ud.py` `_merge_with`, `fix_goeswith`, affixes (text and tree); `block/ud/mr/addformsinmwt.py`; `block/tutorial/removecommas.py`, `block/tutorial/parse.py`, `block/ud/bg/removedotafterabbr.py`; `es/fixexclamation.py` and `de/fixgsd.py` (`Marks`), `ud/lemmatize.py` with `zh` and `yue` (`Lemmas`), demo/newspeak.py process_node, ud/es/fixverbfeats.py, the affixes of ud/google2ud.py, ud/ga/to2.py, ud/he/fixneg.py, ud/ro/fixneg.py | the class of word characters (a parameter), languages of Simple |
| `Verif/Write` | block/write/textmodetrees.py (process_tree, _compute_gaps), block/write/vislcg.py, block/read/vislcg.py, block/write/sdparse.py, block/write/textmodetreeshtml.py (but for comments and the page around the trees), block/write/sentenceshtml.py (process_tree), block/write/tikz.py (process_tree, _tex_escape), block/write/html.py (the JSON but for `desc`), block/write/treex.py, block/demo/complexity.py (Complexity.lean: depths, clauses, t-units; the conditions on words are parameters) | colours of the terminal, comments, the text of attributes (a parameter) |
| `Verif/Coref` | core/coref.py, core/document.py coreference; block/corefud/fixentityacrossnewdoc.py, mergesamespan.py, fixinterleaved.py, indexclusters.py, removenocorefentities.py, link2cluster.py, delete.py (`empty`), movehead.py, fixparentheses.py, markcrossing.py, marknested.py, markinterleaved.py, marksamesubspan.py, markpairs.py, countgaps.py, guessspan.py, printmentions.py, printentities.py (PrintEnt.lean; colours left out), stats.py (Stats.lean, StatsTable.lean; numbers printed with %-formats left out), fixcorefud02.py (FixUd02.lean); block/write/corefhtml.py (Html.lean, HtmlDoc.lean; but for the texts of tags and the scripts), block/write/oldcorefud.py, block/read/oldcorefud.py (OldFormat.lean), block/read/conll2012.py (Conll2012.lean), block/corefud/gum2corefud.py (without attributes, Bridge and Split); `block/corefud/miscstats.py` | `GRP` ids in MISC, other `global.Entity` headers; `strict=False` for bridging |

Not modelled: other drawing of trees (`write.Html`, `write.Tikz` and others), tokenisers and taggers that call other programs, the
conversion blocks of `ud`, `transform`, and visual output.

## Wrong programs

`seeded/LOG.jsonl` lists edits of the model that make a claim false, each with the theorems that no longer build. Many edits
already stop a lemma, so that the files that depend on it are not built; the theorem itself is then not in the list.
