{
 "claims": [
  {
   "property": "C01",
   "status": "proved",
   "theorems": [
    "Verif.DualDict.C01_dualDict_reads",
    "Verif.DualDict.C01_dualDict_results"
   ],
   "note": "All histories of calls on DualDict; str.lower is an arbitrary function."
  },
  {
   "property": "C02",
   "status": "proved",
   "theorems": [
    "Verif.DualDict.C02_dualDict_text_roundtrip",
    "Verif.DualDict.C02_single_underscore_flag_lost"
   ],
   "note": "For every reachable mapping that the text form can represent; the excluded single flag '_' is shown to be necessary."
  },
  {
   "property": "C03",
   "status": "partial",
   "theorems": [
    "Verif.DualDict.C03_dualDict_text_canonical_partial",
    "Verif.DualDict.C03_dualDict_text_form",
    "Verif.DualDict.C03_dualDict_text_order_violated"
   ],
   "note": "The code violates the claim for names equal up to case (witness); proved for all other mappings."
  },
  {
   "property": "C04",
   "status": "proved",
   "theorems": [
    "Verif.DualDict.C04_dualDict_reads_invisible",
    "Verif.DualDict.C04_dualDict_assigned_text_kept"
   ],
   "note": "Read-only calls anywhere in a history."
  },
  {
   "property": "C05",
   "status": "partial",
   "theorems": [
    "Verif.DualDict.C05_otherDualDict_reads_partial",
    "Verif.DualDict.C05_otherDualDict_values_comma_free",
    "Verif.DualDict.C05_otherDualDict_reads_invisible",
    "Verif.DualDict.C05_otherDualDict_clear_violated"
   ],
   "note": "The code violates the claim after clear() (witness); proved for all histories without clear()/set_mapping(None)."
  },
  {
   "property": "C06",
   "status": "proved",
   "theorems": [
    "Verif.Deprel.C06_get",
    "Verif.Deprel.C06_set_udeprel",
    "Verif.Deprel.C06_set_sdeprel",
    "Verif.Deprel.C06_setters_independent",
    "Verif.Deprel.C06_none_raises"
   ],
   "note": "For a universal part without a colon, as the property says."
  },
  {
   "property": "C07",
   "status": "proved",
   "theorems": [
    "Verif.Tree.C07_history_wellformed",
    "Verif.Tree.C07_history_reads"
   ],
   "note": "Induction over all histories of calls on a heap with any number of trees; each call acts on nodes that belong to one tree at that time (as in the property). Shifts of the technical root itself (C57) and calls mixing two trees (C08, C15) are not in these histories. Empty nodes and multi-word tokens are outside this heap."
  },
  {
   "property": "C08",
   "status": "partial",
   "theorems": [
    "Verif.Tree.C08_rejected_unchanged_partial",
    "Verif.Tree.C08_rejected_unchanged_violated"
   ],
   "note": "Proved for parents in the same tree, None and the root. False for a parent from another tree: the ValueError comes after the node left its parent's children (node.py:337-340)."
  },
  {
   "property": "C09",
   "status": "proved",
   "theorems": [
    "Verif.Tree.C09_cycleError_iff"
   ],
   "note": ""
  },
  {
   "property": "C10",
   "status": "proved",
   "theorems": [
    "Verif.Tree.C10_setParent_frame"
   ],
   "note": ""
  },
  {
   "property": "C100",
   "status": "partial",
   "theorems": [
    "Verif.Sent.C100_join_partial",
    "Verif.Sent.C100_marked",
    "Verif.Sent.C100_first_partial",
    "Verif.Sent.C100_empty_violated",
    "Verif.Sent.C100_id_violated"
   ],
   "note": "Holds for words, order, edges, the attribute and numbers if the first sentence is not marked; if it is, an exception is raised and nothing changes. Refuted: empty nodes of joined sentences are lost; joining by sent_id always raises. Missing: multi-word tokens (C50)."
  },
  {
   "property": "C101",
   "status": "partial",
   "theorems": [
    "Verif.Sent.C101_pieces",
    "Verif.Sent.C101_marked",
    "Verif.Sent.C101_split_partial",
    "Verif.Sent.C101_id_partial",
    "Verif.Sent.C101_first_violated",
    "Verif.Sent.C101_empty_violated",
    "Verif.Sent.C101_loop_violated",
    "Verif.Sent.C101_mwt_violated",
    "Verif.Sent.C101_id_range_violated"
   ],
   "note": "Holds for words, order, edges, relations, the attribute and ids without multi-word tokens. Refuted: if misc_value is given and the first word has it, a sentence without words is left; empty nodes stay in the first piece; with an empty misc_value the loop does not end; a piece that ends with a multi-word token raises; a word_id out of range raises after a bundle was added."
  },
  {
   "property": "C102",
   "status": "partial",
   "theorems": [
    "Verif.Sent.C102_zero_partial",
    "Verif.Sent.C102_number_violated"
   ],
   "note": "Refuted for every document numbered from 1 in which a sentence is split: two neighbouring bundles have the same number and no word of either precedes the other. Holds for documents numbered from 0."
  },
  {
   "property": "C103",
   "status": "partial",
   "theorems": [
    "Verif.Sent.C103_merge_partial",
    "Verif.Sent.C103_nothing_violated",
    "Verif.Sent.C103_empty_violated",
    "Verif.Sent.C103_number_violated",
    "Verif.Sent.C103_lost_violated"
   ],
   "note": "Holds for words, order and edges of documents with one zone in which every sentence has words and no form is empty. Refuted: documents without sentences, sentences without words, numbers, empty nodes."
  },
  {
   "property": "C104",
   "status": "partial",
   "theorems": [
    "Verif.Blocks.C104_join_partial",
    "Verif.Blocks.C104_first_violated"
   ],
   "note": "Everything but the reason given for a marked first word, which is refuted: prev_node of the first word is the technical root, so the word is reported as separated by a space."
  },
  {
   "property": "C105",
   "status": "partial",
   "theorems": [
    "Verif.Coref.Disc.C105_roundtrip_partial",
    "Verif.Coref.Disc.C105_overlap_violated",
    "Verif.Coref.Disc.C105_bracket_violated"
   ],
   "note": "Proved for all sets of mentions where brackets of one entity do not cross, two discontinuous mentions of one entity do not overlap, and ids of discontinuous mentions have no '['. Violated by the code: two overlapping discontinuous mentions of one entity with two words each always raise an exception when they are read, and no discontinuous mention with '[' in its id is ever read. Missing: discontinuous mentions of one entity of which one lies inside one part of the other (the code reads them back), GRP ids, Bridge and SplitAnte."
  },
  {
   "property": "C106",
   "status": "proved",
   "theorems": [
    "Verif.Coref.MergeSpan.C106_merge",
    "Verif.Coref.MergeSpan.C106_entity_violated"
   ],
   "note": "Every order of the set. C106_entity_violated states what the block loses when mentions of different entities have the same words."
  },
  {
   "property": "C107",
   "status": "partial",
   "theorems": [
    "Verif.Coref.Interleaved.C107_grow_partial",
    "Verif.Coref.Interleaved.C107_union_partial",
    "Verif.Coref.Interleaved.C107_clean_partial",
    "Verif.Coref.Interleaved.C107_lost_violated",
    "Verif.Coref.Interleaved.C107_order_violated"
   ],
   "note": "Proved: no exception and only growth for all mentions; unions of mentions and consistent links if no two disjoint groups of mentions cover the same words; no change without conflicts. The full property is false: all mentions can be lost (statement after break), and mentions can stay interleaved depending on the order of a set."
  },
  {
   "property": "C108",
   "status": "partial",
   "theorems": [
    "Verif.Coref.Index.C108_index",
    "Verif.Coref.Index.C108_prefix",
    "Verif.Coref.Index.C108_order_violated"
   ],
   "note": "Proved: numbers, uniqueness across documents, keys, rejected prefixes. The order of the entities is false after edits: the numbers follow the dict."
  },
  {
   "property": "C109",
   "status": "partial",
   "theorems": [
    "Verif.Coref.Index.C109_entities_partial",
    "Verif.Coref.Index.C109_same_id_violated",
    "Verif.Coref.Index.C109_words_violated",
    "Verif.Coref.Index.C109_file_violated"
   ],
   "note": "Proved for the dict of entities if ids differ. False for words and, if all entities are removed, for the file."
  },
  {
   "property": "C11",
   "status": "proved",
   "theorems": [
    "Verif.Tree.C11_createChild_frame"
   ],
   "note": ""
  },
  {
   "property": "C110",
   "status": "partial",
   "theorems": [
    "Verif.Coref.Links.C110_entities_partial",
    "Verif.Coref.Links.C110_used_id_violated",
    "Verif.Coref.Links.C110_duplicate_violated",
    "Verif.Coref.Links.C110_empty_entity_violated"
   ],
   "note": "Proved if no id is used twice and new entity ids are free; otherwise false. A merged entity stays in the document without mentions. Bridging is not modelled."
  },
  {
   "property": "C111",
   "status": "partial",
   "theorems": [
    "Verif.Coref.DeleteEmpty.C111_reachable",
    "Verif.Coref.DeleteEmpty.C111_skip",
    "Verif.Coref.DeleteEmpty.C111_tree",
    "Verif.Coref.DeleteEmpty.C111_own_parent_violated",
    "Verif.Coref.DeleteEmpty.C111_no_parent_violated"
   ],
   "note": "Termination, the collected dependencies and connection to the root are proved; refuted: a word below an empty node that depends on the word becomes its own parent; a word below empty nodes without parents is left with an empty DEPS."
  },
  {
   "property": "C112",
   "status": "partial",
   "theorems": [
    "Verif.Coref.MoveHead.C112_head_partial",
    "Verif.Coref.MoveHead.C112_treelet",
    "Verif.Coref.MoveHead.C112_inside",
    "Verif.Coref.MoveHead.C112_governs",
    "Verif.Coref.MoveHead.C112_twice",
    "Verif.Coref.MoveHead.C112_empty_violated"
   ],
   "note": "Proved with find_minimal_common_treelet as a parameter; refuted for mentions of empty nodes without parents, which raise IndexError or (bugs=mark) NameError."
  },
  {
   "property": "C113",
   "status": "partial",
   "theorems": [
    "Verif.Blocks.Punct.C113_projective_partial",
    "Verif.Blocks.Punct.C113_pair_partial",
    "Verif.Blocks.Punct.C113_empty_violated",
    "Verif.Blocks.Punct.C113_initial_violated",
    "Verif.Blocks.Punct.C113_second_root_violated",
    "Verif.Blocks.Punct.C113_twice_violated",
    "Verif.Blocks.Punct.C113_sequence_violated",
    "Verif.Blocks.Punct.C113_brackets_violated"
   ],
   "note": "Proved for trees without paired marks, one non-PUNCT word below the root and every PUNCT after a non-PUNCT word; and for one pair around a subtree without other punctuation. Refuted: sentence-initial . ? ! stay non-projective, commas in a row may, a second word with relation root keeps it, trees without words raise IndexError, brackets not tagged PUNCT around a comma raise ValueError, the block is not idempotent."
  },
  {
   "property": "C114",
   "status": "proved",
   "theorems": [
    "Verif.Eval.Conll.C114_alignment",
    "Verif.Eval.Conll.C114_feats",
    "Verif.Eval.Conll.C114_meaning",
    "Verif.Eval.Conll.C114_counts",
    "Verif.Eval.Conll.C114_scores",
    "Verif.Eval.Conll.C114_harmonic",
    "Verif.Eval.Conll.C114_perfect",
    "Verif.Eval.Conll.C114_self",
    "Verif.Eval.Conll.C114_conll17"
   ],
   "note": "difflib.SequenceMatcher is modelled after its documentation and source; rational numbers in place of floats; attributes are strings."
  },
  {
   "property": "C115",
   "status": "partial",
   "theorems": [
    "Verif.Eval.Conll.C115_raw_partial",
    "Verif.Eval.Conll.C115_raw_violated",
    "Verif.Eval.Conll.C115_lemma_violated",
    "Verif.Eval.Conll.C115_longest_violated"
   ],
   "note": "Proved for UAS, LAS, MLAS, BLEX, UPOS, XPOS; refuted for every tree with print_raw=Feats or Lemma, where the counters are called UFeats and Lemmas and 0 is printed. The alignment by longest blocks may be shorter than a longest common subsequence."
  },
  {
   "property": "C116",
   "status": "proved",
   "theorems": [
    "Verif.Eval.MarkDiff.C116_exact",
    "Verif.Eval.MarkDiff.C116_unmarked",
    "Verif.Eval.MarkDiff.C116_no_mark",
    "Verif.Eval.MarkDiff.C116_comment",
    "Verif.Eval.MarkDiff.C116_stats"
   ],
   "note": "The values of the attributes are those at the comparison, after Mark, ToDo and Bug were deleted. The statistics by attribute and lemma and process_end are not modelled."
  },
  {
   "property": "C117",
   "status": "partial",
   "theorems": [
    "Verif.Eval.MarkDiff.C116_token_partial",
    "Verif.Eval.MarkDiff.C116_conflate_violated",
    "Verif.Eval.MarkDiff.C116_undefined_violated",
    "Verif.Eval.MarkDiff.C116_align_partial",
    "Verif.Eval.MarkDiff.C116_index_violated",
    "Verif.Eval.MarkDiff.C116_align1_violated",
    "Verif.Eval.MarkDiff.C116_one_to_one_violated",
    "Verif.Eval.MarkDiff.C116_parent_violated",
    "Verif.Eval.MarkDiff.C116_zones_violated"
   ],
   "note": "Proved for values without underscores and when no replaced part is longer than its replacement. Refuted: a_b,c and a,b_c are not distinguished; a longer replaced part is aligned beyond its replacement, so that two words are aligned with one, a changed parent is not marked, or IndexError is raised; align=1 stores nothing; a second predicted tree equal to the gold tree removes the marks of the gold tree."
  },
  {
   "property": "C118",
   "status": "partial",
   "theorems": [
    "Verif.Blocks.Reseg.C118_resegment_partial",
    "Verif.Blocks.Reseg.C118_prefix",
    "Verif.Blocks.Reseg.C118_crossing_violated",
    "Verif.Blocks.Reseg.C118_surplus_violated",
    "Verif.Blocks.Reseg.C118_index_violated"
   ],
   "note": "Proved if no token crosses the end of a gold sentence, all trees have words and all tokens have characters other than spaces: the result is exactly the division of the tokens by the gold sentences. In general the gold characters are a prefix of the pred characters, for each sentence and for the zones. Refuted: a crossing token stays whole and its end is repeated in the next sentence; surplus pred trees are lost silently; surplus tokens in the last tree raise IndexError. Dependencies are in C119; multi-word tokens and extract_pred_trees are not modelled."
  },
  {
   "property": "C119",
   "status": "partial",
   "theorems": [
    "Verif.Blocks.Reseg.C119_choose_root",
    "Verif.Blocks.Reseg.C119_empty_gold_violated"
   ],
   "note": "Proved for trees with words. Refuted for gold trees without words, which raise IndexError."
  },
  {
   "property": "C12",
   "status": "proved",
   "theorems": [
    "Verif.Tree.C12_remove_deletes_subtree"
   ],
   "note": ""
  },
  {
   "property": "C120",
   "status": "partial",
   "theorems": [
    "Verif.Write.Draw.C120_edges_partial",
    "Verif.Write.Draw.C120_one_symbol",
    "Verif.Write.Draw.C120_injective",
    "Verif.Write.Draw.C120_hints_violated"
   ],
   "note": "Proved with hints=1 if the printed attributes do not contain the symbols of nodes (other line-drawing characters are allowed). Refuted with hints=0: the row of a node with children is filled with spaces after the corner, unlike in the documentation of the block, because that corner is missing in the list of characters after which a line is drawn. Colours and headers are not modelled."
  },
  {
   "property": "C121",
   "status": "proved",
   "theorems": [
    "Verif.Write.Draw.C121_gaps"
   ],
   "note": ""
  },
  {
   "property": "C122",
   "status": "partial",
   "theorems": [
    "Verif.Text.Comply.C122_text",
    "Verif.Text.Comply.C122_complies_partial",
    "Verif.Text.Comply.C122_end_violated",
    "Verif.Text.Comply.C122_order_violated",
    "Verif.Text.Comply.C122_mwt_violated",
    "Verif.Text.Comply.C122_attribute_violated"
   ],
   "note": "Proved if the forms are not empty and have no white space at their ends and the punctuation inserted at the beginning has no space in it. Refuted without the last condition: several pieces of punctuation at the beginning are inserted in reversed order. Refuted for every sentence whose last tokens are missing in the text: IndexError (C122_end_violated). Further defects: prefer_mwt has no effect for exact matches, a multi-word token whose form differs raises AttributeError. New nodes are modelled with their forms only (no dependencies, features or marks in MISC)."
  },
  {
   "property": "C123",
   "status": "proved",
   "theorems": [
    "Verif.Text.Comply.C123_computed",
    "Verif.Text.Comply.C123_boundaries"
   ],
   "note": ""
  },
  {
   "property": "C124",
   "status": "proved",
   "theorems": [
    "Verif.Text.Comply.C124_tokens"
   ],
   "note": ""
  },
  {
   "property": "C125",
   "status": "partial",
   "theorems": [
    "Verif.Run.C125_split_partial",
    "Verif.Run.C125_files_violated"
   ],
   "note": "Proved for one file, and for several files if all but the first one start with newdoc. Refuted otherwise: for every file that ends with a document of one sentence (after another document), the sentences of the next file are added to this document. Each file is modelled as the list of trees returned by read_tree (see C63)."
  },
  {
   "property": "C126",
   "status": "proved",
   "theorems": [
    "Verif.Run.Filter.C126_filter",
    "Verif.Run.Filter.C126_split"
   ],
   "note": "The file is modelled as the list of trees returned by read_tree (see C63); the regular expression is a parameter."
  },
  {
   "property": "C127",
   "status": "proved",
   "theorems": [
    "Verif.Text.AddMwt.C127_text",
    "Verif.Text.AddMwt.C127_tokens"
   ],
   "note": "For runs without exceptions (see C128_errors). postprocess_mwt (empty in the base class) is not modelled; words of multi-word tokens must have no SpaceAfter=No before, as the reader leaves them."
  },
  {
   "property": "C128",
   "status": "partial",
   "theorems": [
    "Verif.Text.AddMwt.C128_words",
    "Verif.Text.AddMwt.C128_errors",
    "Verif.Text.AddMwt.C128_misc_violated"
   ],
   "note": "Everything but the last sentence is proved. The last one (comment at lines 55-56) is refuted for every analysis with MISC *: the code clears orig_attr['misc'], not mwt_misc, so every attribute except SpaceAfter, SpacesAfter, SpacesBefore and Entity is at the word and at the token."
  },
  {
   "property": "C129",
   "status": "partial",
   "theorems": [
    "Verif.Text.SetSpace.C129_spaces_partial",
    "Verif.Text.SetSpace.C129_lists",
    "Verif.Text.SetSpace.C129_alone_partial",
    "Verif.Text.SetSpace.C129_history_violated",
    "Verif.Text.SetSpace.C129_short_violated"
   ],
   "note": "The marking of one tree is proved for the lists as they are at this tree. The last sentence is refuted for every block: `not_before += ['“']` changes the list of the block, so after one sentence with „ the space before each “ of all later sentences is deleted; proved instead for documents in which all sentences have „ or none has. IndexError for each tree without words and each sentence that is one quote. Recomputing the text (fix_text) is not modelled."
  },
  {
   "property": "C13",
   "status": "proved",
   "theorems": [
    "Verif.Tree.C13_remove_rehang"
   ],
   "note": ""
  },
  {
   "property": "C130",
   "status": "proved",
   "theorems": [
    "Verif.Text.JoinMwt.C130_groups",
    "Verif.Text.JoinMwt.C130_text",
    "Verif.Text.JoinMwt.C130_total",
    "Verif.Text.JoinMwt.C130_again"
   ],
   "note": "str.isalpha is a parameter; an exception is possible only for words with an empty form. A MISC attribute OrigForm without a value (True) is left out."
  },
  {
   "property": "C131",
   "status": "partial",
   "theorems": [
    "Verif.Text.SplitUnder.C131_words",
    "Verif.Text.SplitUnder.C131_text_partial",
    "Verif.Text.SplitUnder.C131_mwt_violated",
    "Verif.Text.SplitUnder.C131_errors"
   ],
   "note": "The words are proved for all trees; the text for trees in which no divided word belongs to a multi-word token. For every divided word of a multi-word token the last sentence is refuted: the new nodes are not added to the token, so they are written a second time, and the token has a gap if the word is not its last one."
  },
  {
   "property": "C132",
   "status": "partial",
   "theorems": [
    "Verif.Blocks.C132_delete_subtree",
    "Verif.Blocks.C132_keep_subtree",
    "Verif.Blocks.C132_keep_node",
    "Verif.Blocks.C132_trees",
    "Verif.Blocks.C132_nested_violated",
    "Verif.Blocks.C132_order_violated"
   ],
   "note": "Proved for each parameter by itself (all tree parameters together). Two parts are refuted: a word with a true keep_subtree inside of another kept subtree is moved to the root (C132_nested_violated), and keep_subtree and keep_node are not evaluated if keep_tree_if_node is given (C132_order_violated). A tree whose words are all deleted by delete_subtree stays in the document."
  },
  {
   "property": "C133",
   "status": "partial",
   "theorems": [
    "Verif.Text.Goeswith.C133_text_partial",
    "Verif.Text.Goeswith.C133_words",
    "Verif.Text.Goeswith.C133_mismatch",
    "Verif.Text.Goeswith.C133_mwt_violated",
    "Verif.Text.Goeswith.C133_space_violated"
   ],
   "note": "Proved for forms and texts whose only white space is the space. The last sentence is refuted: a multi-word token with a space in the text gives AttributeError (proved for the first token), and a form with other white space (no-break space) gives an exception whenever the texts differ in spaces, because the text is normalized with split() but compared without spaces only."
  },
  {
   "property": "C134",
   "status": "partial",
   "theorems": [
    "Verif.Blocks.Advmod.C134_valid",
    "Verif.Blocks.Advmod.C134_repair",
    "Verif.Blocks.Advmod.C134_frame_partial",
    "Verif.Blocks.Advmod.C134_adv_violated",
    "Verif.Blocks.Advmod.C134_again_violated"
   ],
   "note": "The first sentence is proved. The others hold except for advmod: the last branch gives every ADV with advmod the relation dep, although the block is meant for words that are not ADV; therefore a second run changes the adverbs whose det became advmod."
  },
  {
   "property": "C135",
   "status": "partial",
   "theorems": [
    "Verif.Blocks.Names.C135_name",
    "Verif.Blocks.Names.C135_tree",
    "Verif.Blocks.Names.C135_plain_violated",
    "Verif.Blocks.Names.C135_digits_violated"
   ],
   "note": "The third sentence is proved, the conversion is proved for names with digits. The condition is inverted: a tree without digits is never changed, and names with digits are converted (both proved for all trees)."
  },
  {
   "property": "C136",
   "status": "partial",
   "theorems": [
    "Verif.Blocks.PseudoCop.C136_lift",
    "Verif.Blocks.PseudoCop.C136_tree_partial",
    "Verif.Blocks.PseudoCop.C136_root_violated",
    "Verif.Blocks.PseudoCop.C136_chain_violated"
   ],
   "note": "Proved for trees where copulas depend on words that are no copulas themselves and all words have relations. Otherwise refuted: a copula below the technical root gives a ValueError, and a copula below a copula becomes a copula again. The regular expression also moves ccomp (prefix cc)."
  },
  {
   "property": "C137",
   "status": "partial",
   "theorems": [
    "Verif.Text.MwtSpace.C137_tokens",
    "Verif.Text.MwtSpace.C137_text_partial",
    "Verif.Text.MwtSpace.C137_space_violated"
   ],
   "note": "The text stays if neither the removed tokens nor their words have SpaceAfter=No. The SpaceAfter=No of a removed token is lost: proved that the text changes whenever something follows."
  },
  {
   "property": "C138",
   "status": "partial",
   "theorems": [
    "Verif.Deps.Enhance.C138_filled_partial",
    "Verif.Deps.Enhance.C138_reach_partial",
    "Verif.Deps.Enhance.C138_empty_violated",
    "Verif.Deps.Enhance.C138_cleared_violated"
   ],
   "note": "Proved if all nodes without DEPS are words and relations contain no `|`. An empty node without DEPS always gives an AttributeError, and a node whose list was set to [] stays without dependencies."
  },
  {
   "property": "C139",
   "status": "partial",
   "theorems": [
    "Verif.DualDict.PunctType.C139_features",
    "Verif.DualDict.PunctType.C139_pairs",
    "Verif.DualDict.PunctType.C139_again",
    "Verif.DualDict.PunctType.C139_text_partial",
    "Verif.DualDict.PunctType.C139_order_violated",
    "Verif.DualDict.PunctType.C139_lost_violated"
   ],
   "note": "All sentences but the last part of the last one are proved. FEATS of every word is written anew in sorted order (C139_order_violated). Existing values of punctuation outside the tables are deleted."
  },
  {
   "property": "C14",
   "status": "partial",
   "theorems": [
    "Verif.Tree.C14_shift_block",
    "Verif.Tree.C14_shift_position_partial",
    "Verif.Tree.C14_shift_node_position",
    "Verif.Tree.C14_shift_after_subtree_violated"
   ],
   "note": "Block, relative order and the rest of the word order proved for all shifts within one tree; the place of the block proved except for a node shifted with its subtree relative to a subtree containing it (violated, witness), a node shifted relative to itself, and skipped calls (which move nothing)."
  },
  {
   "property": "C140",
   "status": "partial",
   "theorems": [
    "Verif.Conllu.Translation.C140_translation_partial",
    "Verif.Conllu.Translation.C140_break_violated"
   ],
   "note": "Proved if the only line breaks in comments and lines are newlines. Other breaks (such as U+2028) in a line split the translation into two comments (proved for all of them)."
  },
  {
   "property": "C141",
   "status": "proved",
   "theorems": [
    "Verif.Empty.OrdTuple.C141_compare",
    "Verif.Empty.OrdTuple.C141_total",
    "Verif.Empty.OrdTuple.C141_string"
   ],
   "note": "`increase` is not modelled: it reads a missing attribute."
  },
  {
   "property": "C142",
   "status": "partial",
   "theorems": [
    "Verif.Tree.Attrs.C142_depth",
    "Verif.Tree.Attrs.C142_direction",
    "Verif.Tree.Attrs.C142_counts",
    "Verif.Tree.Attrs.C142_children",
    "Verif.Tree.Attrs.C142_length_partial",
    "Verif.Tree.Attrs.C142_last_violated"
   ],
   "note": "The first sentence is proved. The second holds if the prefixed nodes exist; the missing neighbour of the last word gives no value even if `undefs` is given (proved for all trees), so the values shift."
  },
  {
   "property": "C143",
   "status": "partial",
   "theorems": [
    "Verif.Deps.SingleParent.C143_kept_partial",
    "Verif.Deps.SingleParent.C143_governor",
    "Verif.Deps.SingleParent.C143_again",
    "Verif.Deps.SingleParent.C143_empty_violated"
   ],
   "note": "Proved if at least one parent is a word. If all parents are empty nodes, the node always loses all its dependencies (C143_empty_violated)."
  },
  {
   "property": "C144",
   "status": "partial",
   "theorems": [
    "Verif.Blocks.Rehang.C144_tree_partial",
    "Verif.Blocks.Rehang.C144_place_partial",
    "Verif.Blocks.Rehang.C144_root_violated",
    "Verif.Blocks.Rehang.C144_nested_violated"
   ],
   "note": "Without exceptions if no preposition depends on the technical root (otherwise the block fails, C144_root_violated). The place is proved for prepositions without dependents; with a preposition as a dependent it may stay below its parent (C144_nested_violated)."
  },
  {
   "property": "C145",
   "status": "partial",
   "theorems": [
    "Verif.Blocks.Validate.C145_relation",
    "Verif.Blocks.Validate.C145_roots",
    "Verif.Blocks.Validate.C145_valid_partial",
    "Verif.Blocks.Validate.C145_punct_violated",
    "Verif.Blocks.Validate.C145_space_partial",
    "Verif.Blocks.Validate.C145_empty_violated"
   ],
   "note": "One direction of the first sentence holds always; the other one if no word with the relation root has punctuation as its parent. Otherwise the block itself makes the tree invalid (C145_punct_violated). A sentence without words makes the block fail (C145_empty_violated). SpaceAfter of multi-word tokens is not in the model."
  },
  {
   "property": "C146",
   "status": "partial",
   "theorems": [
    "Verif.Blocks.HeadFinal.C146_tree",
    "Verif.Blocks.HeadFinal.C146_structure_partial",
    "Verif.Blocks.HeadFinal.C146_initial_partial",
    "Verif.Blocks.HeadFinal.C146_nested_violated"
   ],
   "note": "The absence of exceptions is proved for all trees, the rest if goeswith/flat words do not depend on each other. For nested ones a word precedes its parent afterwards (C146_nested_violated)."
  },
  {
   "property": "C147",
   "status": "partial",
   "theorems": [
    "Verif.Blocks.Coord.C147_result",
    "Verif.Blocks.Coord.C147_projective_partial",
    "Verif.Blocks.Coord.C147_before_violated"
   ],
   "note": "All is proved for all trees except projectivity, which is proved if all conjuncts follow their heads. Otherwise a projective tree can become non-projective (C147_before_violated)."
  },
  {
   "property": "C148",
   "status": "partial",
   "theorems": [
    "Verif.Blocks.Remnant.C148_result_partial",
    "Verif.Blocks.Remnant.C148_idle",
    "Verif.Blocks.Remnant.C148_root_violated",
    "Verif.Blocks.Remnant.C148_top_violated"
   ],
   "note": "Proved if the first remnant's parent is a word and the top of the treelet is a word that is not a remnant. If the top is the technical root, nothing changes (C148_idle). If the first remnant is a child of the root (C148_root_violated) or the top is a remnant (C148_top_violated), an exception is raised."
  },
  {
   "property": "C149",
   "status": "partial",
   "theorems": [
    "Verif.Blocks.Local.C149_result",
    "Verif.Blocks.Local.C149_clean",
    "Verif.Blocks.Local.C149_idempotent_partial",
    "Verif.Blocks.Local.C149_copula_violated",
    "Verif.Blocks.Local.C149_polarity_violated"
   ],
   "note": "The result is proved for all trees. That a second run changes nothing is proved under two conditions; without them it fails: an nmod before its NOUN copula becomes obl only in the second run (C149_copula_violated), and a second run overwrites Polarity of a remaining neg noun whose Negative was not Neg (C149_polarity_violated). The skip list is empty and the ToDo marks are left out."
  },
  {
   "property": "C15",
   "status": "partial",
   "theorems": [
    "Verif.Tree.C15_shift_structure_partial",
    "Verif.Tree.C15_parents_never_change",
    "Verif.Tree.C15_shift_other_tree_violated"
   ],
   "note": "Proved for words and reference nodes of the same tree; parents never change for any arguments. The code violates 'a call that raises changes nothing' for a reference node of another tree (witness)."
  },
  {
   "property": "C150",
   "status": "partial",
   "theorems": [
    "Verif.Conllu.AddComment.C150_add",
    "Verif.Conllu.AddComment.C150_add_violated",
    "Verif.Conllu.AddComment.C150_free_partial",
    "Verif.Conllu.AddComment.C150_text",
    "Verif.Conllu.AddComment.C150_sentence"
   ],
   "note": "A comment line ending with white space is stripped when a comment is added, exactly then the other lines are not kept (C150_add, C150_add_violated). Added strings contain no line separators."
  },
  {
   "property": "C151",
   "status": "partial",
   "theorems": [
    "Verif.Blocks.Mwe.parse_iff",
    "Verif.Blocks.Mwe.C151_result_partial",
    "Verif.Blocks.Mwe.C151_untyped_violated"
   ],
   "note": "Proved for sentences where each expression has a type at some word. The first word of an expression without a type gets the number and a colon, which cannot be read any more, so that the word drops out of the expression (C151_untyped_violated). Unreadable parts of Mwe are dropped, as the code does with a warning."
  },
  {
   "property": "C152",
   "status": "partial",
   "theorems": [
    "Verif.Blocks.Mwe.C152_result",
    "Verif.Blocks.Mwe.C152_udeprel",
    "Verif.Blocks.Mwe.C152_untyped_violated"
   ],
   "note": "An expression without any type yields an empty subtype: the relation ends with a colon (C152_untyped_violated). Letters of types are ASCII by the pattern, so lower is on ASCII."
  },
  {
   "property": "C153",
   "status": "partial",
   "theorems": [
    "Verif.Empty.NormOrd.C153_fixed",
    "Verif.Empty.NormOrd.C153_result_partial",
    "Verif.Empty.NormOrd.C153_tenth_violated"
   ],
   "note": "Proved for at most nine empty nodes after each word. The tenth gets n.10, which the setter turns into the float n.1, the number of the first (C153_tenth_violated). The order of the nodes before the run is given."
  },
  {
   "property": "C154",
   "status": "partial",
   "theorems": [
    "Verif.Bundle.NormIds.C154_numbers",
    "Verif.Bundle.NormIds.C154_distinct_partial",
    "Verif.Bundle.NormIds.C154_reset_partial",
    "Verif.Bundle.NormIds.C154_reset_violated",
    "Verif.Bundle.NormIds.C154_files_violated"
   ],
   "note": "That ids differ is proved without file names, or with a prefix that ends with a non-digit; with restarting if a file does not contain a second document. Otherwise ids repeat: two documents in one file with restarting (C154_reset_violated), files a1 and a without a prefix (C154_files_violated). Start is a natural number."
  },
  {
   "property": "C155",
   "status": "partial",
   "theorems": [
    "Verif.Blocks.Deproj.head_spec",
    "Verif.Blocks.Deproj.C155_tree",
    "Verif.Blocks.Deproj.C155_one",
    "Verif.Blocks.Deproj.C155_again",
    "Verif.Blocks.Deproj.C155_again_violated",
    "Verif.Blocks.Deproj.C155_roundtrip_partial",
    "Verif.Blocks.Deproj.C155_roundtrip_violated",
    "Verif.Blocks.Deproj.C155_label",
    "Verif.Blocks.Deproj.C155_plus_violated"
   ],
   "note": "The tree, the target and the relations are proved for all inputs (in relations each word has a relation). The round trip holds for one lifted word exactly if its old parent is the first candidate (C155_roundtrip_partial); otherwise the tree is not restored (C155_roundtrip_violated). Marks in MISC stay and a second run may move the word again (C155_again_violated); labels in relations are removed (C155_again). A plus in a subtype destroys the relation (C155_plus_violated). Missing: the round trip with several lifted words."
  },
  {
   "property": "C156",
   "status": "partial",
   "theorems": [
    "Verif.Text.AddText.C156_result_partial",
    "Verif.Text.AddText.C156_end_violated",
    "Verif.Text.AddText.C156_sound"
   ],
   "note": "C156_result_partial needs text after the last token that is not white space. If nothing but white space follows the last token, which is the usual case, the block raises an IndexError for every document (C156_end_violated). An empty line counts only if the gap begins with two line ends. C156_sound has no such conditions."
  },
  {
   "property": "C157",
   "status": "partial",
   "theorems": [
    "Verif.Text.Sentences.C157_roundtrip",
    "Verif.Text.Sentences.C157_newdoc",
    "Verif.Text.Sentences.C157_text",
    "Verif.Text.Sentences.C157_add",
    "Verif.Text.Sentences.C157_empty_violated",
    "Verif.Text.Sentences.C157_none_violated"
   ],
   "note": "With newdoc_if_empty_line=1 a sentence with an empty text is always lost (C157_empty_violated), and a file without sentences makes the reader raise an IndexError (C157_none_violated). The rest is proved under the conditions of the statement."
  },
  {
   "property": "C158",
   "status": "partial",
   "theorems": [
    "Verif.Write.Vislcg.C158_read_partial",
    "Verif.Write.Vislcg.C158_escape",
    "Verif.Write.Vislcg.C158_feats_violated",
    "Verif.Write.Vislcg.C158_mwt_violated",
    "Verif.Write.Vislcg.C158_empty_violated"
   ],
   "note": "C158_read_partial gives exactly what is read. The code violates the statement: the reader loses the first two features of every word (C158_feats_violated), it loses a multi-word token at the end of a sentence (C158_mwt_violated), it never undoes the escapes (C158_escape says which strings are changed), and a tree without words ends the reading of the file (C158_empty_violated)."
  },
  {
   "property": "C159",
   "status": "partial",
   "theorems": [
    "Verif.Coref.Parens.C159_added",
    "Verif.Coref.Parens.C159_balanced",
    "Verif.Coref.Parens.C159_open",
    "Verif.Coref.Parens.C159_close_partial",
    "Verif.Coref.Parens.C159_close_violated",
    "Verif.Coref.Parens.C159_sorted_partial",
    "Verif.Coref.Parens.C159_order_violated",
    "Verif.Coref.Parens.C159_links_violated",
    "Verif.Coref.Parens.C159_marks"
   ],
   "note": "What is added, and that missing opening parentheses are added, is proved for all mentions. The code violates the rest: an added opening parenthesis stands at the end of the list of words (C159_order_violated), after which a missing closing one is no longer found (C159_close_violated), and no added word gets the mention among its mentions (C159_links_violated). The partial theorems give the other cases."
  },
  {
   "property": "C16",
   "status": "proved",
   "theorems": [
    "Verif.Tree.C16_descendants"
   ],
   "note": ""
  },
  {
   "property": "C160",
   "status": "partial",
   "theorems": [
    "Verif.Coref.MarkPairs.C160_nested",
    "Verif.Coref.MarkPairs.C160_interleaved",
    "Verif.Coref.MarkPairs.C160_subspan",
    "Verif.Coref.MarkPairs.C160_crossing_partial",
    "Verif.Coref.MarkPairs.C160_empty_violated",
    "Verif.Coref.MarkPairs.C160_pairs",
    "Verif.Coref.MarkPairs.C160_counts",
    "Verif.Coref.MarkPairs.C160_samesub_violated"
   ],
   "note": "MarkNested, MarkInterleaved, MarkSameSubSpan and MarkPairs are proved as stated; the documentation of same_subspan in MarkPairs asks for a discontinuous mention, the code does not (C160_samesub_violated). MarkCrossing never looks at empty nodes, so mentions that cross only there are not found (C160_empty_violated); for words it is proved (C160_crossing_partial). Missing: the text of the marks and of the log."
  },
  {
   "property": "C161",
   "status": "partial",
   "theorems": [
    "Verif.Coref.Gaps.C161_sequences",
    "Verif.Coref.Gaps.C161_sequences_all",
    "Verif.Coref.Gaps.C161_paragraphs_partial",
    "Verif.Coref.Gaps.C161_last_violated",
    "Verif.Coref.Gaps.C161_first_violated",
    "Verif.Coref.Gaps.C161_empty_violated"
   ],
   "note": "The sequences are proved as stated, with mentions of words. The paragraphs are right except the last one of the file, which is counted even if it has mentions (C161_last_violated), and except that a file that starts with newpar and without newdoc gets a paragraph of length 0 (C161_first_violated). Mentions of empty nodes are not seen (C161_empty_violated). Missing: the printed text."
  },
  {
   "property": "C162",
   "status": "partial",
   "theorems": [
    "Verif.DualDict.Bugs.C162_bug",
    "Verif.DualDict.Bugs.C162_allowed",
    "Verif.DualDict.Bugs.C162_required",
    "Verif.DualDict.Bugs.C162_again",
    "Verif.DualDict.Bugs.C162_mwt",
    "Verif.DualDict.Bugs.C162_several_violated",
    "Verif.DualDict.Bugs.C162_bare_violated"
   ],
   "note": "Proved for bugs without '+'. The code violates the rest: MarkMwtBugsAtNodes appends a list of two bugs or more each time it is used (C162_several_violated), and Bug without a value is an exception (C162_bare_violated). The language-specific tables of MarkFeatsBugs are not modelled."
  },
  {
   "property": "C163",
   "status": "partial",
   "theorems": [
    "Verif.DualDict.MiscBlocks.C163_remove",
    "Verif.DualDict.MiscBlocks.C163_index",
    "Verif.DualDict.MiscBlocks.C163_no_index",
    "Verif.DualDict.MiscBlocks.C163_names",
    "Verif.DualDict.MiscBlocks.C163_names_only",
    "Verif.DualDict.MiscBlocks.C163_concat",
    "Verif.DualDict.MiscBlocks.C163_split",
    "Verif.DualDict.MiscBlocks.C163_escape_violated",
    "Verif.DualDict.MiscBlocks.C163_bare_violated",
    "Verif.DualDict.MiscBlocks.C163_mark"
   ],
   "note": "Proved as stated if the merged attributes have values, except the reading back: a comma and the characters %2C become the same (C163_escape_violated). An attribute without a value is an exception (C163_bare_violated)."
  },
  {
   "property": "C164",
   "status": "partial",
   "theorems": [
    "Verif.Coref.GuessSpan.C164_words",
    "Verif.Coref.GuessSpan.C164_empty_head",
    "Verif.Coref.GuessSpan.C164_no_gap",
    "Verif.Coref.GuessSpan.C164_only",
    "Verif.Coref.GuessSpan.C164_gap_violated",
    "Verif.Coref.GuessSpan.C164_chain_violated"
   ],
   "note": "Proved as stated. What the comment of the block asks for fails at the boundary: an added empty node can make a new gap (C164_gap_violated), and an empty node whose enhanced parent is an added empty node is not added (C164_chain_violated). At most nine empty nodes in a row. Missing: the setter of mention.words."
  },
  {
   "property": "C165",
   "status": "partial",
   "theorems": [
    "Verif.Eval.See.C165_counters",
    "Verif.Eval.See.C165_top",
    "Verif.Eval.See.C165_header_partial",
    "Verif.Eval.See.C165_header_violated",
    "Verif.Eval.See.C165_zero_violated",
    "Verif.Eval.See.C165_total_violated",
    "Verif.Eval.See.C165_overall",
    "Verif.Eval.See.C165_empty_violated"
   ],
   "note": "Proved for n of at least 1 if no value is 'T O T A L'. The code violates the rest: the header says -1 if nothing matches (C165_header_violated), n=0 prints a value if it is the only one (C165_zero_violated), a value 'T O T A L' is never printed (C165_total_violated), input without words is a division by zero (C165_empty_violated). Missing: percentages and formatting."
  },
  {
   "property": "C166",
   "status": "partial",
   "theorems": [
    "Verif.Deps.Normalize.C166_ords",
    "Verif.Deps.Normalize.C166_order",
    "Verif.Deps.Normalize.C166_deps",
    "Verif.Deps.Normalize.C166_again",
    "Verif.Deps.Normalize.C166_ten_violated",
    "Verif.Deps.Normalize.C166_content",
    "Verif.Deps.Normalize.C166_sorted",
    "Verif.Deps.Normalize.C166_same_partial",
    "Verif.Deps.Normalize.C166_case_violated",
    "Verif.Deps.Normalize.C166_empty_violated",
    "Verif.Deps.Normalize.C166_ids",
    "Verif.Deps.Normalize.C166_file_ids_partial",
    "Verif.Deps.Normalize.C166_reset_partial",
    "Verif.Deps.Normalize.C166_newdoc_violated",
    "Verif.Deps.Normalize.C166_digits_violated"
   ],
   "note": "Proved as stated for at most nine empty nodes in a row. The code violates the rest: the tenth empty node gets the ord of the first (C166_ten_violated), names equal up to case are not ordered (C166_case_violated), columns of empty nodes and multi-word tokens are not normalized (C166_empty_violated), with file names the ids can be the same for several documents of a file (C166_newdoc_violated) or for files whose names end with digits (C166_digits_violated); C166_file_ids_partial and C166_reset_partial say when they are different. Missing: newdoc_from_filename."
  },
  {
   "property": "C167",
   "status": "partial",
   "theorems": [
    "Verif.Coref.Print.C167_selected",
    "Verif.Coref.Print.C167_printed",
    "Verif.Coref.Print.C167_highlight",
    "Verif.Coref.Print.C167_subtree",
    "Verif.Coref.Print.C167_clean_partial",
    "Verif.Coref.Print.C167_clean_violated",
    "Verif.Coref.Print.C167_lost_violated"
   ],
   "note": "Proved as stated but for the last sentence, which the code violates: words of selected mentions beyond max_trees keep Mark=1 (C167_clean_violated) and an existing Mark is lost (C167_lost_violated); C167_clean_partial proves it without a limit and without marks before. Because of a comma in __init__, print_total=0 and print_should=0 have no effect. Missing: the attribute ShouldBeInSpanOf, the printed text and the order of mentions."
  },
  {
   "property": "C168",
   "status": "partial",
   "theorems": [
    "Verif.Write.Sdparse.C168_same",
    "Verif.Write.Sdparse.C168_names",
    "Verif.Write.Sdparse.C168_names_partial",
    "Verif.Write.Sdparse.C168_names_violated",
    "Verif.Write.Sdparse.C168_root_violated",
    "Verif.Write.Sdparse.C168_space_violated"
   ],
   "note": "Proved as stated with always_ord (C168_names with C168_same). Without it the code violates the property when a form looks like a repeated form with its number (C168_names_violated; C168_names_partial otherwise). Relations of words below the root are never printed (C168_root_violated, documented in the code), forms with spaces look like several words (C168_space_violated)."
  },
  {
   "property": "C169",
   "status": "partial",
   "theorems": [
    "Verif.Conllu.Conll.C169_same_partial",
    "Verif.Conllu.Conll.C169_written",
    "Verif.Conllu.Conll.C169_columns",
    "Verif.Conllu.Conll.C169_missing",
    "Verif.Conllu.Conll.C169_children_violated",
    "Verif.Conllu.Conll.C169_nohead_violated",
    "Verif.Conllu.Conll.C169_first_violated"
   ],
   "note": "Exceptions, attributes, parents, multi-word tokens and printed files are the same (C169_same_partial, C169_written), the order of columns does not matter (C169_columns), and attributes without a column have their defaults (C169_missing). The code violates the property in the list of children of the root: create_child already adds each word there and it is never removed, so all words are children of the root and the top ones twice (C169_children_violated). Without a column head no sentence can be read (C169_nohead_violated). Hyphens and full stops are looked for in the first column whatever its name (C169_first_violated). Missing: fix_cycles, which is different on purpose for a word attached to itself."
  },
  {
   "property": "C17",
   "status": "proved",
   "theorems": [
    "Verif.Tree.C17_children_call",
    "Verif.Tree.C17_descendants_call",
    "Verif.Tree.C17_siblings_call"
   ],
   "note": "If both filters are given, preceding_only wins, as in the code."
  },
  {
   "property": "C170",
   "status": "partial",
   "theorems": [
    "Verif.Coref.OldFormat.C170_roundtrip",
    "Verif.Coref.OldFormat.C170_old",
    "Verif.Coref.OldFormat.C170_ids",
    "Verif.Coref.OldFormat.C170_bridging",
    "Verif.Coref.OldFormat.C170_ante",
    "Verif.Coref.OldFormat.C170_misc",
    "Verif.Coref.OldFormat.C170_ids_violated",
    "Verif.Coref.OldFormat.C170_hyphens_violated",
    "Verif.Coref.OldFormat.C170_bridging_violated",
    "Verif.Coref.OldFormat.C170_meta_violated"
   ],
   "note": "Attributes: proved for all documents whose ids are not empty and have no hyphens (C170_roundtrip; C170_old says which attributes are deleted). Ids: different ids with hyphens stay different (C170_ids), but the new id may be that of an entity without hyphens (C170_ids_violated), and ids with nothing but hyphens are lost (C170_hyphens_violated). Texts: read back exactly under the conditions in C170_bridging, C170_ante and C170_misc; a colon in a relation stops the reader (C170_bridging_violated). A document without global.Entity cannot be written (C170_meta_violated). Missing: the order of entities after reading, etypes that differ among mentions of an entity."
  },
  {
   "property": "C171",
   "status": "partial",
   "theorems": [
    "Verif.Coref.Grp.C171_numbers",
    "Verif.Coref.Grp.C171_files",
    "Verif.Coref.Grp.C171_ids",
    "Verif.Coref.Grp.C171_back",
    "Verif.Coref.Grp.C171_roundtrip",
    "Verif.Coref.Grp.C171_across",
    "Verif.Coref.Grp.C171_header",
    "Verif.Coref.Grp.C171_disc",
    "Verif.Coref.Grp.C171_new_violated",
    "Verif.Coref.Grp.C171_two_violated",
    "Verif.Coref.Grp.C171_disc_violated"
   ],
   "note": "Proved for all documents as they are loaded. Violated afterwards: an entity created with an id without number is merged with the one that has this id in the file (C171_new_violated), an entity with mentions in two documents is split (C171_two_violated), and for discontinuous mentions the prefix is deleted twice (C171_disc_violated). Missing: targets of bridging links across documents."
  },
  {
   "property": "C172",
   "status": "partial",
   "theorems": [
    "Verif.Coref.Conll2012.C172_reads_partial",
    "Verif.Coref.Conll2012.C172_ids",
    "Verif.Coref.Conll2012.C172_name",
    "Verif.Coref.Conll2012.C172_hyphens_violated",
    "Verif.Coref.Conll2012.C172_parts_violated",
    "Verif.Coref.Conll2012.C172_word_violated",
    "Verif.Coref.Conll2012.C172_hyphen_violated"
   ],
   "note": "Proved for all files in which no mention is opened and closed by two brackets at the same word; such files are rejected (C172_word_violated). Ids (C172_ids): documents whose names differ in hyphens only, and all parts of a document, share their entities (C172_hyphens_violated, C172_parts_violated). The hyphen for words without mentions is not recognised (C172_hyphen_violated). Missing: the division into trees, other columns."
  },
  {
   "property": "C173",
   "status": "partial",
   "theorems": [
    "Verif.Blocks.MarkBugs.C173_clean",
    "Verif.Blocks.MarkBugs.C173_marks",
    "Verif.Blocks.MarkBugs.C173_again",
    "Verif.Blocks.MarkBugs.C173_stats",
    "Verif.Blocks.MarkBugs.C173_cop",
    "Verif.Blocks.MarkBugs.C173_cop_ids",
    "Verif.Blocks.MarkBugs.C173_messages",
    "Verif.Blocks.MarkBugs.C173_substring_violated",
    "Verif.Blocks.MarkBugs.C173_stats_violated",
    "Verif.Blocks.MarkBugs.C173_root_gap_violated",
    "Verif.Blocks.MarkBugs.C173_plus_violated"
   ],
   "note": "C173_clean, C173_again, C173_cop are proved as stated. Marks: proved if no message is part of another item; the only such pair of fixed messages is punct-nonproj and punct-nonproj-gap (C173_messages), and there the mark is lost (C173_substring_violated). Statistics count calls, so that goeswith-space may be counted twice for one word (C173_stats_violated). Punctuation attached to the root that causes a gap is not reported (C173_root_gap_violated). Blocks that separate items by plus signs do not see the items (C173_plus_violated). Missing: the printed overview; whether an edge is non-projective is an input here (see C20)."
  },
  {
   "property": "C174",
   "status": "partial",
   "theorems": [
    "Verif.Text.Boundary.C174_boundary",
    "Verif.Text.Boundary.C174_abbrev",
    "Verif.Text.Boundary.C174_segments",
    "Verif.Text.Boundary.C174_eg_violated",
    "Verif.Text.Boundary.C174_eggs_violated"
   ],
   "note": "C174_boundary and C174_segments are proved with the list as it is in the code (C174_abbrev). The list is not as it is documented: e.g. ends a sentence (C174_eg_violated), and eggs. does not (C174_eggs_violated)."
  },
  {
   "property": "C175",
   "status": "partial",
   "theorems": [
    "Verif.Conllu.Conllup.C175_word",
    "Verif.Conllu.Conllup.C175_misc",
    "Verif.Conllu.Conllup.C175_head",
    "Verif.Conllu.Conllup.C175_names",
    "Verif.Conllu.Conllup.C175_header",
    "Verif.Conllu.Conllup.C175_standard",
    "Verif.Conllu.Conllup.C175_no_header",
    "Verif.Conllu.Conllup.C175_second_header_violated",
    "Verif.Conllu.Conllup.C175_empty_violated",
    "Verif.Conllu.Conllup.C175_mwt_violated"
   ],
   "note": "C175_word, C175_misc, C175_head, C175_names, C175_header and C175_standard prove the claim for the words of the first file. It fails for a second file with other columns (C175_second_header_violated), for multi-word tokens, which are read by position (C175_mwt_violated), and sentences with empty nodes are not read (C175_empty_violated)."
  },
  {
   "property": "C176",
   "status": "partial",
   "theorems": [
    "Verif.Blocks.C176_parse_partial",
    "Verif.Blocks.C176_tag_partial",
    "Verif.Blocks.C176_input",
    "Verif.Blocks.C176_build",
    "Verif.Blocks.C176_nothing",
    "Verif.Blocks.C176_space_violated"
   ],
   "note": "Proved for trees in which no form is empty or has a space (C176_parse_partial, C176_tag_partial) and for tokenization of any text (C176_build). If a form has a space between two words, UDPipe sees more words than the tree has and the call raises (C176_space_violated)."
  },
  {
   "property": "C177",
   "status": "partial",
   "theorems": [
    "Verif.Bundle.Udpipe.C177_bundles",
    "Verif.Bundle.Udpipe.C177_bundles_partial",
    "Verif.Bundle.Udpipe.C177_bundles_violated",
    "Verif.Bundle.Udpipe.C177_resegment",
    "Verif.Bundle.Udpipe.C177_same",
    "Verif.Bundle.Udpipe.C177_segment",
    "Verif.Bundle.Udpipe.C177_other_zones",
    "Verif.Bundle.Udpipe.C177_options",
    "Verif.Bundle.Udpipe.C177_zones_violated",
    "Verif.Bundle.Udpipe.C177_online_partial",
    "Verif.Bundle.Udpipe.C177_online_zones_violated",
    "Verif.Bundle.Udpipe.C177_online_rest_violated",
    "Verif.Bundle.Udpipe.C177_presegmented",
    "Verif.Bundle.Udpipe.C177_presegmented_violated"
   ],
   "note": "Proved for documents with one tree in each bundle. A bundle is in the result as often as it has trees (C177_bundles, C177_bundles_violated); trees of several zones are split into different bundles (C177_zones_violated); the web service shifts the trees to other bundles if a bundle has two trees (C177_online_zones_violated), leaves bundles without analysis if it returns fewer trees (C177_online_rest_violated), and with ranges the option presegmented is set for single trees the wrong way round (C177_presegmented_violated)."
  },
  {
   "property": "C178",
   "status": "partial",
   "theorems": [
    "Verif.Text.SetSpaceLang.C178_text",
    "Verif.Text.SetSpaceLang.C178_kept",
    "Verif.Text.SetSpaceLang.C178_spaces_partial",
    "Verif.Text.SetSpaceLang.C178_en",
    "Verif.Text.SetSpaceLang.C178_en_contraction",
    "Verif.Text.SetSpaceLang.C178_ro",
    "Verif.Text.SetSpaceLang.C178_ro_spaces_partial",
    "Verif.Text.SetSpaceLang.C178_text_violated"
   ],
   "note": "The text stays in agreement for the general block (C178_text). For the languages `changed` is set back to False after their own marks, so the text is not computed if the general rules mark nothing (C178_text_violated, for all sentences without multi-word tokens). The marks are as stated (C178_spaces_partial), with the lists of the block as in C129."
  },
  {
   "property": "C179",
   "status": "proved",
   "theorems": [
    "Verif.Coref.C179_subspans",
    "Verif.Coref.C179_ids",
    "Verif.Coref.C179_empty"
   ],
   "note": "Ords are in tenths as in C36 (empty nodes up to n.9)."
  },
  {
   "property": "C18",
   "status": "proved",
   "theorems": [
    "Verif.Tree.C18_prev_next",
    "Verif.Tree.C18_enumerates"
   ],
   "note": ""
  },
  {
   "property": "C180",
   "status": "partial",
   "theorems": [
    "Verif.Blocks.C180_fixed",
    "Verif.Blocks.C180_known",
    "Verif.Blocks.C180_two_runs",
    "Verif.Blocks.C180_left_violated",
    "Verif.Blocks.C180_space_violated"
   ],
   "note": "Proved when the last fixed child is after the head and the first form has no space. Violated otherwise: AttributeError if all fixed children are before the head (C180_left_violated); a word with a space in its form is never reported as the beginning of a known expression (C180_space_violated)."
  },
  {
   "property": "C181",
   "status": "partial",
   "theorems": [
    "Verif.Text.C181_counts",
    "Verif.Text.C181_tsv",
    "Verif.Text.C181_lines",
    "Verif.Text.C181_no_mwts",
    "Verif.Text.C181_zone_violated",
    "Verif.Text.C181_empty_bundle_violated"
   ],
   "note": "Proved if the first bundle has a tree. Violated: a document without newdoc whose first tree is outside the zones is not counted (C181_zone_violated); IndexError if the first bundle has no tree (C181_empty_bundle_violated)."
  },
  {
   "property": "C182",
   "status": "partial",
   "theorems": [
    "Verif.Write.C182_node",
    "Verif.Write.C182_headers",
    "Verif.Write.C182_sentence_partial",
    "Verif.Write.C182_color_violated",
    "Verif.Write.C182_sentence_violated"
   ],
   "note": "Proved for nodes with color and for the headers. Violated with color=0 (values are not escaped; C182_color_violated) and in SentencesHtml (the sentence is not escaped; C182_sentence_violated). Comments are not modelled."
  },
  {
   "property": "C183",
   "status": "partial",
   "theorems": [
    "Verif.Write.C183_all_zones",
    "Verif.Write.C183_order",
    "Verif.Write.C183_first_violated",
    "Verif.Write.C183_zone_violated"
   ],
   "note": "Proved if all trees of the bundle are in the zones. Violated otherwise: UnboundLocalError if the first tree is outside the zones (C183_first_violated); trees outside the zones are printed if the tree before has a mark (C183_zone_violated)."
  },
  {
   "property": "C184",
   "status": "partial",
   "theorems": [
    "Verif.Run.C184_words",
    "Verif.Run.C184_bad_index",
    "Verif.Run.C184_structure",
    "Verif.Run.C184_reads_partial",
    "Verif.Run.C184_one_by_one",
    "Verif.Run.C184_empty_violated",
    "Verif.Run.C184_end_violated"
   ],
   "note": "Proved for files without empty stanzas and poems. Violated: IndexError for an empty stanza or poem (C184_empty_violated); after the last tree read_tree fails in json.load instead of returning None (C184_end_violated). Keys of punct are natural numbers."
  },
  {
   "property": "C185",
   "status": "partial",
   "theorems": [
    "Verif.Empty.OrdTuple.C185_node",
    "Verif.Empty.OrdTuple.C185_form",
    "Verif.Empty.OrdTuple.C185_no_root",
    "Verif.Empty.OrdTuple.C185_mwt_violated"
   ],
   "note": "Proved for nodes of trees. Violated: MWT.address adds a method to a string (no call), a TypeError for every multi-word token (C185_mwt_violated); a node without root shares its address with nodes of a tree with the address ? (C185_no_root)."
  },
  {
   "property": "C186",
   "status": "partial",
   "theorems": [
    "Verif.Write.Tikz.C186_escape",
    "Verif.Write.Tikz.C186_escape_inj",
    "Verif.Write.Tikz.C186_rows",
    "Verif.Write.Tikz.C186_order",
    "Verif.Write.Tikz.C186_cells_partial",
    "Verif.Write.Tikz.C186_ampersand_violated"
   ],
   "note": "Violated: & is not escaped, so a form such as AT&T gives one column too many (C186_ampersand_violated); C186_cells_partial says that a row has a cell for each word exactly if no value has an ampersand. Other special characters of TeX (%, #, braces, backslash) are not escaped either."
  },
  {
   "property": "C187",
   "status": "partial",
   "theorems": [
    "Verif.Write.Tikz.C187_edges",
    "Verif.Write.Tikz.C187_direction",
    "Verif.Write.Tikz.C187_root_violated",
    "Verif.Write.Tikz.C187_heights_partial",
    "Verif.Write.Tikz.C187_empty_violated",
    "Verif.Write.Tikz.C187_comment",
    "Verif.Write.Tikz.C187_deptrans_violated",
    "Verif.Write.Tikz.C187_last_violated"
   ],
   "note": "Violated: the relation to the root is always printed as root (C187_root_violated); as_tree=1 raises ValueError for a tree without words (C187_empty_violated); the brace of \\deptrans is never closed (C187_deptrans_violated); the last character of the translation is lost at the end of a comment without newline (C187_last_violated). Depths are given."
  },
  {
   "property": "C188",
   "status": "partial",
   "theorems": [
    "Verif.Coref.Html.C188_words_partial",
    "Verif.Coref.Html.C188_balanced",
    "Verif.Coref.Html.C188_two_crossings_violated",
    "Verif.Coref.Html.C188_rtl_violated",
    "Verif.Coref.Html.C188_id_violated"
   ],
   "note": "C188_balanced holds for all mentions without rtl; C188_words_partial if no mention is crossed by two others (by none with rtl). Violated: with two crossings the loop variable is appended instead of the broken mention, so a word of a mention is shown without mention (C188_two_crossings_violated); with rtl a crossing leaves tags open (C188_rtl_violated); a crossing mention has its id twice (C188_id_violated)."
  },
  {
   "property": "C189",
   "status": "partial",
   "theorems": [
    "Verif.Coref.Html.C189_valid",
    "Verif.Coref.Html.C189_kept_partial",
    "Verif.Coref.Html.C189_mentions",
    "Verif.Coref.Html.C189_colours",
    "Verif.Coref.Html.C189_differ",
    "Verif.Coref.Html.C189_same_violated",
    "Verif.Coref.Html.C189_class_violated",
    "Verif.Coref.Html.C189_empty_violated"
   ],
   "note": "Violated: ids with other characters or leading digits coincide (C189_same_violated); the first mention of entity a has the class of the entity ae1 (C189_class_violated); an empty id raises IndexError (C189_empty_violated). isdecimal and \\w are parameters."
  },
  {
   "property": "C19",
   "status": "proved",
   "theorems": [
    "Verif.Tree.C19_is_nonprojective"
   ],
   "note": "Every node of every reachable tree."
  },
  {
   "property": "C190",
   "status": "partial",
   "theorems": [
    "Verif.Coref.Html.C190_files_partial",
    "Verif.Coref.Html.C190_empty_violated"
   ],
   "note": "Proved if there is a tree. Violated: IndexError for a document without trees, after a part of the page is printed (C190_empty_violated)."
  },
  {
   "property": "C191",
   "status": "partial",
   "theorems": [
    "Verif.Write.HtmlJson.C191_values",
    "Verif.Write.HtmlJson.C191_hint",
    "Verif.Write.HtmlJson.C191_links",
    "Verif.Write.HtmlJson.C191_ids",
    "Verif.Write.HtmlJson.C191_root_id",
    "Verif.Write.HtmlJson.C191_control_violated",
    "Verif.Write.HtmlJson.C191_address_violated",
    "Verif.Write.HtmlJson.C191_script_violated",
    "Verif.Write.HtmlJson.C191_ids_violated"
   ],
   "note": "Proved for values without control characters and for the ids within a tree. Violated: control characters are no JSON (C191_control_violated); addresses and zones are not escaped (C191_address_violated); </script> in a value ends the script (C191_script_violated); nodes of different trees can have the same id (C191_ids_violated). The description of the sentence is left out."
  },
  {
   "property": "C192",
   "status": "partial",
   "theorems": [
    "Verif.Write.Treex.C192_tree",
    "Verif.Write.Treex.C192_ids",
    "Verif.Write.Treex.C192_zone",
    "Verif.Write.Treex.C192_text_partial",
    "Verif.Write.Treex.C192_markup_violated",
    "Verif.Write.Treex.C192_ids_violated",
    "Verif.Write.Treex.C192_zone_violated"
   ],
   "note": "C192_tree is about the elements; a value is read back exactly if it has neither < nor & (C192_text_partial). Violated: values are not escaped (C192_markup_violated); two zones of one language in a bundle have the same ids (C192_ids_violated); the zones x and und_x are printed alike (C192_zone_violated). Indentation is left out."
  },
  {
   "property": "C193",
   "status": "partial",
   "theorems": [
    "Verif.Coref.Stats.C193_entities",
    "Verif.Coref.Stats.C193_entities_sum",
    "Verif.Coref.Stats.C193_mentions",
    "Verif.Coref.Stats.C193_mentions_sum",
    "Verif.Coref.Stats.C193_details",
    "Verif.Coref.Stats.C193_upos_sum",
    "Verif.Coref.Stats.C193_longest",
    "Verif.Coref.Stats.C193_per_doc",
    "Verif.Coref.Stats.C193_order",
    "Verif.Coref.Stats.C193_treelet_partial",
    "Verif.Coref.Stats.C193_treelet_violated",
    "Verif.Coref.Stats.C193_upos_violated"
   ],
   "note": "C193_treelet_partial is for mentions without cycles of words. Violated: two empty words which are parents of each other are not counted as another treelet (C193_treelet_violated); the UPOS do not sum up if 'other' is selected (C193_upos_violated). report_basics is left out."
  },
  {
   "property": "C194",
   "status": "partial",
   "theorems": [
    "Verif.Coref.StatsTable.C194_columns",
    "Verif.Coref.StatsTable.C194_rules_partial",
    "Verif.Coref.StatsTable.C194_rules_violated",
    "Verif.Coref.StatsTable.C194_preamble_violated",
    "Verif.Coref.StatsTable.C194_all_upos",
    "Verif.Coref.StatsTable.C194_all_upos_violated",
    "Verif.Coref.StatsTable.C194_pages",
    "Verif.Coref.StatsTable.C194_max_rows_violated",
    "Verif.Coref.StatsTable.C194_empty_page_violated"
   ],
   "note": "Violated: with report_basics a rule begins at column 6 instead of 10 (C194_rules_violated); the preamble has one column more than the rows (C194_preamble_violated); with selected_upos=all and per_doc the header is made for the first document of the page only (C194_all_upos_violated); a page has max_rows_per_page + 1 rows (C194_max_rows_violated) and the last one can be empty (C194_empty_page_violated)."
  },
  {
   "property": "C195",
   "status": "partial",
   "theorems": [
    "Verif.Coref.FixUd02.C195_types",
    "Verif.Coref.FixUd02.C195_case",
    "Verif.Coref.FixUd02.C195_mentions",
    "Verif.Coref.FixUd02.C195_idempotent_partial",
    "Verif.Coref.FixUd02.C195_idempotent_violated",
    "Verif.Coref.FixUd02.C195_prefix_violated"
   ],
   "note": "Violated: a type which only begins with gen or spec loses these letters (C195_prefix_violated); removing can make a new gen or spec, so that the second run changes the type again (C195_idempotent_violated). lower works on single characters."
  },
  {
   "property": "C196",
   "status": "partial",
   "theorems": [
    "Verif.Coref.FixUd02.C196_relations",
    "Verif.Coref.FixUd02.C196_no_hyphen",
    "Verif.Coref.FixUd02.C196_idempotent_partial",
    "Verif.Coref.FixUd02.C196_header",
    "Verif.Coref.FixUd02.C196_inverse_violated",
    "Verif.Coref.FixUd02.C196_idempotent_violated",
    "Verif.Coref.FixUd02.C196_gum_violated"
   ],
   "note": "Violated: the inverse of r and the relation ir get the same label (C196_inverse_violated); removing can make a new indirect_ (C196_idempotent_violated); entities are loaded after the header has been replaced, so that types are read as ids and ids as types (C196_gum_violated), unless they have been loaded by an earlier block."
  },
  {
   "property": "C197",
   "status": "partial",
   "theorems": [
    "Verif.Run.EvalCode.C197_tokens",
    "Verif.Run.EvalCode.C197_token",
    "Verif.Run.EvalCode.C197_dollar",
    "Verif.Run.EvalCode.C197_bracket_violated",
    "Verif.Run.EvalCode.C197_name_violated"
   ],
   "note": "Violated: what follows count_ up to whitespace becomes the key, also a bracket closing a call (C197_bracket_violated); names which contain count_ are expanded too (C197_name_violated)."
  },
  {
   "property": "C198",
   "status": "partial",
   "theorems": [
    "Verif.Run.EvalCode.C198_trees",
    "Verif.Run.EvalCode.C198_bundles",
    "Verif.Run.EvalCode.C198_findbug",
    "Verif.Run.EvalCode.C198_minimal_partial",
    "Verif.Run.EvalCode.C198_minimal_violated"
   ],
   "note": "The code is not interpreted: it does not change the document. Violated: a failure which depends on earlier bundles is not reproduced by the printed bundle (C198_minimal_violated)."
  },
  {
   "property": "C199",
   "status": "proved",
   "theorems": [
    "Verif.Coref.PrintEnt.C199_groups",
    "Verif.Coref.PrintEnt.C199_counts",
    "Verif.Coref.PrintEnt.C199_order",
    "Verif.Coref.PrintEnt.C199_prefix",
    "Verif.Coref.PrintEnt.C199_line",
    "Verif.Coref.PrintEnt.C199_entities"
   ],
   "note": "Reading back is for ranges without spaces and closing parentheses."
  },
  {
   "property": "C20",
   "status": "partial",
   "theorems": [
    "Verif.Tree.C20_is_nonprojective_gap_partial",
    "Verif.Tree.C20_root_gap_violated"
   ],
   "note": "Proved for every word; for the technical root the code answers true in almost every tree (proved for every such tree)."
  },
  {
   "property": "C200",
   "status": "partial",
   "theorems": [
    "Verif.Blocks.MwePoss.C200_number",
    "Verif.Blocks.MwePoss.C200_mwes",
    "Verif.Blocks.MwePoss.C200_descendants",
    "Verif.Blocks.MwePoss.C200_report",
    "Verif.Blocks.MwePoss.C200_head_violated"
   ],
   "note": "Violated: the topmost word of the expression is neither examined nor printed (C200_head_violated). descendants is given by its meaning; the type of the expression is left out."
  },
  {
   "property": "C201",
   "status": "proved",
   "theorems": [
    "Verif.Deps.Secondary.C201_deps",
    "Verif.Deps.Secondary.C201_idempotent",
    "Verif.Deps.Secondary.C201_others"
   ],
   "note": ""
  },
  {
   "property": "C202",
   "status": "partial",
   "theorems": [
    "Verif.Deps.Secondary.C202_echildren",
    "Verif.Deps.Secondary.C202_conjunct_violated",
    "Verif.Deps.Secondary.C202_self_violated",
    "Verif.Deps.Secondary.C202_root_violated",
    "Verif.Deps.Secondary.C202_mydobj_partial",
    "Verif.Deps.Secondary.C202_mydobj_violated"
   ],
   "note": "The code violates it: `echildren` looks at the children of the effective parent (for a conjunct, the parent of the first conjunct) and not of the first conjunct; outside coordinations it takes dependents of the parent for shared ones, so that a word can be its own effective child and a participle gets its parent's object; a conjunct of the technical root raises an exception. Proved: what is returned, and the triples where the parent has no object."
  },
  {
   "property": "C203",
   "status": "partial",
   "theorems": [
    "Verif.Blocks.Msf.C203_features",
    "Verif.Blocks.Msf.C203_case",
    "Verif.Blocks.Msf.C203_adposition",
    "Verif.Blocks.Msf.C203_no_phrase",
    "Verif.Blocks.Msf.C203_phrase",
    "Verif.Blocks.Msf.C203_names",
    "Verif.Blocks.Msf.C203_others",
    "Verif.Blocks.Msf.C203_idempotent_partial",
    "Verif.Blocks.Msf.C203_idempotent_violated"
   ],
   "note": "The code violates the last sentence: where a phrase attribute differs from the feature of the same name, the second run takes the feature. Values are strings (an attribute without a value is left out)."
  },
  {
   "property": "C204",
   "status": "partial",
   "theorems": [
    "Verif.Blocks.Msf.C204_subject",
    "Verif.Blocks.Msf.C204_none",
    "Verif.Blocks.Msf.C204_verb",
    "Verif.Blocks.Msf.C204_once",
    "Verif.Blocks.Msf.C204_clausal_violated",
    "Verif.Blocks.Msf.C204_existing_violated",
    "Verif.Blocks.Msf.C204_function",
    "Verif.Blocks.Msf.C204_counted",
    "Verif.Blocks.Msf.C204_uncounted",
    "Verif.Blocks.Msf.C204_counted_violated"
   ],
   "note": "The code violates it: it looks for an abstract subject among the verb's own enhanced relations, so that a verb which is itself a (clausal) subject gets none and one which has an abstract subject gets another; a noun counted by a quantifier of unknown case loses the genitive."
  },
  {
   "property": "C205",
   "status": "partial",
   "theorems": [
    "Verif.Write.Complexity.C205_depths",
    "Verif.Write.Complexity.C205_clauses",
    "Verif.Write.Complexity.C205_max",
    "Verif.Write.Complexity.C205_stale_violated"
   ],
   "note": "The code violates the last part: marks ClauseHead which MISC had before the block count for t-units but not as clauses. The conditions on single words are parameters."
  },
  {
   "property": "C206",
   "status": "partial",
   "theorems": [
    "Verif.Write.Complexity.C206_units",
    "Verif.Write.Complexity.C206_total",
    "Verif.Write.Complexity.C206_total_iff",
    "Verif.Write.Complexity.C206_simple_violated",
    "Verif.Write.Complexity.C206_within"
   ],
   "note": "The code violates it: there is one t-unit for each dependent clause, all repeating the main clause, and none for a sentence without dependent clauses; the total length is the number of words exactly if there is one dependent clause. Proved: the main clause and the dependent clauses divide the subtree of the head."
  },
  {
   "property": "C207",
   "status": "proved",
   "theorems": [
    "Verif.Text.Hyphen.C207_maximal",
    "Verif.Text.Hyphen.C207_complete",
    "Verif.Text.Hyphen.C207_disjoint",
    "Verif.Text.Hyphen.C207_places"
   ],
   "note": "A hyphen is not alphanumeric; this is a hypothesis on the two conditions on tokens."
  },
  {
   "property": "C208",
   "status": "partial",
   "theorems": [
    "Verif.Text.Hyphen.C208_catena",
    "Verif.Text.Hyphen.C208_joins",
    "Verif.Text.Hyphen.C208_keeps_partial",
    "Verif.Text.Hyphen.C208_members",
    "Verif.Text.Hyphen.C208_keeps_violated",
    "Verif.Text.Hyphen.C208_marks"
   ],
   "note": "The code violates the part on deletion: whatever hangs on a hyphen of the compound is deleted with it, and the multiword token is then made of words that are not in the tree. Proved when no hyphen has children. Forms, SpaceAfter and the text of the sentence are not modelled."
  },
  {
   "property": "C209",
   "status": "partial",
   "theorems": [
    "Verif.Deps.Reattach.C209_reattach",
    "Verif.Deps.Reattach.C209_not_there",
    "Verif.Deps.Reattach.C209_set",
    "Verif.Deps.Reattach.C209_attach_partial",
    "Verif.Deps.Reattach.C209_attach_violated",
    "Verif.Deps.Reattach.C209_overwrites_violated",
    "Verif.Deps.Reattach.C209_tener",
    "Verif.Deps.Reattach.C209_places"
   ],
   "note": "Proved for the first and, as documented there (all relations to the former parent go), for the second function; the third violates it: with two or more enhanced relations it changes none, and a single enhanced relation is overwritten even if it is not the basic one. The regular expressions on words are parameters and the cycle check is not modelled."
  },
  {
   "property": "C21",
   "status": "partial",
   "theorems": [
    "Verif.Tree.C21_treelet_partial",
    "Verif.Tree.C21_treelet_meet_partial",
    "Verif.Tree.TreeletAny.C21_any_partial",
    "Verif.Tree.C21_treelet_violated"
   ],
   "note": "Proved for nodes of equal depth, and for any depths if the climb does not reach the technical root before the components meet; violated otherwise (witness). For any nodes a result is returned whose top is not deeper than any of the nodes (C21_any_partial)."
  },
  {
   "property": "C210",
   "status": "partial",
   "theorems": [
    "Verif.Blocks.DaSubjects.C210_dist",
    "Verif.Blocks.DaSubjects.C210_one_partial",
    "Verif.Blocks.DaSubjects.C210_children",
    "Verif.Blocks.DaSubjects.C210_nearer",
    "Verif.Blocks.DaSubjects.C210_target_violated",
    "Verif.Blocks.DaSubjects.C210_three_violated",
    "Verif.Blocks.DaSubjects.C210_none_violated"
   ],
   "note": "The code violates the first sentence: three subjects are left alone, so are two without a suitable sibling or with an xcomp that does not fit, and a sibling that has a subject gets a second one. The change of the relation to advcl and the ToDo mark are not modelled."
  },
  {
   "property": "C211",
   "status": "proved",
   "theorems": [
    "Verif.Coref.Gum.C211_nothing_lost",
    "Verif.Coref.Gum.C211_items",
    "Verif.Coref.Gum.C211_ambiguous",
    "Verif.Coref.Gum.C211_pairs",
    "Verif.Coref.Gum.C211_refused"
   ],
   "note": "The attributes of an opening item other than the name of the entity are not modelled."
  },
  {
   "property": "C212",
   "status": "partial",
   "theorems": [
    "Verif.Coref.Gum.C212_removed",
    "Verif.Coref.Gum.C212_clean_partial",
    "Verif.Coref.Gum.C212_clean_violated"
   ],
   "note": "The code violates the second part: it deletes the entity whose name was read last instead of the one left without mentions, or fails with a KeyError. Proved where the two are the same or no entity loses all its mentions."
  },
  {
   "property": "C213",
   "status": "partial",
   "theorems": [
    "Verif.Text.GoogleMerge.C213_neighbours",
    "Verif.Text.GoogleMerge.C213_goeswith",
    "Verif.Text.GoogleMerge.C213_merges",
    "Verif.Text.GoogleMerge.C213_distant_violated",
    "Verif.Text.GoogleMerge.C213_prefix",
    "Verif.Text.GoogleMerge.C213_suffix_partial",
    "Verif.Text.GoogleMerge.C213_suffix_violated",
    "Verif.Text.GoogleMerge.C213_tree",
    "Verif.Text.GoogleMerge.C213_below_violated",
    "Verif.Text.GoogleMerge.C213_feats"
   ],
   "note": "Holds for goeswith and for prefixes written together. The code violates it elsewhere: a suffix followed by a space loses the space, the Turkish merge of words that are not neighbours moves a form, and a merge with a word deeper below the deleted one fails with an exception. Conditions on tags and relations are not modelled."
  },
  {
   "property": "C214",
   "status": "partial",
   "theorems": [
    "Verif.Blocks.GoogleSwap.C214_copula",
    "Verif.Blocks.GoogleSwap.C214_tree",
    "Verif.Blocks.GoogleSwap.C214_conj",
    "Verif.Blocks.GoogleSwap.C214_pobj",
    "Verif.Blocks.GoogleSwap.C214_prep",
    "Verif.Blocks.GoogleSwap.C214_prep_places",
    "Verif.Blocks.GoogleSwap.C214_none_left_partial",
    "Verif.Blocks.GoogleSwap.C214_chain_violated",
    "Verif.Blocks.GoogleSwap.C214_root_violated"
   ],
   "note": "The code violates the last part: an acomp hanging on a later acomp takes over that relation after it was visited and keeps it, and an acomp on the technical root stops the block. Conditions on languages, forms and tags are parameters."
  },
  {
   "property": "C215",
   "status": "partial",
   "theorems": [
    "Verif.Text.Marathi.C215_possessive",
    "Verif.Text.Marathi.C215_on",
    "Verif.Text.Marathi.C215_together_partial",
    "Verif.Text.Marathi.C215_regex_violated",
    "Verif.Text.Marathi.C215_lemma",
    "Verif.Text.Marathi.C215_three",
    "Verif.Text.Marathi.C215_keeps",
    "Verif.Text.Marathi.C215_forms"
   ],
   "note": "The code uses a lemma as a regular expression without escaping; for a lemma that matches another string the first part is violated. Proved for lemmas taken literally. The correction of the lemma of the postposition is not modelled."
  },
  {
   "property": "C216",
   "status": "proved",
   "theorems": [
    "Verif.Coref.MiscStats.C216_attributes",
    "Verif.Coref.MiscStats.C216_values",
    "Verif.Coref.MiscStats.C216_total"
   ],
   "note": "Printing itself is not modelled; the maximal number is a number, not a string."
  },
  {
   "property": "C217",
   "status": "partial",
   "theorems": [
    "Verif.Blocks.SpuriousAux.C217_places",
    "Verif.Blocks.SpuriousAux.C217_tree",
    "Verif.Blocks.SpuriousAux.C217_root",
    "Verif.Blocks.SpuriousAux.C217_fixed_partial",
    "Verif.Blocks.SpuriousAux.C217_chain_violated",
    "Verif.Blocks.SpuriousAux.C217_root_violated"
   ],
   "note": "The code violates the last sentence: an auxiliary on another auxiliary takes over its relation aux, and one on the technical root raises an exception. Proved where the parent is neither. The lists of lemmas and relations are parameters; the UPOS set is not modelled."
  },
  {
   "property": "C218",
   "status": "partial",
   "theorems": [
    "Verif.Text.Tutorial.C218_words",
    "Verif.Text.Tutorial.C218_text_partial",
    "Verif.Text.Tutorial.C218_glued_violated"
   ],
   "note": "The code violates the part on the text: a comma without spaces around it, as in numbers, is replaced by a space. Proved for commas written directly after a word and followed by a space. Multiword tokens are not modelled."
  },
  {
   "property": "C219",
   "status": "partial",
   "theorems": [
    "Verif.Text.Tutorial.C219_exactly",
    "Verif.Text.Tutorial.C219_flat",
    "Verif.Text.Tutorial.C219_root_violated"
   ],
   "note": "The first two parts are proved; the code violates the last one for every sentence of two words or more, since it gives root to all words but the last."
  },
  {
   "property": "C22",
   "status": "partial",
   "theorems": [
    "Verif.Mwt.C22_mwt_consistent_partial",
    "Verif.Mwt.C22_mwt_calls",
    "Verif.Mwt.C22_stale_remove_violated"
   ],
   "note": "Invariant over all call histories that never call remove twice on the same token; a second remove on an already removed token is a violation."
  },
  {
   "property": "C220",
   "status": "partial",
   "theorems": [
    "Verif.Text.Tutorial.C220_consistent",
    "Verif.Text.Tutorial.C220_repaired_partial",
    "Verif.Text.Tutorial.C220_ellipsis_violated"
   ],
   "note": "The code violates the second part when the form before the dot ends with two dots. Proved when another character comes before the dot of the abbreviation. Multiword tokens are not modelled."
  },
  {
   "property": "C221",
   "status": "proved",
   "theorems": [
    "Verif.Text.Marks.C221_text",
    "Verif.Text.Marks.C221_none_left",
    "Verif.Text.Marks.C221_twice",
    "Verif.Text.Marks.C221_words"
   ],
   "note": "Word characters are a parameter that does not include the marks themselves. Multiword tokens, Feats and the mark in MISC are not modelled."
  },
  {
   "property": "C222",
   "status": "partial",
   "theorems": [
    "Verif.Text.Marks.C222_text",
    "Verif.Text.Marks.C222_tagged",
    "Verif.Text.Marks.C222_joined",
    "Verif.Text.Marks.C222_dot_children_partial",
    "Verif.Text.Marks.C222_dot_head_violated"
   ],
   "note": "The code violates the last sentence if the number hangs on its dot: it ends with an exception. Proved if the dot is not above the number. Number words (lines 47-55) are a parameter that changes no form."
  },
  {
   "property": "C223",
   "status": "partial",
   "theorems": [
    "Verif.Blocks.Galician.C223_tree",
    "Verif.Blocks.Galician.C223_copula",
    "Verif.Blocks.Galician.C223_best",
    "Verif.Blocks.Galician.C223_places",
    "Verif.Blocks.Galician.C223_childless",
    "Verif.Blocks.Galician.C223_none_left_partial",
    "Verif.Blocks.Galician.C223_before_violated",
    "Verif.Blocks.Galician.C223_chain_violated"
   ],
   "note": "The code violates two parts: a copula after its complement gets xcomp when its turn comes, and a preposition below a later one takes it as its child. Proved for the single step, and for the whole block without cop if no such word hangs on another one."
  },
  {
   "property": "C224",
   "status": "partial",
   "theorems": [
    "Verif.Text.Lemmas.C224_kept",
    "Verif.Text.Lemmas.C224_typo_kept_partial",
    "Verif.Text.Lemmas.C224_rules_partial",
    "Verif.Text.Lemmas.C224_twice",
    "Verif.Text.Lemmas.C224_negated",
    "Verif.Text.Lemmas.C224_features",
    "Verif.Text.Lemmas.C224_dictionary",
    "Verif.Text.Lemmas.C224_typo_violated",
    "Verif.Text.Lemmas.C224_degree_violated",
    "Verif.Text.Lemmas.C224_verbs_violated"
   ],
   "note": "The code violates three parts: typos with an empty lemma are changed, adjectives in any degree and polarity get their form as lemma, and Chinese verbs without negation and copula stay without lemma. Proved for the rest."
  },
  {
   "property": "C225",
   "status": "partial",
   "theorems": [
    "Verif.Deps.Contexts.C225_contexts",
    "Verif.Deps.Contexts.C225_merge",
    "Verif.Deps.Contexts.C225_once_partial",
    "Verif.Deps.Contexts.C225_conj_violated",
    "Verif.Deps.Contexts.C225_zones_violated",
    "Verif.Deps.Contexts.C225_scenario_violated",
    "Verif.Deps.Contexts.C225_query_violated"
   ],
   "note": "Which contexts are printed is proved. The code violates the rest: the context of a conjunct is printed twice; args arrive as zones in the base class, so with nothing or a dict the first tree raises an exception; an unknown query raises TypeError."
  },
  {
   "property": "C226",
   "status": "partial",
   "theorems": [
    "Verif.Blocks.Slavic.C226_ords",
    "Verif.Blocks.Slavic.C226_once_partial",
    "Verif.Blocks.Slavic.C226_past_or_conditional_partial",
    "Verif.Blocks.Slavic.C226_conjunction_violated",
    "Verif.Blocks.Slavic.C226_hteti_violated",
    "Verif.Blocks.Slavic.C226_twice_violated"
   ],
   "note": "The code violates the parts on once and exclusion: a child in two groups is listed twice, a finite past with a conditional conjunction gets both, and so does a present with the Serbian future auxiliary. Proved for children as the guidelines have them, and for participles, passives and copulas. Attributes other than tense, mood and the list are not modelled."
  },
  {
   "property": "C227",
   "status": "partial",
   "theorems": [
    "Verif.Blocks.Articles.C227_head",
    "Verif.Blocks.Articles.C227_es_partial",
    "Verif.Blocks.Articles.C227_es_last_violated",
    "Verif.Blocks.Articles.C227_fr_partial",
    "Verif.Blocks.Articles.C227_fr_last_violated",
    "Verif.Blocks.Articles.C227_rel",
    "Verif.Blocks.Articles.C227_cs_partial"
   ],
   "note": "The code violates the first part: a contraction at the end of the sentence whose words hang to the left raises AttributeError. Proved if the article is not the last word, and for Czech if the first word is not on the technical root."
  },
  {
   "property": "C228",
   "status": "partial",
   "theorems": [
    "Verif.Blocks.ElQue.C228_tree",
    "Verif.Blocks.ElQue.C228_result",
    "Verif.Blocks.ElQue.C228_no_exception_partial",
    "Verif.Blocks.ElQue.C228_adp_violated",
    "Verif.Blocks.ElQue.C228_clause_violated"
   ],
   "note": "The code violates the absence of exceptions: a determiner below its preposition, or a parent of the verb below the determiner, raises CycleError. Proved for all other trees, and the rest whenever there is no exception. The printing of patterns is not modelled."
  },
  {
   "property": "C229",
   "status": "partial",
   "theorems": [
    "Verif.Blocks.SlavicPre.C229_clean",
    "Verif.Blocks.SlavicPre.C229_only",
    "Verif.Blocks.SlavicPre.C229_gender",
    "Verif.Blocks.SlavicPre.C229_tense",
    "Verif.Blocks.SlavicPre.C229_future",
    "Verif.Blocks.SlavicPre.C229_twice_partial",
    "Verif.Blocks.SlavicPre.C229_gender_violated",
    "Verif.Blocks.SlavicPre.C229_reflex_violated"
   ],
   "note": "The code violates two parts: the pronoun changed from expl:pv to iobj keeps the Reflex=Yes just added, and a verb before its subject takes over a doubtful gender, so a second run can differ. The second run is proved without doubtful genders."
  },
  {
   "property": "C23",
   "status": "proved",
   "theorems": [
    "Verif.Mwt.C23_token_descendants"
   ],
   "note": ""
  },
  {
   "property": "C230",
   "status": "partial",
   "theorems": [
    "Verif.Blocks.Indonesian.C230_text",
    "Verif.Blocks.Indonesian.C230_words",
    "Verif.Blocks.Indonesian.C230_redup",
    "Verif.Blocks.Indonesian.C230_rejoin_partial",
    "Verif.Blocks.Indonesian.C230_dash_violated",
    "Verif.Blocks.Indonesian.C230_number_violated"
   ],
   "note": "The code violates the absence of exceptions for numerals: a word below the dash, or below the number but not directly, raises CycleError. Proved for the other trees, and for reduplication in all. Visits of deleted words by the loop, multiword tokens, lemmas and features are not modelled."
  },
  {
   "property": "C231",
   "status": "partial",
   "theorems": [
    "Verif.Blocks.Hdt.C231_forms",
    "Verif.Blocks.Hdt.C231_text_partial",
    "Verif.Blocks.Hdt.C231_text_violated",
    "Verif.Blocks.Hdt.C231_words",
    "Verif.Blocks.Hdt.C231_twice",
    "Verif.Blocks.Hdt.C231_case",
    "Verif.Blocks.Hdt.C231_case_violated",
    "Verif.Blocks.Hdt.C231_tree"
   ],
   "note": "The code violates two parts: a contraction inside a multiword token dissolves that token, which adds spaces to the text, and a capitalised abbreviation as Z. gives words in capitals. The text is proved without contractions in multiword tokens. Features other than PronType are not modelled."
  },
  {
   "property": "C232",
   "status": "partial",
   "theorems": [
    "Verif.Deps.Edeprels.C232_twice",
    "Verif.Deps.Edeprels.C232_relation",
    "Verif.Deps.Edeprels.C232_table",
    "Verif.Deps.Edeprels.C232_outer",
    "Verif.Deps.Edeprels.C232_adposition",
    "Verif.Deps.Edeprels.C232_stay",
    "Verif.Deps.Edeprels.C232_early",
    "Verif.Deps.Edeprels.C232_cs_exceptions",
    "Verif.Deps.Edeprels.C232_cs_table_violated",
    "Verif.Deps.Edeprels.C232_cs_twice_violated"
   ],
   "note": "Proved for the Lithuanian block. The Czech tables violate the claim: entries such as aby_na are hidden by an outermost marker, and ačkoliv with a preposition needs two runs. The other rules of the Czech, Russian and Arabic blocks are not modelled."
  },
  {
   "property": "C233",
   "status": "partial",
   "theorems": [
    "Verif.Text.Newspeak.C233_exception",
    "Verif.Text.Newspeak.C233_twice",
    "Verif.Text.Newspeak.C233_tag",
    "Verif.Text.Newspeak.C233_degree",
    "Verif.Text.Newspeak.C233_antonym_partial",
    "Verif.Text.Newspeak.C233_negated_violated"
   ],
   "note": "The code violates the polarity of negated words: it tests position 11 of the tag instead of 10, so that a negated word is negated twice. Proved for tags whose position 11 is not N. process_tree is not modelled."
  },
  {
   "property": "C234",
   "status": "partial",
   "theorems": [
    "Verif.Text.EsVerbs.C234_infinitive",
    "Verif.Text.EsVerbs.C234_participle",
    "Verif.Text.EsVerbs.C234_other",
    "Verif.Text.EsVerbs.C234_twice",
    "Verif.Text.EsVerbs.C234_finite_violated",
    "Verif.Text.EsVerbs.C234_accent_violated"
   ],
   "note": "The code does not tell finite forms from participles and gerunds: every verb in -ida or -ndo except entiendo loses mood and person (cuida, vendo). Infinitives with an accent (oír) are not recognised. The rest is proved for every word."
  },
  {
   "property": "C235",
   "status": "partial",
   "theorems": [
    "Verif.Text.Affix.C235_words",
    "Verif.Text.Affix.C235_letters_partial",
    "Verif.Text.Affix.C235_text_partial",
    "Verif.Text.Affix.C235_first_violated",
    "Verif.Text.Affix.C235_space_violated",
    "Verif.Text.Affix.C235_last_violated"
   ],
   "note": "Violated in three cases: a suffix as first word is lost in the technical root, the space after a suffix is lost if there was none before it, and a prefix as last word raises AttributeError (exactly then). Letters are proved for sentences that do not start with a suffix, the text if moreover no space follows an affix. The tree is not part of this model."
  },
  {
   "property": "C236",
   "status": "partial",
   "theorems": [
    "Verif.Text.GaTo2.C236_ga_verb",
    "Verif.Text.GaTo2.C236_ga_word",
    "Verif.Text.GaTo2.C236_ga_twice",
    "Verif.Text.GaTo2.C236_ga_todo_violated",
    "Verif.Text.GaTo2.C236_he",
    "Verif.Text.GaTo2.C236_he_todo_violated",
    "Verif.Text.GaTo2.C236_ro"
   ],
   "note": "The part on notes is violated: ga.To2 deletes all notes of a word if nmod occurs anywhere among them, and he.FixNeg keeps the note neg if another one follows it. Everything else is proved for every sentence. Warnings are not modelled."
  },
  {
   "property": "C24",
   "status": "partial",
   "theorems": [
    "Verif.Empty.C24_create_empty_child_partial",
    "Verif.Empty.C24_tenth_violated",
    "Verif.Empty.C24_child_of_empty_violated"
   ],
   "note": "Words with a free slot: proved. A tenth empty node at one place raises TypeError; a child of an empty node x.9 gets the ord of a word."
  },
  {
   "property": "C25",
   "status": "partial",
   "theorems": [
    "Verif.Empty.C25_remove_subtree_partial",
    "Verif.Empty.C25_remove_word_partial",
    "Verif.Empty.C25_remove_order",
    "Verif.Empty.C25_remove_overflow_violated",
    "Verif.Empty.C25_shift_word_partial",
    "Verif.Empty.C25_shift_word_violated",
    "Verif.Empty.C25_shift_subtree_violated"
   ],
   "note": "Removal: proved when the nine ords suffice, order always; overflow is a violation. Shift of one word: holds exactly if no empty node follows the moved word; shifts of subtrees ignore empty nodes."
  },
  {
   "property": "C26",
   "status": "partial",
   "theorems": [
    "Verif.Deps.C26_deps_to_raw_partial",
    "Verif.Deps.C26_raw_to_deps_partial",
    "Verif.Deps.C26_empty_deps_violated",
    "Verif.Deps.C26_clear_violated",
    "Verif.Deps.C26_second_read_violated"
   ],
   "note": "Both round trips for non-empty lists, relations without '|' and heads without leading zeros. Empty lists, emptying in place and a second read after an error are violations."
  },
  {
   "property": "C27",
   "status": "partial",
   "theorems": [
    "Verif.Empty.C27_deps_lost_violated",
    "Verif.Empty.C27_no_deps_partial"
   ],
   "note": "Violated for every node with parsed enhanced dependencies."
  },
  {
   "property": "C28",
   "status": "partial",
   "theorems": [
    "Verif.Conllu.C28_read_partial",
    "Verif.Conllu.C28_read_ends",
    "Verif.Conllu.C28_no_false_alarm",
    "Verif.Conllu.C28_self_loop_violated",
    "Verif.Conllu.C28_diverges_violated",
    "Verif.Conllu.C28_ids_violated",
    "Verif.Conllu.C28_negative_head_violated"
   ],
   "note": "Proved for every list of lines whose word lines are numbered 1..n and, with fix_cycles, without a word that is its own HEAD. Violated otherwise: IDs are not checked, negative HEADs count from the end, a self-loop survives fix_cycles and can make the reader loop for ever."
  },
  {
   "property": "C29",
   "status": "partial",
   "theorems": [
    "Verif.Conllu.C29_roundtrip_partial",
    "Verif.Conllu.C29_space_after_violated",
    "Verif.Conllu.C29_no_form_violated"
   ],
   "note": "Proved for every representable tree with any words, empty nodes and multi-word tokens, and any reader options. False for words inside multi-word tokens that have a SpaceAfter of their own and for words without form or lemma. Numbers of empty nodes are exact decimals."
  },
  {
   "property": "C30",
   "status": "proved",
   "theorems": [
    "Verif.Conllu.C30_blocks",
    "Verif.Conllu.C30_last_block"
   ],
   "note": "All lists of blocks, any number of empty lines after each, also with the last block ending the text."
  },
  {
   "property": "C31",
   "status": "partial",
   "theorems": [
    "Verif.Conllu.Meta.C31_metadata_partial"
   ],
   "note": "For all representable metadata, whenever the writer does not raise. Missing: the crash of C66 and free comments that look like metadata (C68)."
  },
  {
   "property": "C32",
   "status": "partial",
   "theorems": [
    "Verif.Bundle.C32_zones_unique_partial",
    "Verif.Bundle.C32_rejected_unchanged",
    "Verif.Bundle.C32_accepted",
    "Verif.Bundle.C32_valid_accepted",
    "Verif.Bundle.C32_remove_tree",
    "Verif.Bundle.C32_newline_violated",
    "Verif.Bundle.C32_two_bundles_violated",
    "Verif.Bundle.C32_rejected_sent_id_violated"
   ],
   "note": "Invariant over all histories in which a tree is in one bundle at a time. Zones ending in a newline are accepted; a tree added to a second bundle escapes the check; a rejected sent_id assignment changes the bundle id."
  },
  {
   "property": "C33",
   "status": "partial",
   "theorems": [
    "Verif.Bundle.C33_set_bundle_id_partial",
    "Verif.Bundle.C33_addresses_distinct",
    "Verif.Bundle.C33_add_tree",
    "Verif.Bundle.C33_empty_zone_violated",
    "Verif.Bundle.C33_own_sent_id_violated",
    "Verif.Bundle.C33_own_sent_id_partial"
   ],
   "note": "Addresses distinct always; the empty zone among others gets 'id/'; assigning the own sent_id raises for every non-empty zone."
  },
  {
   "property": "C34",
   "status": "proved",
   "theorems": [
    "Verif.Bundle.C34_numbers_follow_order",
    "Verif.Bundle.C34_create_remove"
   ],
   "note": ""
  },
  {
   "property": "C35",
   "status": "partial",
   "theorems": [
    "Verif.Coref.C35_fresh",
    "Verif.Coref.C35_given",
    "Verif.Coref.C35_unique_partial",
    "Verif.Coref.C35_rename_violated",
    "Verif.Coref.C35_rename_to_used_violated"
   ],
   "note": "create_coref_entity: the search always ends, the new id is unused, a given id is rejected exactly when used, and ids stay unique over every history of calls without renaming. Renaming through the eid setter never updates the dictionary, so a renamed entity keeps its old key and can share its id with another one."
  },
  {
   "property": "C36",
   "status": "proved",
   "theorems": [
    "Verif.Coref.C36_span_roundtrip",
    "Verif.Coref.C36_meaning",
    "Verif.Coref.C36_span_injective",
    "Verif.Coref.C36_empty"
   ],
   "note": "Every tree and every non-empty list of its words, continuous or not, with empty nodes up to x.9. float() is modelled for the forms written by the library."
  },
  {
   "property": "C37",
   "status": "partial",
   "theorems": [
    "Verif.Coref.C37_order",
    "Verif.Coref.C37_irreflexive",
    "Verif.Coref.C37_transitive",
    "Verif.Coref.C37_incomparable",
    "Verif.Coref.C37_subspan_order",
    "Verif.Coref.C37_subspan_irreflexive",
    "Verif.Coref.C37_subspan_transitive",
    "Verif.Coref.C37_stored_order",
    "Verif.Coref.C37_moved_words_violated",
    "Verif.Coref.C37_moved_incomparable_violated",
    "Verif.Coref.C37_stored_sorted_partial"
   ],
   "note": "Proved for all mentions of one zone whose words are stored in word order: the order is the lexicographic one of the statement. After words are moved in the tree the stored list is out of date: the first word is then not the leftmost one, and incomparable mentions can differ (witnesses)."
  },
  {
   "property": "C38",
   "status": "partial",
   "theorems": [
    "Verif.Coref.Store.C38_roundtrip_partial",
    "Verif.Coref.Store.C38_crossing_violated"
   ],
   "note": "All nestings, mentions starting or ending at one word, single words, crossing mentions of different entities, with heads, types and other attributes. Crossing mentions of one entity are never read back: proved for all of them. Missing: discontinuous mentions."
  },
  {
   "property": "C39",
   "status": "proved",
   "theorems": [
    "Verif.Eval.C39_lcs"
   ],
   "note": "find_lcs with prefix stripping, the table and backtracking; optimal among all common subsequences."
  },
  {
   "property": "C40",
   "status": "proved",
   "theorems": [
    "Verif.Eval.C40_compare",
    "Verif.Eval.C40_counts",
    "Verif.Eval.C40_scores"
   ],
   "note": "The alignment loops with focus never run off the lists; counts and scores are bounded."
  },
  {
   "property": "C41",
   "status": "proved",
   "theorems": [
    "Verif.Eval.C41_counts",
    "Verif.Eval.C41_scores",
    "Verif.Eval.C41_no_words"
   ],
   "note": "Without any words the scores raise ZeroDivisionError (C41_no_words)."
  },
  {
   "property": "C42",
   "status": "proved",
   "theorems": [
    "Verif.Run.C42_faithful",
    "Verif.Run.C42_all_lists",
    "Verif.Run.C42_block_name"
   ],
   "note": "Digits are ASCII digits."
  },
  {
   "property": "C43",
   "status": "partial",
   "theorems": [
    "Verif.Run.C43_order_partial",
    "Verif.Run.C43_endless",
    "Verif.Run.C43_default_reader_violated"
   ],
   "note": "Scenarios with a reader. The reader added to a scenario without one is never started: proved for every such scenario."
  },
  {
   "property": "C44",
   "status": "partial",
   "theorems": [
    "Verif.Run.C44_visits",
    "Verif.Run.C44_delete_partial",
    "Verif.Run.C44_delete_violated",
    "Verif.Run.C44_fail_violated"
   ],
   "note": "if_empty_tree=delete and fail also act on zones that were not selected: proved for every document."
  },
  {
   "property": "C45",
   "status": "partial",
   "theorems": [
    "Verif.Run.C45_conserved_partial",
    "Verif.Run.C45_bundles_partial",
    "Verif.Run.C45_bundle_violated"
   ],
   "note": "Without max_docs nothing is lost or reordered and documents have at most k bundles. With bundles_per_doc a bundle whose first sentence was buffered is split: proved for every such file."
  },
  {
   "property": "C46",
   "status": "partial",
   "theorems": [
    "Verif.Run.C46_each_once",
    "Verif.Run.C46_has_next",
    "Verif.Run.C46_current",
    "Verif.Run.C46_opens",
    "Verif.Run.C46_names",
    "Verif.Run.C46_filelist_violated",
    "Verif.Run.C46_filelist_partial"
   ],
   "note": "All but the entries of file lists in another directory, where the rule is inverted."
  },
  {
   "property": "C47",
   "status": "partial",
   "theorems": [
    "Verif.Run.C47_writers_partial",
    "Verif.Run.C47_filehandle_violated"
   ],
   "note": "All destinations but a given file handle, which is closed after the first document."
  },
  {
   "property": "C48",
   "status": "proved",
   "theorems": [
    "Verif.Text.C48_on_whitespace",
    "Verif.Text.C48_simple"
   ],
   "note": "for tokenize.OnWhitespace and tokenize.Simple, with and without keep_spaces; the class of word characters of Simple is a parameter that must not contain white space"
  },
  {
   "property": "C49",
   "status": "partial",
   "theorems": [
    "Verif.Text.C49_text_partial",
    "Verif.Text.C49_words_partial",
    "Verif.Text.C49_white_space_violated"
   ],
   "note": "holds if the white space of the text is single spaces inside; otherwise only up to white space, and refuted for every text with other white space"
  },
  {
   "property": "C50",
   "status": "partial",
   "theorems": [
    "Verif.Tree.C50_moved_partial",
    "Verif.Tree.C50_whole_partial",
    "Verif.Tree.C50_part_partial",
    "Verif.Tree.C50_several_trees_partial",
    "Verif.Tree.C50_ords_violated",
    "Verif.Tree.C50_mwt_root_violated",
    "Verif.Tree.C50_mwt_stays_violated",
    "Verif.Tree.C50_mwt_last_violated"
   ],
   "note": "words, edges and the target tree hold; the source is numbered correctly if and only if all words that stay precede those that are moved; multi-word tokens: refuted in three ways for all states"
  },
  {
   "property": "C51",
   "status": "partial",
   "theorems": [
    "Verif.Tree.C51_flat_partial",
    "Verif.Tree.C51_deprel_violated"
   ],
   "note": "the structure holds; relations are never set, refuted for every tree and argument"
  },
  {
   "property": "C52",
   "status": "proved",
   "theorems": [
    "Verif.Text.C52_string",
    "Verif.Text.C52_document"
   ],
   "note": "every boundary decision; also the texts of the whole document zone by zone"
  },
  {
   "property": "C53",
   "status": "partial",
   "theorems": [
    "Verif.Run.C53_per_doc_partial",
    "Verif.Run.C53_parts_partial",
    "Verif.Run.C53_parts_violated"
   ],
   "note": "The bundles are kept in order; parts=p gives fewer than p documents for every p > 2 and p + 1 bundles."
  },
  {
   "property": "C54",
   "status": "partial",
   "theorems": [
    "Verif.Mwt.C54_every_second_stays_violated",
    "Verif.Mwt.C54_at_most_one_partial"
   ],
   "note": "The block iterates over the list it shortens: violated with two or more tokens, holds for at most one."
  },
  {
   "property": "C55",
   "status": "partial",
   "theorems": [
    "Verif.DualDict.C55_dualDict_get_present_partial",
    "Verif.DualDict.C55_dualDict_get_default_violated",
    "Verif.DualDict.C55_dualDict_setdefault_violated"
   ],
   "note": "The code violates the claim for every absent name; proved for present names."
  },
  {
   "property": "C56",
   "status": "partial",
   "theorems": [
    "Verif.Tree.C56_second_remove_violated",
    "Verif.Tree.C56_second_remove_unchanged_partial"
   ],
   "note": "The second call changes nothing but raises ValueError (node.py:518), in every tree."
  },
  {
   "property": "C57",
   "status": "partial",
   "theorems": [
    "Verif.Tree.C57_root_shift_violated",
    "Verif.Tree.C57_root_shift_subtree_partial"
   ],
   "note": "False: root.shift_after_node(y, without_children=True) writes the root into the word list before raising. Proved: with children the call is refused and changes nothing."
  },
  {
   "property": "C58",
   "status": "partial",
   "theorems": [
    "Verif.Tree.C58_add_self_twice_violated",
    "Verif.Tree.C58_call_keeps_list_partial"
   ],
   "note": "Violated by every node for add_self; proved for calls without it."
  },
  {
   "property": "C59",
   "status": "partial",
   "theorems": [
    "Verif.Empty.C59_remove_empty_partial",
    "Verif.Empty.C59_remove_empty_violated"
   ],
   "note": "Holds if empty nodes after the next word have no smaller decimal digit; otherwise violated."
  },
  {
   "property": "C60",
   "status": "partial",
   "theorems": [
    "Verif.Deps.C60_parsed_follow_partial",
    "Verif.Deps.C60_unparsed_violated"
   ],
   "note": "Holds once deps was read or assigned; violated for raw strings not parsed yet."
  },
  {
   "property": "C61",
   "status": "partial",
   "theorems": [
    "Verif.Bundle.C61_ids_distinct_partial",
    "Verif.Bundle.C61_ids_violated"
   ],
   "note": "Holds if no id is assigned by hand; violated otherwise."
  },
  {
   "property": "C62",
   "status": "partial",
   "theorems": [
    "Verif.Conllu.C62_missing_empty_line_violated",
    "Verif.Conllu.C62_last_block_partial"
   ],
   "note": "Violated for every file: the split leaves an empty line in the last block, and line[0] raises IndexError. Partial: with an empty line, or without the final newline, all blocks are found."
  },
  {
   "property": "C63",
   "status": "partial",
   "theorems": [
    "Verif.Conllu.C63_one_by_one_partial",
    "Verif.Conllu.C63_rest_lost_violated"
   ],
   "note": "Violated for every file: read_tree answers None at a second empty line or a block without words, and the rest of the file is dropped. Partial: exactly one empty line after each block and words in every block. The reader of one block is a parameter."
  },
  {
   "property": "C64",
   "status": "partial",
   "theorems": [
    "Verif.Conllu.C64_header_violated",
    "Verif.Conllu.C64_wordless_partial"
   ],
   "note": "Violated for every file whose first block has no words (trees[0].newdoc on None). Partial: if the first block has words."
  },
  {
   "property": "C65",
   "status": "partial",
   "theorems": [
    "Verif.Conllu.C65_max_docs_partial",
    "Verif.Conllu.C65_empty_line_violated",
    "Verif.Conllu.C65_last_lost_violated"
   ],
   "note": "Violated: tree.newdoc on None at a second empty line; a last sentence without empty line after it is lost. Partial: exactly one empty line after each block. The limit across several files (basereader.py:141-145) is not modelled."
  },
  {
   "property": "C66",
   "status": "partial",
   "theorems": [
    "Verif.Conllu.Meta.C66_first_line_violated",
    "Verif.Conllu.Meta.C66_left_out_partial"
   ],
   "note": "Violated for every tree whose first comment is the one left out (comment_lines[0].startswith on None). Partial: if the writer does not raise, the lines are left out."
  },
  {
   "property": "C67",
   "status": "partial",
   "theorems": [
    "Verif.Conllu.Meta.C67_placeholder_violated",
    "Verif.Conllu.Meta.C67_no_text_partial"
   ],
   "note": "Violated for every tree with a text placeholder: '#$TEXT' is printed. Partial: no line is read as the text."
  },
  {
   "property": "C68",
   "status": "partial",
   "theorems": [
    "Verif.Conllu.Meta.C68_sent_id_violated",
    "Verif.Conllu.Meta.C68_other_partial"
   ],
   "note": "Violated for every name that starts with sent_id. Partial: all other comments."
  },
  {
   "property": "C69",
   "status": "partial",
   "theorems": [
    "Verif.Conllu.Meta.C69_verbatim_partial"
   ],
   "note": "All orders of lines in the usual form with sent_id and text. Missing: json comments (moved to the end) and comments of C68."
  },
  {
   "property": "C70",
   "status": "partial",
   "theorems": [
    "Verif.Conllu.C70_created_partial",
    "Verif.Conllu.C70_replaced_violated",
    "Verif.Conllu.C70_removed_violated"
   ],
   "note": "Proved for words that are in no token. Violated for all trees when a token is replaced or removed: the SpaceAfter=No moved to the token is not moved back to the last word."
  },
  {
   "property": "C71",
   "status": "partial",
   "theorems": [
    "Verif.Run.C71_result_violated",
    "Verif.Run.C71_not_closed_violated",
    "Verif.Run.C71_stdout_partial"
   ],
   "note": "Holds for standard output only."
  },
  {
   "property": "C72",
   "status": "partial",
   "theorems": [
    "Verif.Run.C72_max_docs_violated",
    "Verif.Run.C72_max_docs_partial"
   ],
   "note": "Holds for max_docs=1. Otherwise documents after the first are counted twice, and one of them is cut after its first sentence: proved for every file with enough documents."
  },
  {
   "property": "C73",
   "status": "partial",
   "theorems": [
    "Verif.Run.C73_empty_violated",
    "Verif.Run.C73_nonempty_partial"
   ],
   "note": "Holds for readers of several zones; readers of one zone give an extra empty document."
  },
  {
   "property": "C74",
   "status": "partial",
   "theorems": [
    "Verif.Run.C74_files_violated",
    "Verif.Run.C74_files_partial"
   ],
   "note": "Holds without bundles_per_doc."
  },
  {
   "property": "C75",
   "status": "partial",
   "theorems": [
    "Verif.Run.C75_ids_violated",
    "Verif.Run.C75_zone_violated",
    "Verif.Run.C75_ids_partial"
   ],
   "note": "Holds if no sentence has an id. Otherwise the id of the bundle before is repeated."
  },
  {
   "property": "C76",
   "status": "partial",
   "theorems": [
    "Verif.Run.C76_fast_partial",
    "Verif.Run.C76_merge_partial",
    "Verif.Run.C76_empty_file_violated",
    "Verif.Run.C76_merge_violated",
    "Verif.Run.C76_max_docs_violated"
   ],
   "note": "Agree without max_docs if no file is empty and no bundle goes on in the next file."
  },
  {
   "property": "C77",
   "status": "partial",
   "theorems": [
    "Verif.Coref.C77_zones_violated",
    "Verif.Coref.C37_order"
   ],
   "note": "Violated for every two mentions whose first words are in different zones: the comparison raises. In one zone every comparison has a result (C37_order)."
  },
  {
   "property": "C78",
   "status": "proved",
   "theorems": [
    "Verif.Coref.C78_irreflexive",
    "Verif.Coref.C78_transitive",
    "Verif.Coref.C78_incomparable"
   ],
   "note": "All entities of one zone, with and without mentions."
  },
  {
   "property": "C79",
   "status": "partial",
   "theorems": [
    "Verif.Coref.M.C79_backlinks_partial",
    "Verif.Coref.M.C79_remove_partial",
    "Verif.Coref.M.C79_emptied_violated"
   ],
   "note": "Proved for all histories that never leave a mention without words (creations, words, span, head, entity, removals; rejected calls included). Missing: mentions made empty. For those the claim is refuted in every state: the next comparison gives the mention its head as a word without the back link, and remove then raises and leaves the mention in its entity."
  },
  {
   "property": "C80",
   "status": "partial",
   "theorems": [
    "Verif.Coref.M.C80_sorted_partial",
    "Verif.Coref.M.C80_words_violated"
   ],
   "note": "Holds for accepted creations, removals and changes of the entity. Changing the words never moves the mention in the list: violated in every such state."
  },
  {
   "property": "C81",
   "status": "partial",
   "theorems": [
    "Verif.Coref.M.C81_create_violated",
    "Verif.Coref.M.C81_atomic_partial"
   ],
   "note": "create_mention with a span that is rejected leaves the new mention behind, in every state. All other calls change nothing."
  },
  {
   "property": "C82",
   "status": "partial",
   "theorems": [
    "Verif.Coref.M.C82_empty_violated",
    "Verif.Coref.M.C82_head_partial"
   ],
   "note": "Empty word lists and spans without words are accepted for every mention; otherwise the head is one of the words."
  },
  {
   "property": "C83",
   "status": "partial",
   "theorems": [
    "Verif.Coref.Other.C83_kept_partial",
    "Verif.Coref.Other.C83_text",
    "Verif.Coref.Other.C83_field_names_violated",
    "Verif.Coref.Other.C83_hyphen_violated"
   ],
   "note": "Holds if no name is that of a field and nothing contains a hyphen or a bracket. Items named as a field are never written (the list of fields is compared with a tuple of one list), and a text with a hyphen is cut at it."
  },
  {
   "property": "C84",
   "status": "proved",
   "theorems": [
    "Verif.Text.C84_text",
    "Verif.Text.C84_words",
    "Verif.Text.C84_tokens"
   ],
   "note": ""
  },
  {
   "property": "C85",
   "status": "partial",
   "theorems": [
    "Verif.Text.C85_kept_partial",
    "Verif.Text.C85_blank_violated"
   ],
   "note": "holds for every text with a character that is not white space; refuted for all others"
  },
  {
   "property": "C86",
   "status": "partial",
   "theorems": [
    "Verif.Text.C86_ids_partial",
    "Verif.Text.C86_ids_violated",
    "Verif.Text.C86_numbers_violated"
   ],
   "note": "ids are distinct if every bundle has one tree and all are segmented; with more zones they can clash; new bundles never get a number"
  },
  {
   "property": "C87",
   "status": "partial",
   "theorems": [
    "Verif.Tree.C87_flat",
    "Verif.Tree.C87_oneroot_partial",
    "Verif.Tree.C87_no_words_violated"
   ],
   "note": "holds without oneroot; with oneroot it raises for trees without words"
  },
  {
   "property": "C88",
   "status": "proved",
   "theorems": [
    "Verif.Blocks.C88_nearest",
    "Verif.Blocks.C88_leaves"
   ],
   "note": "All trees and relations; the relation of the root is not punct."
  },
  {
   "property": "C89",
   "status": "partial",
   "theorems": [
    "Verif.Blocks.C89_left_headed_partial",
    "Verif.Blocks.C89_right_headed_violated"
   ],
   "note": "Holds if every word that continues a chain follows its parent; refuted for every chain of three whose last word precedes its parent."
  },
  {
   "property": "C90",
   "status": "partial",
   "theorems": [
    "Verif.Blocks.C90_fixed_partial",
    "Verif.Blocks.C90_one_root_partial",
    "Verif.Blocks.C90_no_words_violated"
   ],
   "note": "Proved for all trees with words; a tree without words raises IndexError."
  },
  {
   "property": "C91",
   "status": "partial",
   "theorems": [
    "Verif.Blocks.C91_changed_partial",
    "Verif.Blocks.C91_one_subject_partial",
    "Verif.Blocks.C91_root_violated",
    "Verif.Blocks.C91_none_violated"
   ],
   "note": "Proved for words if no relation is None or contains a newline; children of the root are never changed; a relation None raises TypeError."
  },
  {
   "property": "C92",
   "status": "proved",
   "theorems": [
    "Verif.Blocks.C92_nearest",
    "Verif.Blocks.C92_leaves"
   ],
   "note": "Basic trees; the enhanced dependencies the block also edits are not modelled."
  },
  {
   "property": "C93",
   "status": "partial",
   "theorems": [
    "Verif.Blocks.C93_wf_partial",
    "Verif.Blocks.C93_head_initial_partial",
    "Verif.Blocks.C93_exchange_partial",
    "Verif.Blocks.C93_chain_violated"
   ],
   "note": "Well-formedness for all trees; no head follows its dependent if there are no chains and conj is not among the relations; what is exchanged if there is one such word; refuted for chains at the first word of a tree."
  },
  {
   "property": "C94",
   "status": "partial",
   "theorems": [
    "Verif.Blocks.C94_ancestors_partial",
    "Verif.Blocks.C94_marks_partial",
    "Verif.Blocks.C94_projective_partial",
    "Verif.Blocks.C94_order_violated"
   ],
   "note": "Projective for both orders if no non-projective word is below another one; refuted for both orders by a tree of five words. Marks and ancestors for all trees."
  },
  {
   "property": "C95",
   "status": "partial",
   "theorems": [
    "Verif.Coref.B.C95_edit_partial",
    "Verif.Coref.B.C95_append_partial",
    "Verif.Coref.B.C95_lost_violated"
   ],
   "note": "Proved for edits through the current object of a mention; a link appended to an object read while the mention had no links is lost after another read."
  },
  {
   "property": "C96",
   "status": "partial",
   "theorems": [
    "Verif.Coref.B.C96_query_violated",
    "Verif.Coref.B.C96_others_partial"
   ],
   "note": "Refuted for every mention with links: TypeError if a link matches, loss of all links if none does. Other mentions are not affected."
  },
  {
   "property": "C97",
   "status": "partial",
   "theorems": [
    "Verif.Coref.B.C97_roundtrip_partial",
    "Verif.Coref.B.C97_nested_violated",
    "Verif.Coref.B.C97_colon_violated"
   ],
   "note": "Proved for mentions of different entities and ids and relations without separators; refuted for two mentions of one entity that start at one word and for ids with a colon."
  },
  {
   "property": "C98",
   "status": "partial",
   "theorems": [
    "Verif.Coref.B.C98_deleted_partial",
    "Verif.Coref.B.C98_pair_violated",
    "Verif.Coref.B.C98_store_violated",
    "Verif.Coref.B.C98_comma_violated"
   ],
   "note": "Proved if no two such links follow each other; refuted for two in a row (storing raises) and for a word where only such links are added (the text cannot be read)."
  },
  {
   "property": "C99",
   "status": "partial",
   "theorems": [
    "Verif.Coref.B.C99_roundtrip_partial",
    "Verif.Coref.B.C99_noself",
    "Verif.Coref.B.C99_single_violated",
    "Verif.Coref.B.C99_dead_violated"
   ],
   "note": "Proved for at least two antecedents with mentions; no text makes an entity an antecedent of itself; a single antecedent is not stored, and the second of two without mentions is."
  }
 ]
}