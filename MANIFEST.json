{
 "claims": [
  {
   "property": "C01",
   "status": "partial",
   "theorems": [
    "Verif.C01_roundtrip_false",
    "Verif.C01_more_false",
    "Verif.C01_block_partial",
    "Verif.C01_inline_partial",
    "Verif.C01_exact"
   ],
   "note": "False: headers, white space in inline mappings, missing commas and more are not written back; each deviation refuted by a witness. Proved byte for byte for documents without inline collections, and up to the listed deviations with them. C01_exact: the texts that are written as they were read are those with Echoes x x (C58)."
  },
  {
   "property": "C02",
   "status": "proved",
   "theorems": [
    "Verif.C02_display",
    "Verif.C76_exact"
   ],
   "note": "C76_exact also says what is true of texts that are not UTF-8."
  },
  {
   "property": "C03",
   "status": "partial",
   "theorems": [
    "Verif.C03_display_false",
    "Verif.C03_exact",
    "Verif.C03_display_partial",
    "Verif.C03_sublist_partial"
   ],
   "note": "False: white space before a value written as nothing (an emptied null or collection) is written but not displayed; refuted. Proved to hold exactly if no null, mapping or sequence that is written as nothing has white space before it, and that otherwise the display is the written text with parts left out."
  },
  {
   "property": "C04",
   "status": "proved",
   "theorems": [
    "Verif.C04_no_panic"
   ],
   "note": ""
  },
  {
   "property": "C05",
   "status": "partial",
   "theorems": [
    "Verif.C05_terminates_false",
    "Verif.C05_terminates_iff",
    "Verif.C05_terminates_partial",
    "Verif.C05_no_quotes_partial",
    "Verif.C05_fuel"
   ],
   "note": "False for an unterminated single-quoted string, on which the parser loops; refuted. C05_terminates_iff says exactly for which texts it is true; the partial theorems give conditions that are easier to check: every single quote that may start a string is closed."
  },
  {
   "property": "C06",
   "status": "proved",
   "theorems": [
    "Verif.C06_span"
   ],
   "note": ""
  },
  {
   "property": "C07",
   "status": "proved",
   "theorems": [
    "Verif.C07_consumed",
    "Verif.C07_content"
   ],
   "note": ""
  },
  {
   "property": "C08",
   "status": "proved",
   "theorems": [
    "Verif.C08_parsed_wellFormed"
   ],
   "note": ""
  },
  {
   "property": "C09",
   "status": "proved",
   "theorems": [
    "Verif.C09_edits_never_panic"
   ],
   "note": "Over histories of edits of live values, see History.lean."
  },
  {
   "property": "C10",
   "status": "proved",
   "theorems": [
    "Verif.C10_set_local",
    "Verif.C10_set_text"
   ],
   "note": ""
  },
  {
   "property": "C11",
   "status": "proved",
   "theorems": [
    "Verif.C11_set_reads"
   ],
   "note": ""
  },
  {
   "property": "C12",
   "status": "proved",
   "theorems": [
    "Verif.C12_set",
    "Verif.C12_insert",
    "Verif.C12_push",
    "Verif.C12_ranges"
   ],
   "note": "itoa and lexical-core are third-party; their documented behaviour is modelled in Num.lean."
  },
  {
   "property": "C13",
   "status": "proved",
   "theorems": [
    "Verif.C13_alone",
    "Verif.C13_anywhere"
   ],
   "note": ""
  },
  {
   "property": "C14",
   "status": "proved",
   "theorems": [
    "Verif.C14_insert"
   ],
   "note": ""
  },
  {
   "property": "C15",
   "status": "proved",
   "theorems": [
    "Verif.C15_remove"
   ],
   "note": ""
  },
  {
   "property": "C16",
   "status": "proved",
   "theorems": [
    "Verif.C16_first_wins"
   ],
   "note": ""
  },
  {
   "property": "C17",
   "status": "proved",
   "theorems": [
    "Verif.C17_insert_text"
   ],
   "note": ""
  },
  {
   "property": "C18",
   "status": "proved",
   "theorems": [
    "Verif.C18_remove_text",
    "Verif.C18_removeAt_text"
   ],
   "note": ""
  },
  {
   "property": "C19",
   "status": "proved",
   "theorems": [
    "Verif.C19_reads",
    "Verif.C19_push",
    "Verif.C19_remove",
    "Verif.C19_clear"
   ],
   "note": ""
  },
  {
   "property": "C20",
   "status": "proved",
   "theorems": [
    "Verif.C20_push_text"
   ],
   "note": ""
  },
  {
   "property": "C21",
   "status": "proved",
   "theorems": [
    "Verif.C21_survivors",
    "Verif.C21_same",
    "Verif.C21_text"
   ],
   "note": ""
  },
  {
   "property": "C22",
   "status": "proved",
   "theorems": [
    "Verif.C22_insert_fresh",
    "Verif.C22_push_fresh"
   ],
   "note": ""
  },
  {
   "property": "C23",
   "status": "proved",
   "theorems": [
    "Verif.C23_no_leaks"
   ],
   "note": ""
  },
  {
   "property": "C24",
   "status": "proved",
   "theorems": [
    "Verif.C24_removed_id"
   ],
   "note": ""
  },
  {
   "property": "C25",
   "status": "proved",
   "theorems": [
    "Verif.C25_single",
    "Verif.C25_scan"
   ],
   "note": "In documents made from the grammar of Verif/Grammar.lean by the edits of Verif/Safe.lean (no comment on the line of a plain value), at any place in them; and for the scanner, whatever the text before and after."
  },
  {
   "property": "C26",
   "status": "partial",
   "theorems": [
    "Verif.C26_double_false",
    "Verif.C26_double_partial",
    "Verif.C26_exact"
   ],
   "note": "False: a double quote is written as an escape that is rejected, a backslash is not escaped; refuted. Proved for strings without both, and that no other string is read back."
  },
  {
   "property": "C27",
   "status": "partial",
   "theorems": [
    "Verif.C27_detect_false",
    "Verif.C27_detect_partial",
    "Verif.C27_exact",
    "Verif.C27_itself"
   ],
   "note": "False: set_string writes strings like ~, -1 and - a plain; refuted. Proved for the strings for which the chosen quotes do (safeStr), anywhere in a document. C27_exact: which strings are read back when set at the root of a document without white space around it; C27_itself: which texts of one line are read as the string with that text."
  },
  {
   "property": "C28",
   "status": "proved",
   "theorems": [
    "Verif.C28_set_string"
   ],
   "note": ""
  },
  {
   "property": "C29",
   "status": "proved",
   "theorems": [
    "Verif.C29_iter_sequence",
    "Verif.C29_iter_mapping"
   ],
   "note": ""
  },
  {
   "property": "C30",
   "status": "partial",
   "theorems": [
    "Verif.C30_nth_back_false",
    "Verif.C30_nth_back_mapping_false",
    "Verif.C30_nth_back_partial"
   ],
   "note": "False: nth_back counts from the front. Refuted, and what it does return is proved."
  },
  {
   "property": "C31",
   "status": "proved",
   "theorems": [
    "Verif.C31_one_kind"
   ],
   "note": ""
  },
  {
   "property": "C32",
   "status": "proved",
   "theorems": [
    "Verif.C32_plain"
   ],
   "note": "One-line plain scalars as in YAML: no indicator at the start, no key in them, no trailing white space, not a directive or document marker."
  },
  {
   "property": "C33",
   "status": "partial",
   "theorems": [
    "Verif.C33_chomp_false",
    "Verif.C33_chomp_partial",
    "Verif.C33_anywhere_partial"
   ],
   "note": "False: without an indicator all final line breaks are kept, and a block at the left margin keeps one with -; refuted. Proved for indented blocks that are the value of a key, with at most one final line break if there is no indicator; and, for every block scalar anywhere in any accepted text, exactly which final line breaks the value has (C33_anywhere_partial)."
  },
  {
   "property": "C34",
   "status": "proved",
   "theorems": [
    "Verif.C34_set_block_text",
    "Verif.C11_set_reads",
    "Verif.C14_insert",
    "Verif.C19_push",
    "Verif.C17_insert_text",
    "Verif.C20_push_text"
   ],
   "note": "Content by C11/C14/C19 (Op.reads, Val.reads), text of the block by the theorems listed."
  },
  {
   "property": "C35",
   "status": "proved",
   "theorems": [
    "Verif.C35_make_mapping",
    "Verif.C35_make_sequence"
   ],
   "note": ""
  },
  {
   "property": "C36",
   "status": "proved",
   "theorems": [
    "Verif.C36_make_indent"
   ],
   "note": ""
  },
  {
   "property": "C37",
   "status": "proved",
   "theorems": [
    "Verif.C37_faithful",
    "Verif.C37_exact",
    "Verif.C37_ids"
   ],
   "note": "The hash (XXH3) is a parameter; with collisions, C37_exact says what is returned instead."
  },
  {
   "property": "C38",
   "status": "partial",
   "theorems": [
    "Verif.C38_quoted_keys_false",
    "Verif.C38_first_key_partial"
   ],
   "note": "False: keys other than the first keep their quotes; refuted. Proved for the first key of every block mapping."
  },
  {
   "property": "C39",
   "status": "partial",
   "theorems": [
    "Verif.C39_number_false",
    "Verif.C39_image_partial",
    "Verif.C39_numbers_partial"
   ],
   "note": "False: an integer beyond 64 bits, or a number text like 1e, is serialized as null; refuted. Proved for every document otherwise, and with the numbers where all number texts stand for one. Floating point numbers are given by their text (parsing them is third-party)."
  },
  {
   "property": "C40",
   "status": "partial",
   "theorems": [
    "Verif.C40_end_false",
    "Verif.C40_end_partial",
    "Verif.C40_exact_partial",
    "Verif.C40_types_partial",
    "Verif.C40_types_exact_partial"
   ],
   "note": "False: such numbers make deserialize_any and deserialize_u64 (or f64) call each other forever; refuted. Proved otherwise, and that in a parsed document exactly those numbers do that; for single requests (C40_end_partial), and for types with all the types in them (C40_types_partial; Wanted in Verif/Wanted.lean: what a type asks for may depend on the number and key of an element or entry, and it need not ask for all of them), unless the type is an option of options without end, which asks for the same value again and again."
  },
  {
   "property": "C41",
   "status": "partial",
   "theorems": [
    "Verif.C41_last_wins_partial",
    "Verif.C41_last_wins_false"
   ],
   "note": "False for set_block over a collection; refuted by the second theorem, proved for everything else by the first."
  },
  {
   "property": "C42",
   "status": "proved",
   "theorems": [
    "Verif.C42_sets_commute"
   ],
   "note": ""
  },
  {
   "property": "C43",
   "status": "proved",
   "theorems": [
    "Verif.C43_clear_mapping",
    "Verif.C43_clear_sequence"
   ],
   "note": ""
  },
  {
   "property": "C44",
   "status": "partial",
   "theorems": [
    "Verif.C44_bytes_false",
    "Verif.C44_bytes_partial"
   ],
   "note": "False for comments before sequence items, which go through Display; refuted. Proved for everything outside of comments."
  },
  {
   "property": "C45",
   "status": "partial",
   "theorems": [
    "Verif.C45_header_false",
    "Verif.C45_header_partial"
   ],
   "note": "False: headers are dropped. Proved that exactly what follows the header is written."
  },
  {
   "property": "C46",
   "status": "partial",
   "theorems": [
    "Verif.C46_char_boundary_false",
    "Verif.C46_char_boundary_partial",
    "Verif.C46_char_boundary_exact"
   ],
   "note": "False for escapes in which the offending character is not ASCII; refuted. C46_char_boundary_exact: these are all the exceptions."
  },
  {
   "property": "C47",
   "status": "proved",
   "theorems": [
    "Verif.C47_documents"
   ],
   "note": "The grammar of layouts is Verif/Grammar.lean: block and inline collections, plain and quoted scalars, block scalars, keys without a value, comments and blank lines."
  },
  {
   "property": "C48",
   "status": "proved",
   "theorems": [
    "Verif.C48_inline"
   ],
   "note": ""
  },
  {
   "property": "C49",
   "status": "proved",
   "theorems": [
    "Verif.C49_edits"
   ],
   "note": "The edits are those of Verif/Safe.lean; documents in which a value is written as nothing are excluded (NoHoles), as an empty text cannot be read back."
  },
  {
   "property": "C50",
   "status": "proved",
   "theorems": [
    "Verif.C50_take",
    "Verif.C50_number",
    "Verif.C50_integer",
    "Verif.C50_others",
    "Verif.C50_floats"
   ],
   "note": "The consumer that accepts anything is takeF in Verif/SerdeSpec.lean."
  },
  {
   "property": "C51",
   "status": "partial",
   "theorems": [
    "Verif.C51_block_false",
    "Verif.C51_block_partial",
    "Verif.C51_insert_partial",
    "Verif.C51_push_partial",
    "Verif.C49_edits"
   ],
   "note": "False: lines set in a nested collection can be put to the left of it, and lines that start with # are skipped when read; refuted. Proved where the lines are to the right of the collection the value is in and outside of inline collections, for lines that neither start with # nor start or end with white space; with clip and keep in documents without blank lines and comments between items, with strip in all documents of the grammar that end with a line break."
  },
  {
   "property": "C52",
   "status": "partial",
   "theorems": [
    "Verif.C52_escapes_false",
    "Verif.C52_escapes_partial",
    "Verif.C52_refused",
    "Verif.C47_documents"
   ],
   "note": "False: two backslashes are read as a double quote, and an escaped double quote, among other escapes of YAML, is refused; refuted. Proved for the other escapes the parser knows, and that all others are refused."
  },
  {
   "property": "C53",
   "status": "partial",
   "theorems": [
    "Verif.C53_lines_false",
    "Verif.C53_lines_partial",
    "Verif.C53_anywhere_partial"
   ],
   "note": "False: white space around the lines (any of Unicode) is dropped, and so are blank lines in folded block scalars; refuted. Proved that this is all that is lost, for a block scalar that is the document; C53_anywhere_partial has every block scalar in every accepted text, with a specification that determines the value."
  },
  {
   "property": "C54",
   "status": "proved",
   "theorems": [
    "Verif.C54_places"
   ],
   "note": "The places are described by the inductive predicate Sits in Verif/Place.lean, over any way of inspecting values; the API is used here. Block scalars are described by BlockAt, as they are read; C33, C53 and C55 say where that is not what was meant."
  },
  {
   "property": "C55",
   "status": "partial",
   "theorems": [
    "Verif.C55_siblings_false",
    "Verif.C55_siblings_lost",
    "Verif.C55_siblings_partial"
   ],
   "note": "False: a block scalar without lines takes everything that follows as its lines, whatever the column; refuted, and proved for every such text that starts with a key. Proved for block scalars with lines further to the right than the key."
  },
  {
   "property": "C56",
   "status": "proved",
   "theorems": [
    "Verif.C56_errors"
   ],
   "note": "The faults are described by the inductive predicate Broken in Verif/Fault.lean.  Up to the fault the text is described by Sits, as in C54.  After a block scalar and a comma in an inline sequence the start of the span is one byte further to the right (NextCell).  If a third item follows without a comma in an inline mapping the span starts with the white space before the second."
  },
  {
   "property": "C57",
   "status": "proved",
   "theorems": [
    "Verif.C57_accepts",
    "Verif.C57_refuses",
    "Verif.C05_terminates_iff",
    "Verif.C57_kinds",
    "Verif.C57_content_unique",
    "Verif.C57_fault_unique",
    "Verif.C57_not_both",
    "Verif.C57_neither"
   ],
   "note": "Accepts, Refuses and Hangs (Verif/Fault.lean) describe the texts without reference to the parser, with the predicates Sits, Broken and Stuck.  The converse of C54 and C56."
  },
  {
   "property": "C58",
   "status": "proved",
   "theorems": [
    "Verif.C58_writes",
    "Verif.C58_unique",
    "Verif.C58_accepts"
   ],
   "note": "Echoes (Verif/Echo.lean) describes what is written from the text alone, with the predicates of Verif/Place.lean."
  },
  {
   "property": "C59",
   "status": "proved",
   "theorems": [
    "Verif.C59_failing_writer",
    "Verif.C59_prefix"
   ],
   "note": "A writer is given by what it takes of the bytes handed to write_all (Verif/Sink.lean)."
  },
  {
   "property": "C60",
   "status": "proved",
   "theorems": [
    "Verif.C60_message"
   ],
   "note": ""
  },
  {
   "property": "C61",
   "status": "partial",
   "theorems": [
    "Verif.C61_false",
    "Verif.C61_more_false",
    "Verif.C61_again_false",
    "Verif.C61_inline_partial",
    "Verif.C61_lines_partial"
   ],
   "note": "False: a bracket is written on the last line of a block scalar, a header is lost without moving the rows below it, and others; refuted. Proved for texts that are an inline collection, however nested, in which no value is a block scalar. Proved also for texts laid out in lines (Verif/Lined.lean): the value is not on the line of the header, every item of a block collection but the first is preceded by a line break, block scalars have lines and are not in inline collections, and if there are values written as nothing, keys but the first of a mapping have white space after their colon and no quotes. Missing: texts outside of these for which it happens to hold."
  },
  {
   "property": "C62",
   "status": "proved",
   "theorems": [
    "Verif.C62_fits",
    "Verif.C62_restores",
    "Verif.C62_edits",
    "Verif.C62_collision_false"
   ],
   "note": "What serde's derive and slab's Deserialize do is modelled in Verif/Snapshot.lean. The format in between is taken to give back what it was given, the entries of maps in any order. Formats that cannot have such maps (JSON) or are not self-describing are outside of this."
  },
  {
   "property": "C63",
   "status": "proved",
   "theorems": [
    "Verif.C63_document",
    "Verif.C63_items",
    "Verif.C63_handles",
    "Verif.C63_written",
    "Verif.C63_part",
    "Verif.C63_scalars"
   ],
   "note": "Display without formatting options."
  },
  {
   "property": "C64",
   "status": "proved",
   "theorems": [
    "Verif.C64_insert",
    "Verif.C64_push"
   ],
   "note": ""
  },
  {
   "property": "C65",
   "status": "proved",
   "theorems": [
    "Verif.C65_handles",
    "Verif.C65_series"
   ],
   "note": "New values may get other ids."
  },
  {
   "property": "C66",
   "status": "proved",
   "theorems": [
    "Verif.C66_before",
    "Verif.C66_content"
   ],
   "note": ""
  },
  {
   "property": "C67",
   "status": "proved",
   "theorems": [
    "Verif.C67_after",
    "Verif.C67_parse"
   ],
   "note": "The examples show that none of the hypotheses can be left out, and that the converse is false."
  },
  {
   "property": "C68",
   "status": "proved",
   "theorems": [
    "Verif.C68_swap",
    "Verif.C68_iff",
    "Verif.C68_lines",
    "Verif.C68_ends"
   ],
   "note": "Where the places are is said in Verif/Clear.lean. The examples show what each condition is for."
  },
  {
   "property": "C69",
   "status": "proved",
   "theorems": [
    "Verif.C69_amount",
    "Verif.C69_arena",
    "Verif.C69_ids",
    "Verif.C69_factor"
   ],
   "note": "Values and bytes are counted in Verif/Amount.lean. The capacity that vectors allocate beyond their length is not modelled."
  },
  {
   "property": "C70",
   "status": "partial",
   "theorems": [
    "Verif.C70_depth_false",
    "Verif.C70_depth_partial"
   ],
   "note": "False: n pairs of brackets are accepted for every n; refuted. Proved: the depth is at most the length of the text plus one."
  },
  {
   "property": "C71",
   "status": "partial",
   "theorems": [
    "Verif.C71_comment_false",
    "Verif.C71_comment_kept",
    "Verif.C71_comment_partial",
    "Verif.C71_lines"
   ],
   "note": "False: after a scalar without quotes in a block collection a comment is read as part of the scalar, and a number, null, true or false becomes a string; refuted, and proved for every mapping of one-line scalars (C71_comment_kept, C71_lines). Proved for all places at which no scalar without quotes is before the comment (ClearText, as in C68)."
  },
  {
   "property": "C72",
   "status": "partial",
   "theorems": [
    "Verif.C72_crlf_false",
    "Verif.C72_space_kept",
    "Verif.C72_space_partial",
    "Verif.C71_lines"
   ],
   "note": "False: after a scalar without quotes other than a number in a block collection white space, and so the CR of a line break, is read as part of it, and true becomes a string; refuted, and proved for every mapping of one-line scalars (C72_space_kept, C71_lines). Proved for all places at which no scalar without quotes is before the white space (ClearText, as in C68)."
  },
  {
   "property": "C73",
   "status": "proved",
   "theorems": [
    "Verif.C73_mapping",
    "Verif.C73_sequence",
    "Verif.C73_order",
    "Verif.C73_together"
   ],
   "note": "Pieces are defined in Verif/Props/Join.lean (StandsMap, StandsSeq); that the pieces start with a key on one line without quotes and not with % is part of the statement. The examples show that the line put after them is needed: a block scalar at the end of a piece takes what follows for its lines."
  },
  {
   "property": "C74",
   "status": "partial",
   "theorems": [
    "Verif.C74_missing_false",
    "Verif.C74_item_false",
    "Verif.C74_keys_partial",
    "Verif.C74_key_end",
    "Verif.C74_keys_end",
    "Verif.C74_item_end",
    "Verif.C74_item_takes",
    "Verif.C74_items_take"
   ],
   "note": "False: at the end of the text the value is the empty string, and after a dash the next items are the value; refuted, and both proved for all texts (C74_key_end, C74_keys_end, C74_item_end, C74_item_takes, C74_items_take). Proved for keys without quotes in the first column that are followed by another key."
  },
  {
   "property": "C75",
   "status": "partial",
   "theorems": [
    "Verif.C75_left_false",
    "Verif.C75_takes"
   ],
   "note": "False: every text without a header that is accepted on its own and is not a block mapping is the value of a key without quotes put on a line before it, in the same column; refuted and this proved. That a block mapping has to be further to the right is part of the specification in Place.lean (Spot.allows), which C57 shows exact."
  },
  {
   "property": "C76",
   "status": "partial",
   "theorems": [
    "Verif.C76_parsed",
    "Verif.C76_check_false",
    "Verif.C76_check_partial",
    "Verif.C76_bytes",
    "Verif.C76_exact"
   ],
   "note": "False: after set_null on the value of `a: 1` the check panics; refuted. Proved for every document that is parsed from UTF-8 and not edited, exactly when it fails for a document parsed from any bytes (C76_exact), and exactly when the check fails after edits with UTF-8 texts (C76_check_partial)."
  },
  {
   "property": "C77",
   "status": "proved",
   "theorems": [
    "Verif.C77_kept",
    "Verif.C77_exact",
    "Verif.C77_block"
   ],
   "note": "Which characters a value was read from is said in ReadFrom (Verif/Props/Where.lean), with the places of Verif/Place.lean and Verif/LiesPlace.lean. What the new text is, is said in C10."
  },
  {
   "property": "C78",
   "status": "proved",
   "theorems": [
    "Verif.C78_int",
    "Verif.C78_total",
    "Verif.C78_float"
   ],
   "note": "decimal, Fits and IsFloat are the specification; which floating point number a text stands for is not modelled (the text is given back)."
  },
  {
   "property": "C79",
   "status": "proved",
   "theorems": [
    "Verif.C79_set_read",
    "Verif.C79_block",
    "Verif.C79_methods",
    "Verif.C79_comment_needed",
    "Verif.C79_line_needed",
    "Verif.C79_token_needed"
   ],
   "note": "FitsIn (Verif/PutDocs.lean) says when a text fits in a place; it speaks of the text only. C79_block has simpler conditions for texts without brackets, and C79_methods those of the methods. The last three theorems show with texts that the conditions are needed. The new text is not a block scalar (Token)."
  },
  {
   "property": "C80",
   "status": "proved",
   "theorems": [
    "Verif.C80_document",
    "Verif.C80_value",
    "Verif.C80_scalar",
    "Verif.C80_string",
    "Verif.C80_utf8"
   ],
   "note": "Replaced (Verif/Utf8Spec.lean) says what is replaced, with the UTF-8 encoder of Lean's String library; it does not use the decoder of the model."
  },
  {
   "property": "C81",
   "status": "partial",
   "theorems": [
    "Verif.C81_set",
    "Verif.C81_insert",
    "Verif.C81_push",
    "Verif.C81_reread_false",
    "Verif.C81_number_iff",
    "Verif.C81_anywhere_partial"
   ],
   "note": "In the same document proved (C81_set, C81_insert, C81_push). After writing and reading again it is false: 0.0000001 is written as 1e-7, which is read as a string, or in brackets as two values or not at all, and NaN and the infinities are read as strings; refuted. Proved for the finite numbers that are zero or at least 1e-5 (f64) or 1e-6 (f32), in the documents of C13 and C50 (Tidy), and that these are just the ones whose text is a number for the parser (C81_number_iff). Which decimal is the shortest is not modelled."
  },
  {
   "property": "C82",
   "status": "partial",
   "theorems": [
    "Verif.C82_false",
    "Verif.C82_loads",
    "Verif.C82_sane_partial",
    "Verif.C82_carried"
   ],
   "note": "False: nothing is checked, so that what is loaded may panic when it is written or iterated over, or be written forever; refuted. Proved for data whose entries fit together (Sane), which is a condition on single entries and that they are all reached from the root; C82_carried: it is met by what is saved of any document. Missing: ids of strings that are not in the table (refused in the model, a panic on use in the code), and data that does not fit together for which it happens to hold."
  },
  {
   "property": "C83",
   "status": "partial",
   "theorems": [
    "Verif.C83_line_false",
    "Verif.C83_joined",
    "Verif.C83_lines_partial"
   ],
   "note": "False: every key but the first is all up to the next colon, `b` and `c` on two lines included; refuted. C83_joined: after any entries whose last value stands on its own, any lines without a colon become part of the key after them. Proved for mappings in the first column if every line that starts there, other than comments, has a colon (C83_lines_partial)."
  },
  {
   "property": "C84",
   "status": "partial",
   "theorems": [
    "Verif.C84_documents_false",
    "Verif.C84_mappings",
    "Verif.C84_sequences",
    "Verif.C84_scalar_partial",
    "Verif.C84_other_partial",
    "Verif.C84_tested_partial"
   ],
   "note": "False for mappings and sequences: `---` becomes part of the next key, or the item `--`, and the entries or items of the second document are added to the first; refuted, and C84_mappings and C84_sequences say what is read, for all such texts. Proved, with the place of the error, if the first document is a scalar or an inline collection (C84_other_partial; with a header, white space and comments or not; not for block scalars, nor for double quotes around a text that ends with a line break, which may not be closed), and for every first document after which an item in the first column would be refused where it starts (C84_tested_partial, which covers block scalars). Missing: a condition on the text for block scalars."
  },
  {
   "property": "C85",
   "status": "partial",
   "theorems": [
    "Verif.C85_comment_false",
    "Verif.C85_breaks_false",
    "Verif.C85_push_false",
    "Verif.C85_inserts_partial",
    "Verif.C85_pushes_partial",
    "Verif.C85_entries_partial",
    "Verif.C85_items_partial"
   ],
   "note": "False: a comment after the last value is written after the new one and becomes part of it, and the line breaks after a block scalar are written after the new entry, so that the block scalar before it changes; refuted. Proved for any number of entries if the old text stands on its own (as in C73) and each new line does, which C85_entries_partial and C85_items_partial show for booleans, numbers and the strings whose written text is read as the string, with white space and comments from the next line on. Missing: collections that are not the whole document, and new collections."
  },
  {
   "property": "C86",
   "status": "partial",
   "theorems": [
    "Verif.C86_empty_false",
    "Verif.C86_comment_false",
    "Verif.C86_null_false",
    "Verif.C86_map_partial",
    "Verif.C86_lines_partial",
    "Verif.C86_seq_partial"
   ],
   "note": "False: without its only entry a mapping is written as nothing, which is read as a string; a comment after the removed entry becomes part of the value before it; and an entry without a value that becomes the last one is read as an empty string; refuted. Proved for any removals and insertions in any order if what is left of the entries fits (each stands on its own, as in C73, with what is before the next one), and without a condition on what is left if each of the entries at first stands on its own with a line break after it and is read as itself at the end (C86_lines_partial). Missing: collections that are not the whole document."
  },
  {
   "property": "C87",
   "status": "partial",
   "theorems": [
    "Verif.C87_column_false",
    "Verif.C87_missing_false",
    "Verif.C87_insert_partial",
    "Verif.C87_insert_kept",
    "Verif.C87_push_partial",
    "Verif.C87_push_kept"
   ],
   "note": "False: a mapping that starts in the column of the sequence it is in goes on with the pushed item (what is written is refused), and a pushed item becomes the value of an item without one; refuted. Proved for texts that are written as they were read (as in C79): the collection does not end with a block scalar that keeps line breaks, nor (sequences) with a missing value, its last values are further to the right (Closes), nothing but a comment follows it on its line, and what looked like a key still does (KeysEnd). Then one line is added, what is written is read as the edited document, and its content is the old one with the new value at the end. Missing: block scalars that keep line breaks before the new entry, block scalars and missing values as new ones."
  },
  {
   "property": "C88",
   "status": "partial",
   "theorems": [
    "Verif.C88_missing_false",
    "Verif.C88_remove_partial",
    "Verif.C88_remove_simple",
    "Verif.C88_removeAt_partial",
    "Verif.C88_removeAt_simple",
    "Verif.C88_first_false",
    "Verif.C88_first_partial",
    "Verif.C88_firstAt_false",
    "Verif.C88_firstAt_partial",
    "Verif.C88_inline_space_false",
    "Verif.C88_inline_comma_false",
    "Verif.C88_inline_partial",
    "Verif.C88_inline_simple",
    "Verif.C88_inlineAt_partial",
    "Verif.C88_inlineAt_simple"
   ],
   "note": "False: when the entry before the removed one has no value, the item that follows the mapping becomes its value; refuted. Proved for texts that are written as they were read (as in C79): the removed entry is not the first one, the line ends after it, the value before it is not a block scalar that keeps line breaks, and the items it ends with are further to the right than what follows (Closes; always so for a scalar on one line, C88_remove_simple and C88_removeAt_simple); it may be missing if a key follows. Then the text of the entry goes, what is written is read as the edited document, and its content is the old one without the entry. For the first entry or item (C88_first_partial, C88_firstAt_partial): its text goes, what is written is read back, if there is white space after it, the next one is on a later line, and this one is read in the same way when it is the first one: its key as it is, or white space after its dash. Both are refuted without that: a quote in a later key is part of the key but not in the first one, and a later dash needs no white space. For inline collections (C88_inline_partial, C88_inlineAt_partial and the simple forms): the text of the entry goes with the comma before it, or the one after it if it is the first one; what is written is read back and its content is the old one without the entry, if others come after it, or a comma or the bracket directly after it, or it is the only one and has no comma. Refuted otherwise: white space before the bracket becomes part of a bare string, and the comma after the only entry stays. Missing: comments after the removed value on its line when it is not the first one, block scalars that keep line breaks before it."
  },
  {
   "property": "C89",
   "status": "partial",
   "theorems": [
    "Verif.C89_both_false",
    "Verif.C89_series_partial",
    "Verif.C89_first_partial",
    "Verif.C89_firstAt_partial",
    "Verif.C89_fill_partial",
    "Verif.C89_fillAt_partial"
   ],
   "note": "False: each of two removals alone is read back, but without both entries nothing is left that is read as a mapping; refuted. Proved for a text that is written as it was read, and any number of edits (set_*, insert of a new key and push, removal of an entry that is not the first of a block collection, or of any entry of an inline one), each of which meets the conditions of C79, C87, C88 or C92 in the text that would be written before it (Suits); what is assumed of the text at each step is that it has no header, no block scalars without a body, no commas after white space if there are lists in brackets, and that it is UTF-8 or without comments. The last edit may also be the removal of the first entry or item of a block collection (C89_first_partial, C89_firstAt_partial), or the first entry or item of an empty inline collection (C89_fill_partial, C89_fillAt_partial). Missing: further edits after these, new collections."
  },
  {
   "property": "C90",
   "status": "proved",
   "theorems": [
    "Verif.C90_lines"
   ],
   "note": "Lines (Verif/Lines.lean) says which texts these are: no NUL, quotes, opening brackets, pipe or greater-than sign, all ASCII or without comments, no white space at the end of a line, a line break at the end. Nested (Verif/LinesDocs.lean): no value is missing, and nested collections are further to the right (a sequence in a mapping may be in the same column); it is read off the parsed document. No header (`---` or `%`). PlainEdit is the class of edits: new values are true, false, null, ~, numbers, and strings that are written without quotes."
  },
  {
   "property": "C91",
   "status": "partial",
   "theorems": [
    "Verif.C91_flow_false",
    "Verif.C91_missing_false",
    "Verif.C91_breaks_false",
    "Verif.C91_alone_partial",
    "Verif.C91_lines_partial",
    "Verif.C91_scalar_partial",
    "Verif.C91_block_partial"
   ],
   "note": "False: the item `- a` of `[- a]` is a text there and a sequence on its own, and a value that is missing, or ends with a missing one, is null there and the empty string at the end of a text (C74); refuted. Proved for texts that are written as they were read (as in C79), for block values and inline collections whose last value is neither missing nor a block scalar that keeps line breaks (Final), that do not look like a header, and after which what looked like a key still does (KeysEnd; without quotes that is the end of the line, C91_lines_partial). For scalars anywhere, also in inline collections and in texts that are not written as they were read (C91_scalar_partial): if they are in quotes, or on one line and do not start with a dash and white space, whatever the indentation; the quotes are closed. For block scalars after which something follows (C91_block_partial): if they keep no line breaks, or there is one line break after them; refuted otherwise (C91_breaks_false). Missing: collections that end with a block scalar that keeps line breaks."
  },
  {
   "property": "C92",
   "status": "partial",
   "theorems": [
    "Verif.C92_comma_false",
    "Verif.C92_space_false",
    "Verif.C92_insert_partial",
    "Verif.C92_insert_kept",
    "Verif.C92_push_partial",
    "Verif.C92_push_kept",
    "Verif.C92_fill_partial",
    "Verif.C92_fill_kept",
    "Verif.C92_fillAt_partial",
    "Verif.C92_fillAt_kept"
   ],
   "note": "False: a string with a comma in it is written without quotes, and read as two items, and white space before the closing bracket becomes part of a new string without quotes; refuted. Proved for texts that are written as they were read (as in C79): the collection is empty (C92_fill, C92_fillAt) or its last value is neither missing nor a block scalar, the new key and value are written as they will be read in brackets (Token; C92_insert_kept and C92_push_kept give classes of them), nothing but a comment follows the outermost inline collection on its line, and what looked like a key before still does (KeysEnd). Missing: last values that are missing or block scalars, new collections."
  },
  {
   "property": "C93",
   "status": "partial",
   "theorems": [
    "Verif.C93_remove_false",
    "Verif.C93_inside_partial",
    "Verif.C93_line_partial"
   ],
   "note": "C93_remove_false: it has to be asked if the new text is accepted on its own; when the only entry of `{a: 1, }` is removed, what is written is refused. Proved for texts that are written as they were read (as in C79) and any series of edits of the collection and of values in it (Inside), in which the collection itself is not made a new one; its new text on its own is also written as it was read (OnItsOwn), nothing but a comment follows the outermost inline collection on its line, what looked like a key before the collection still does (KeysEnd), and in an inline collection it does not touch what is before it. No condition on the new text is needed for what is written, nor for the absence of a header."
  },
  {
   "property": "C94",
   "status": "proved",
   "theorems": [
    "Verif.C94_nothing_made_up",
    "Verif.C94_nothing_lost"
   ],
   "note": "Covers (Verif/Loaded.lean) says that all of the one tree of data is in the other, at the same place. The derived Deserialize implementations and slab's are not in /repo; the model of them is in Verif/Snapshot.lean, and unknown fields are ignored as serde does by default. Strings are resolved when loaded (in the code, when used, where an id without a string panics); that the data stores strings under their hashes is assumed, because the model saves a string as its hash."
  },
  {
   "property": "C95",
   "status": "partial",
   "theorems": [
    "Verif.C95_follow_false",
    "Verif.C95_inside_partial",
    "Verif.C95_block_partial"
   ],
   "note": "C95_follow_false: it has to be asked what follows; a block scalar that keeps its line breaks and is set as the last value takes the blank lines after it, which it does not on its own. Proved for texts that are written as they were read (as in C79) and any series of edits of the value and of values in it (Inside), in which the value itself is not made a new one; its old text is not empty and the line ends after it, its new text on its own is also written as it was read (OwnBlock), the values it ends with are further to the right than what follows and are no block scalars that keep line breaks, or nothing follows and they are neither missing nor such block scalars (CanFollow), a mapping stands where one may (C95_block_partial: if it was one before), what looked like a key before it still does (KeysEnd), and what is written has no header. Missing: comments after the value on its line, values whose old text is empty."
  },
  {
   "property": "C96",
   "status": "partial",
   "theorems": [
    "Verif.C96_first_false",
    "Verif.C96_build_partial",
    "Verif.C96_replace_partial",
    "Verif.C96_all_partial",
    "Verif.C96_typed_partial"
   ],
   "note": "False: make_mapping indents a mapping that is the first item of a new sequence by two columns, whatever the column of the sequence, so that its second key is refused or belongs to a mapping further out, and an empty mapping is read back as null; refuted. Proved for all values without empty collections, whose keys are written as they are and differ, whose strings are read back as they are (safeStr), and whose sequences begin with a scalar (canBuild), in documents as in C49 (Tidy) whose other values have some text, in place of a scalar (C96_build_partial) or, after set_null, of any value (C96_replace_partial) or the whole document (C96_all_partial, where a sequence that starts in the first column may also begin with a collection); if a collection is stored, the place is neither in an inline collection nor the first item of a sequence other than one in the first column (CanMake). The program that stores the value is build (Verif/Build.lean). Missing: multi-line strings, sequences that begin with a mapping with one entry and are further to the right. C96_typed_partial: types that fit the value (C98) get its data from the document that is written and read again."
  },
  {
   "property": "C97",
   "status": "proved",
   "theorems": [
    "Verif.C97_deserialize",
    "Verif.C97_serialize",
    "Verif.C97_edited_false"
   ],
   "note": "Types are machines that say which method they call, and which for what is in the value (Wanted in Verif/Wanted.lean); calls are compared without the ids in them (plainly). A visitor that fails ends the calls earlier, in both cases. C97_edited_false: why the documents must be parsed ones; a number that was set is handed over as the type it was set with."
  },
  {
   "property": "C98",
   "status": "proved",
   "theorems": [
    "Verif.C98_typed",
    "Verif.C98_ignoring",
    "Verif.C98_one",
    "Verif.C98_unit_none",
    "Verif.C98_ignored_false"
   ],
   "note": "The types and what they are given are a specification of their own, on the content alone (Ty, Gets in Verif/Typed.lean). C98_typed: any document; C98_ignoring: parsed documents, where values are passed over with IgnoredAny too. C98_ignored_false: why the numbers that are passed over must fit; a derived struct that fits but for an unknown field with a number beyond 64 bits is never had. C98_unit_none: () is never had from null, since visit_none is called in place of visit_unit. Enums are not among the types, as the deserializer never calls visit_enum. C98_one: the calls are determined by the type and the content."
  }
 ]
}
