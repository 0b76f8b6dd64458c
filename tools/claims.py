# claim(property, status, theorems, note)
claim("C08", "proved", "C08_parsed_wellFormed", "")
claim("C09", "proved", "C09_edits_never_panic", "Over histories of edits of live values, see History.lean.")
claim("C10", "proved", "C10_set_local C10_set_text", "")
claim("C11", "proved", "C11_set_reads", "")
claim("C14", "proved", "C14_insert", "")
claim("C15", "proved", "C15_remove", "")
claim("C16", "proved", "C16_first_wins", "")
claim("C17", "proved", "C17_insert_text", "")
claim("C21", "proved", "C21_survivors C21_same C21_text", "")
claim("C22", "proved", "C22_insert_fresh C22_push_fresh", "")
claim("C23", "proved", "C23_no_leaks", "")
claim("C24", "proved", "C24_removed_id", "")
claim("C28", "proved", "C28_set_string", "")
claim("C31", "proved", "C31_one_kind", "")
claim("C35", "proved", "C35_make_mapping C35_make_sequence", "")
claim("C36", "proved", "C36_make_indent", "")
claim("C41", "partial", "C41_last_wins_partial C41_last_wins_false", "False for set_block over a collection; refuted by the second theorem, proved for everything else by the first.")
claim("C42", "proved", "C42_sets_commute", "")
claim("C43", "proved", "C43_clear_mapping C43_clear_sequence", "")
claim("C18", "proved", "C18_remove_text C18_removeAt_text", "")
claim("C19", "proved", "C19_reads C19_push C19_remove C19_clear", "")
claim("C20", "proved", "C20_push_text", "")
claim("C29", "proved", "C29_iter_sequence C29_iter_mapping", "")
claim("C30", "partial", "C30_nth_back_false C30_nth_back_mapping_false C30_nth_back_partial", "False: nth_back counts from the front. Refuted, and what it does return is proved.")
claim("C34", "proved", "C34_set_block_text C11_set_reads C14_insert C19_push C17_insert_text C20_push_text", "Content by C11/C14/C19 (Op.reads, Val.reads), text of the block by the theorems listed.")
claim("C04", "proved", "C04_no_panic", "")
claim("C05", "partial", "C05_terminates_false C05_terminates_iff C05_terminates_partial C05_no_quotes_partial C05_fuel", "False for an unterminated single-quoted string, on which the parser loops; refuted. C05_terminates_iff says exactly for which texts it is true; the partial theorems give conditions that are easier to check: every single quote that may start a string is closed.")
claim("C06", "proved", "C06_span", "")
claim("C46", "partial", "C46_char_boundary_false C46_char_boundary_partial C46_char_boundary_exact", "False for escapes in which the offending character is not ASCII; refuted. C46_char_boundary_exact: these are all the exceptions.")
claim("C01", "partial", "C01_roundtrip_false C01_more_false C01_block_partial C01_inline_partial C01_exact", "False: headers, white space in inline mappings, missing commas and more are not written back; each deviation refuted by a witness. Proved byte for byte for documents without inline collections, and up to the listed deviations with them. C01_exact: the texts that are written as they were read are those with Echoes x x (C58).")
claim("C02", "proved", "C02_display C76_exact", "C76_exact also says what is true of texts that are not UTF-8.")
claim("C07", "proved", "C07_consumed C07_content", "")
claim("C44", "partial", "C44_bytes_false C44_bytes_partial", "False for comments before sequence items, which go through Display; refuted. Proved for everything outside of comments.")
claim("C45", "partial", "C45_header_false C45_header_partial", "False: headers are dropped. Proved that exactly what follows the header is written.")
claim("C03", "partial", "C03_display_false C03_exact C03_display_partial C03_sublist_partial", "False: white space before a value written as nothing (an emptied null or collection) is written but not displayed; refuted. Proved to hold exactly if no null, mapping or sequence that is written as nothing has white space before it, and that otherwise the display is the written text with parts left out.")
claim("C12", "proved", "C12_set C12_insert C12_push C12_ranges", "itoa and lexical-core are third-party; their documented behaviour is modelled in Num.lean.")
claim("C13", "proved", "C13_alone C13_anywhere", "")
claim("C32", "proved", "C32_plain", "One-line plain scalars as in YAML: no indicator at the start, no key in them, no trailing white space, not a directive or document marker.")
claim("C47", "proved", "C47_documents", "The grammar of layouts is Verif/Grammar.lean: block and inline collections, plain and quoted scalars, block scalars, keys without a value, comments and blank lines.")
claim("C33", "partial", "C33_chomp_false C33_chomp_partial C33_anywhere_partial", "False: without an indicator all final line breaks are kept, and a block at the left margin keeps one with -; refuted. Proved for indented blocks that are the value of a key, with at most one final line break if there is no indicator; and, for every block scalar anywhere in any accepted text, exactly which final line breaks the value has (C33_anywhere_partial).")
claim("C48", "proved", "C48_inline", "")
claim("C25", "proved", "C25_single C25_scan", "In documents made from the grammar of Verif/Grammar.lean by the edits of Verif/Safe.lean (no comment on the line of a plain value), at any place in them; and for the scanner, whatever the text before and after.")
claim("C26", "partial", "C26_double_false C26_double_partial C26_exact", "False: a double quote is written as an escape that is rejected, a backslash is not escaped; refuted. Proved for strings without both, and that no other string is read back.")
claim("C27", "partial", "C27_detect_false C27_detect_partial C27_exact C27_itself", "False: set_string writes strings like ~, -1 and - a plain; refuted. Proved for the strings for which the chosen quotes do (safeStr), anywhere in a document. C27_exact: which strings are read back when set at the root of a document without white space around it; C27_itself: which texts of one line are read as the string with that text.")
claim("C49", "proved", "C49_edits", "The edits are those of Verif/Safe.lean; documents in which a value is written as nothing are excluded (NoHoles), as an empty text cannot be read back.")
claim("C38", "partial", "C38_quoted_keys_false C38_first_key_partial", "False: keys other than the first keep their quotes; refuted. Proved for the first key of every block mapping.")
claim("C39", "partial", "C39_number_false C39_image_partial C39_numbers_partial", "False: an integer beyond 64 bits, or a number text like 1e, is serialized as null; refuted. Proved for every document otherwise, and with the numbers where all number texts stand for one. Floating point numbers are given by their text (parsing them is third-party).")
claim("C40", "partial", "C40_end_false C40_end_partial C40_exact_partial C40_types_partial C40_types_exact_partial", "False: such numbers make deserialize_any and deserialize_u64 (or f64) call each other forever; refuted. Proved otherwise, and that in a parsed document exactly those numbers do that; for single requests (C40_end_partial), and for types with all the types in them (C40_types_partial; Wanted in Verif/Wanted.lean: what a type asks for may depend on the number and key of an element or entry, and it need not ask for all of them), unless the type is an option of options without end, which asks for the same value again and again.")
claim("C50", "proved", "C50_take C50_number C50_integer C50_others C50_floats", "The consumer that accepts anything is takeF in Verif/SerdeSpec.lean.")
claim("C51", "partial", "C51_block_false C51_block_partial C51_insert_partial C51_push_partial C49_edits", "False: lines set in a nested collection can be put to the left of it, and lines that start with # are skipped when read; refuted. Proved where the lines are to the right of the collection the value is in and outside of inline collections, for lines that neither start with # nor start or end with white space; with clip and keep in documents without blank lines and comments between items, with strip in all documents of the grammar that end with a line break.")
claim("C37", "proved", "C37_faithful C37_exact C37_ids", "The hash (XXH3) is a parameter; with collisions, C37_exact says what is returned instead.")
claim("C52", "partial", "C52_escapes_false C52_escapes_partial C52_refused C47_documents", "False: two backslashes are read as a double quote, and an escaped double quote, among other escapes of YAML, is refused; refuted. Proved for the other escapes the parser knows, and that all others are refused.")
claim("C53", "partial", "C53_lines_false C53_lines_partial C53_anywhere_partial", "False: white space around the lines (any of Unicode) is dropped, and so are blank lines in folded block scalars; refuted. Proved that this is all that is lost, for a block scalar that is the document; C53_anywhere_partial has every block scalar in every accepted text, with a specification that determines the value.")
claim("C54", "proved", "C54_places", "The places are described by the inductive predicate Sits in Verif/Place.lean, over any way of inspecting values; the API is used here. Block scalars are described by BlockAt, as they are read; C33, C53 and C55 say where that is not what was meant.")
claim("C55", "partial", "C55_siblings_false C55_siblings_lost C55_siblings_partial", "False: a block scalar without lines takes everything that follows as its lines, whatever the column; refuted, and proved for every such text that starts with a key. Proved for block scalars with lines further to the right than the key.")
claim("C56", "proved", "C56_errors", "The faults are described by the inductive predicate Broken in Verif/Fault.lean.  Up to the fault the text is described by Sits, as in C54.  After a block scalar and a comma in an inline sequence the start of the span is one byte further to the right (NextCell).  If a third item follows without a comma in an inline mapping the span starts with the white space before the second.")
claim("C57", "proved", "C57_accepts C57_refuses C05_terminates_iff C57_kinds C57_content_unique C57_fault_unique C57_not_both C57_neither", "Accepts, Refuses and Hangs (Verif/Fault.lean) describe the texts without reference to the parser, with the predicates Sits, Broken and Stuck.  The converse of C54 and C56.")
claim("C58", "proved", "C58_writes C58_unique C58_accepts", "Echoes (Verif/Echo.lean) describes what is written from the text alone, with the predicates of Verif/Place.lean.")
claim("C59", "proved", "C59_failing_writer C59_prefix", "A writer is given by what it takes of the bytes handed to write_all (Verif/Sink.lean).")
claim("C60", "proved", "C60_message", "")
claim("C61", "partial", "C61_false C61_more_false C61_again_false C61_inline_partial C61_lines_partial", "False: a bracket is written on the last line of a block scalar, a header is lost without moving the rows below it, and others; refuted. Proved for texts that are an inline collection, however nested, in which no value is a block scalar. Proved also for texts laid out in lines (Verif/Lined.lean): the value is not on the line of the header, every item of a block collection but the first is preceded by a line break, block scalars have lines and are not in inline collections, and if there are values written as nothing, keys but the first of a mapping have white space after their colon and no quotes. Missing: texts outside of these for which it happens to hold.")
claim("C62", "proved", "C62_fits C62_restores C62_edits C62_collision_false", "What serde's derive and slab's Deserialize do is modelled in Verif/Snapshot.lean. The format in between is taken to give back what it was given, the entries of maps in any order. Formats that cannot have such maps (JSON) or are not self-describing are outside of this.")
claim("C63", "proved", "C63_document C63_items C63_handles C63_written C63_part C63_scalars", "Display without formatting options.")
claim("C64", "proved", "C64_insert C64_push", "")
claim("C65", "proved", "C65_handles C65_series", "New values may get other ids.")
claim("C66", "proved", "C66_before C66_content", "")
claim("C67", "proved", "C67_after C67_parse", "The examples show that none of the hypotheses can be left out, and that the converse is false.")
claim("C68", "proved", "C68_swap C68_iff C68_lines C68_ends", "Where the places are is said in Verif/Clear.lean. The examples show what each condition is for.")
claim("C69", "proved", "C69_amount C69_arena C69_ids C69_factor", "Values and bytes are counted in Verif/Amount.lean. The capacity that vectors allocate beyond their length is not modelled.")
claim("C70", "partial", "C70_depth_false C70_depth_partial", "False: n pairs of brackets are accepted for every n; refuted. Proved: the depth is at most the length of the text plus one.")
claim("C71", "partial", "C71_comment_false C71_comment_kept C71_comment_partial C71_lines", "False: after a scalar without quotes in a block collection a comment is read as part of the scalar, and a number, null, true or false becomes a string; refuted, and proved for every mapping of one-line scalars (C71_comment_kept, C71_lines). Proved for all places at which no scalar without quotes is before the comment (ClearText, as in C68).")
claim("C72", "partial", "C72_crlf_false C72_space_kept C72_space_partial C71_lines", "False: after a scalar without quotes other than a number in a block collection white space, and so the CR of a line break, is read as part of it, and true becomes a string; refuted, and proved for every mapping of one-line scalars (C72_space_kept, C71_lines). Proved for all places at which no scalar without quotes is before the white space (ClearText, as in C68).")
claim("C73", "proved", "C73_mapping C73_sequence C73_order C73_together", "Pieces are defined in Verif/Props/Join.lean (StandsMap, StandsSeq); that the pieces start with a key on one line without quotes and not with % is part of the statement. The examples show that the line put after them is needed: a block scalar at the end of a piece takes what follows for its lines.")
claim("C74", "partial", "C74_missing_false C74_item_false C74_keys_partial C74_key_end C74_keys_end C74_item_end C74_item_takes C74_items_take", "False: at the end of the text the value is the empty string, and after a dash the next items are the value; refuted, and both proved for all texts (C74_key_end, C74_keys_end, C74_item_end, C74_item_takes, C74_items_take). Proved for keys without quotes in the first column that are followed by another key.")
claim("C75", "partial", "C75_left_false C75_takes", "False: every text without a header that is accepted on its own and is not a block mapping is the value of a key without quotes put on a line before it, in the same column; refuted and this proved. That a block mapping has to be further to the right is part of the specification in Place.lean (Spot.allows), which C57 shows exact.")
claim("C76", "partial", "C76_parsed C76_check_false C76_check_partial C76_bytes C76_exact", "False: after set_null on the value of `a: 1` the check panics; refuted. Proved for every document that is parsed from UTF-8 and not edited, exactly when it fails for a document parsed from any bytes (C76_exact), and exactly when the check fails after edits with UTF-8 texts (C76_check_partial).")
claim("C77", "proved", "C77_kept C77_exact C77_block", "Which characters a value was read from is said in ReadFrom (Verif/Props/Where.lean), with the places of Verif/Place.lean and Verif/LiesPlace.lean. What the new text is, is said in C10.")
claim("C78", "proved", "C78_int C78_total C78_float", "decimal, Fits and IsFloat are the specification; which floating point number a text stands for is not modelled (the text is given back).")
claim("C79", "proved", "C79_set_read C79_block C79_methods C79_comment_needed C79_line_needed C79_token_needed", "FitsIn (Verif/PutDocs.lean) says when a text fits in a place; it speaks of the text only. C79_block has simpler conditions for texts without brackets, and C79_methods those of the methods. The last three theorems show with texts that the conditions are needed. The new text is not a block scalar (Token).")
claim("C80", "proved", "C80_document C80_value C80_scalar C80_string C80_utf8", "Replaced (Verif/Utf8Spec.lean) says what is replaced, with the UTF-8 encoder of Lean's String library; it does not use the decoder of the model.")
claim("C81", "partial", "C81_set C81_insert C81_push C81_reread_false C81_number_iff C81_anywhere_partial", "In the same document proved (C81_set, C81_insert, C81_push). After writing and reading again it is false: 0.0000001 is written as 1e-7, which is read as a string, or in brackets as two values or not at all, and NaN and the infinities are read as strings; refuted. Proved for the finite numbers that are zero or at least 1e-5 (f64) or 1e-6 (f32), in the documents of C13 and C50 (Tidy), and that these are just the ones whose text is a number for the parser (C81_number_iff). Which decimal is the shortest is not modelled.")
claim("C82", "partial", "C82_false C82_loads C82_sane_partial C82_carried", "False: nothing is checked, so that what is loaded may panic when it is written or iterated over, or be written forever; refuted. Proved for data whose entries fit together (Sane), which is a condition on single entries and that they are all reached from the root; C82_carried: it is met by what is saved of any document. Missing: ids of strings that are not in the table (refused in the model, a panic on use in the code), and data that does not fit together for which it happens to hold.")
claim("C83", "partial", "C83_line_false C83_joined C83_lines_partial", "False: every key but the first is all up to the next colon, `b` and `c` on two lines included; refuted. C83_joined: after any entries whose last value stands on its own, any lines without a colon become part of the key after them. Proved for mappings in the first column if every line that starts there, other than comments, has a colon (C83_lines_partial).")
claim("C84", "partial", "C84_documents_false C84_mappings C84_sequences C84_scalar_partial C84_other_partial C84_tested_partial", "False for mappings and sequences: `---` becomes part of the next key, or the item `--`, and the entries or items of the second document are added to the first; refuted, and C84_mappings and C84_sequences say what is read, for all such texts. Proved, with the place of the error, if the first document is a scalar or an inline collection (C84_other_partial; with a header, white space and comments or not; not for block scalars, nor for double quotes around a text that ends with a line break, which may not be closed), and for every first document after which an item in the first column would be refused where it starts (C84_tested_partial, which covers block scalars). Missing: a condition on the text for block scalars.")
claim("C85", "partial", "C85_comment_false C85_breaks_false C85_push_false C85_inserts_partial C85_pushes_partial C85_entries_partial C85_items_partial", "False: a comment after the last value is written after the new one and becomes part of it, and the line breaks after a block scalar are written after the new entry, so that the block scalar before it changes; refuted. Proved for any number of entries if the old text stands on its own (as in C73) and each new line does, which C85_entries_partial and C85_items_partial show for booleans, numbers and the strings whose written text is read as the string, with white space and comments from the next line on. Missing: collections that are not the whole document, and new collections.")
claim("C86", "partial", "C86_empty_false C86_comment_false C86_null_false C86_map_partial C86_lines_partial C86_seq_partial", "False: without its only entry a mapping is written as nothing, which is read as a string; a comment after the removed entry becomes part of the value before it; and an entry without a value that becomes the last one is read as an empty string; refuted. Proved for any removals and insertions in any order if what is left of the entries fits (each stands on its own, as in C73, with what is before the next one), and without a condition on what is left if each of the entries at first stands on its own with a line break after it and is read as itself at the end (C86_lines_partial). Missing: collections that are not the whole document.")
claim("C87", "partial", "C87_column_false C87_missing_false C87_insert_partial C87_insert_kept C87_push_partial C87_push_kept", "False: a mapping that starts in the column of the sequence it is in goes on with the pushed item (what is written is refused), and a pushed item becomes the value of an item without one; refuted. Proved for texts that are written as they were read (as in C79): the collection does not end with a block scalar that keeps line breaks, nor (sequences) with a missing value, its last values are further to the right (Closes), nothing but a comment follows it on its line, and what looked like a key still does (KeysEnd). Then one line is added, what is written is read as the edited document, and its content is the old one with the new value at the end. Missing: block scalars that keep line breaks before the new entry, block scalars and missing values as new ones.")
claim("C88", "partial", "C88_missing_false C88_remove_partial C88_remove_simple C88_removeAt_partial C88_removeAt_simple C88_first_false C88_first_partial C88_firstAt_false C88_firstAt_partial C88_inline_space_false C88_inline_comma_false C88_inline_partial C88_inline_simple C88_inlineAt_partial C88_inlineAt_simple", "False: when the entry before the removed one has no value, the item that follows the mapping becomes its value; refuted. Proved for texts that are written as they were read (as in C79): the removed entry is not the first one, the line ends after it, the value before it is not a block scalar that keeps line breaks, and the items it ends with are further to the right than what follows (Closes; always so for a scalar on one line, C88_remove_simple and C88_removeAt_simple); it may be missing if a key follows. Then the text of the entry goes, what is written is read as the edited document, and its content is the old one without the entry. For the first entry or item (C88_first_partial, C88_firstAt_partial): its text goes, what is written is read back, if there is white space after it, the next one is on a later line, and this one is read in the same way when it is the first one: its key as it is, or white space after its dash. Both are refuted without that: a quote in a later key is part of the key but not in the first one, and a later dash needs no white space. For inline collections (C88_inline_partial, C88_inlineAt_partial and the simple forms): the text of the entry goes with the comma before it, or the one after it if it is the first one; what is written is read back and its content is the old one without the entry, if others come after it, or a comma or the bracket directly after it, or it is the only one and has no comma. Refuted otherwise: white space before the bracket becomes part of a bare string, and the comma after the only entry stays. Missing: comments after the removed value on its line when it is not the first one, block scalars that keep line breaks before it.")
claim("C89", "partial", "C89_both_false C89_series_partial C89_first_partial C89_firstAt_partial C89_fill_partial C89_fillAt_partial", "False: each of two removals alone is read back, but without both entries nothing is left that is read as a mapping; refuted. Proved for a text that is written as it was read, and any number of edits (set_*, insert of a new key and push, removal of an entry that is not the first of a block collection, or of any entry of an inline one), each of which meets the conditions of C79, C87, C88 or C92 in the text that would be written before it (Suits); what is assumed of the text at each step is that it has no header, no block scalars without a body, no commas after white space if there are lists in brackets, and that it is UTF-8 or without comments. The last edit may also be the removal of the first entry or item of a block collection (C89_first_partial, C89_firstAt_partial), or the first entry or item of an empty inline collection (C89_fill_partial, C89_fillAt_partial). Missing: further edits after these, new collections.")
claim("C90", "proved", "C90_lines", "Lines (Verif/Lines.lean) says which texts these are: no NUL, quotes, opening brackets, pipe or greater-than sign, all ASCII or without comments, no white space at the end of a line, a line break at the end. Nested (Verif/LinesDocs.lean): no value is missing, and nested collections are further to the right (a sequence in a mapping may be in the same column); it is read off the parsed document. No header (`---` or `%`). PlainEdit is the class of edits: new values are true, false, null, ~, numbers, and strings that are written without quotes.")
claim("C91", "partial", "C91_flow_false C91_missing_false C91_breaks_false C91_alone_partial C91_lines_partial C91_scalar_partial C91_block_partial", "False: the item `- a` of `[- a]` is a text there and a sequence on its own, and a value that is missing, or ends with a missing one, is null there and the empty string at the end of a text (C74); refuted. Proved for texts that are written as they were read (as in C79), for block values and inline collections whose last value is neither missing nor a block scalar that keeps line breaks (Final), that do not look like a header, and after which what looked like a key still does (KeysEnd; without quotes that is the end of the line, C91_lines_partial). For scalars anywhere, also in inline collections and in texts that are not written as they were read (C91_scalar_partial): if they are in quotes, or on one line and do not start with a dash and white space, whatever the indentation; the quotes are closed. For block scalars after which something follows (C91_block_partial): if they keep no line breaks, or there is one line break after them; refuted otherwise (C91_breaks_false). Missing: collections that end with a block scalar that keeps line breaks.")
claim("C92", "partial", "C92_comma_false C92_space_false C92_insert_partial C92_insert_kept C92_push_partial C92_push_kept C92_fill_partial C92_fill_kept C92_fillAt_partial C92_fillAt_kept", "False: a string with a comma in it is written without quotes, and read as two items, and white space before the closing bracket becomes part of a new string without quotes; refuted. Proved for texts that are written as they were read (as in C79): the collection is empty (C92_fill, C92_fillAt) or its last value is neither missing nor a block scalar, the new key and value are written as they will be read in brackets (Token; C92_insert_kept and C92_push_kept give classes of them), nothing but a comment follows the outermost inline collection on its line, and what looked like a key before still does (KeysEnd). Missing: last values that are missing or block scalars, new collections.")
claim("C93", "partial", "C93_remove_false C93_inside_partial C93_line_partial", "C93_remove_false: it has to be asked if the new text is accepted on its own; when the only entry of `{a: 1, }` is removed, what is written is refused. Proved for texts that are written as they were read (as in C79) and any series of edits of the collection and of values in it (Inside), in which the collection itself is not made a new one; its new text on its own is also written as it was read (OnItsOwn), nothing but a comment follows the outermost inline collection on its line, what looked like a key before the collection still does (KeysEnd), and in an inline collection it does not touch what is before it. No condition on the new text is needed for what is written, nor for the absence of a header.")
claim("C94", "proved", "C94_nothing_made_up C94_nothing_lost", "Covers (Verif/Loaded.lean) says that all of the one tree of data is in the other, at the same place. The derived Deserialize implementations and slab's are not in /repo; the model of them is in Verif/Snapshot.lean, and unknown fields are ignored as serde does by default. Strings are resolved when loaded (in the code, when used, where an id without a string panics); that the data stores strings under their hashes is assumed, because the model saves a string as its hash.")
claim("C95", "partial", "C95_follow_false C95_inside_partial C95_block_partial", "C95_follow_false: it has to be asked what follows; a block scalar that keeps its line breaks and is set as the last value takes the blank lines after it, which it does not on its own. Proved for texts that are written as they were read (as in C79) and any series of edits of the value and of values in it (Inside), in which the value itself is not made a new one; its old text is not empty and the line ends after it, its new text on its own is also written as it was read (OwnBlock), the values it ends with are further to the right than what follows and are no block scalars that keep line breaks, or nothing follows and they are neither missing nor such block scalars (CanFollow), a mapping stands where one may (C95_block_partial: if it was one before), what looked like a key before it still does (KeysEnd), and what is written has no header. Missing: comments after the value on its line, values whose old text is empty.")
claim("C96", "partial", "C96_first_false C96_build_partial C96_replace_partial C96_all_partial C96_typed_partial", "False: make_mapping indents a mapping that is the first item of a new sequence by two columns, whatever the column of the sequence, so that its second key is refused or belongs to a mapping further out, and an empty mapping is read back as null; refuted. Proved for all values without empty collections, whose keys are written as they are and differ, whose strings are read back as they are (safeStr), and whose sequences begin with a scalar (canBuild), in documents as in C49 (Tidy) whose other values have some text, in place of a scalar (C96_build_partial) or, after set_null, of any value (C96_replace_partial) or the whole document (C96_all_partial, where a sequence that starts in the first column may also begin with a collection); if a collection is stored, the place is neither in an inline collection nor the first item of a sequence other than one in the first column (CanMake). The program that stores the value is build (Verif/Build.lean). Missing: multi-line strings, sequences that begin with a mapping with one entry and are further to the right. C96_typed_partial: types that fit the value (C98) get its data from the document that is written and read again.")
claim("C97", "proved", "C97_deserialize C97_serialize C97_edited_false", "Types are machines that say which method they call, and which for what is in the value (Wanted in Verif/Wanted.lean); calls are compared without the ids in them (plainly). A visitor that fails ends the calls earlier, in both cases. C97_edited_false: why the documents must be parsed ones; a number that was set is handed over as the type it was set with.")
claim("C98", "proved", "C98_typed C98_ignoring C98_one C98_unit_none C98_ignored_false", "The types and what they are given are a specification of their own, on the content alone (Ty, Gets in Verif/Typed.lean). C98_typed: any document; C98_ignoring: parsed documents, where values are passed over with IgnoredAny too. C98_ignored_false: why the numbers that are passed over must fit; a derived struct that fits but for an unknown field with a number beyond 64 bits is never had. C98_unit_none: () is never had from null, since visit_none is called in place of visit_unit. Enums are not among the types, as the deserializer never calls visit_enum. C98_one: the calls are determined by the type and the content.")
