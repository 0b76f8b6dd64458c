#!/usr/bin/env python3
# Source of /verif/properties.jsonl.  Run: python3 tools/gen_properties.py
import json
P=[]
def p(title, statement, quantifier, why, anchors):
    P.append(dict(id="C%02d"%(len(P)+1), title=title, statement=statement, quantifier=quantifier, why_tests_cant=why, anchors=anchors))
PA="src/yaml/parsing.rs: "
p("Unedited documents are written back byte for byte",
  "If from_slice(x) returns Ok(doc) and doc is not edited, doc.write_to emits exactly the bytes x.",
  "every byte string x accepted by from_slice",
  "The input space is all byte strings; each combination of whitespace, comment, flow/block nesting and scalar style is another case, and the known failures sit in rare combinations.",
  [PA+"Parser::parse, value, sequence, mapping_or_nul, inline_sequence, inline_mapping, block", "src/yaml/document.rs: Document::write_to", "src/yaml/raw.rs: *::write_to"])
p("Display and write_to agree on freshly parsed documents",
  "For a parsed, unedited UTF-8 document, doc.to_string() is the same byte sequence that doc.write_to emits.",
  "every accepted UTF-8 input",
  "Two independent recursive printers must agree on every tree shape; tests compare a few shapes only.",
  ["src/yaml/raw.rs: Raw::display, Raw::write_to", "src/yaml/document.rs: Display for Document, write_to"])
p("Display and write_to agree after edits",
  "After any history of edits with valid UTF-8 arguments, doc.to_string() and doc.write_to emit the same bytes (the crate's own nondestructive_write_to_eq assertion).",
  "every accepted input and every finite sequence of edits",
  "Unbounded edit histories; the assertion is only compiled under a cfg and only fires on exercised states.",
  ["src/yaml/document.rs: Display for Document (nondestructive_write_to_eq)", "src/yaml/raw.rs: Null::display, Mapping::display, Sequence::display, MappingItem::write_to"])
p("from_slice never panics",
  "from_slice(x) does not reach a panicking branch for any byte string x.",
  "every byte string x",
  "All byte strings, including NUL bytes, truncated escapes and invalid UTF-8.",
  [PA+"Parser::*", "src/yaml/data.rs: Data::*"])
p("from_slice terminates",
  "from_slice(x) returns (Ok or Err) after finitely many steps for every byte string x.",
  "every byte string x",
  "Non-termination cannot be observed by a finite test, and absence of hangs ranges over all inputs.",
  [PA+"single_quoted, single_quoted_escaped, double_quoted, value, inline_sequence, inline_mapping, sequence, mapping_or_nul, block"])
p("Error spans index the input",
  "If from_slice(x) returns Err(e), then e.span() satisfies start <= end <= x.len(), so x[e.span()] is a valid slice.",
  "every rejected byte string x",
  "Ranges over all malformed inputs.",
  [PA+"Error::new call sites", "src/yaml/error.rs: Error::span"])
p("Accepted input is consumed completely",
  "If from_slice(x) returns Ok(doc) then parsing stopped at the end of x: no trailing bytes of x are silently ignored.",
  "every accepted byte string x",
  "All inputs; trailing garbage can follow any construct.",
  [PA+"Parser::parse"])
p("Parsed documents are well-formed trees",
  "The values of a parsed document form a finite tree: following as_mapping/as_sequence/get/iter from the root never panics, never revisits an Id, and every value other than the root has exactly one container.",
  "every accepted byte string",
  "All inputs, all navigation paths of any depth.",
  [PA+"placeholder, value", "src/yaml/data.rs: insert, replace", "src/yaml/mapping/mapping.rs", "src/yaml/sequence/sequence.rs"])
p("Edits with live handles never panic and keep the document well formed",
  "After any finite sequence of edits (set_*, insert*, push*, remove, clear, make_mapping, make_sequence), each addressed at a value that is in the document when the edit runs, no edit panics and the document is still a well-formed tree.",
  "every accepted input and every finite history of edits addressed at live values",
  "Histories are unbounded, and slot reuse in the arena makes bugs depend on the order of earlier removals.",
  ["src/yaml/value_mut.rs", "src/yaml/mapping/mapping_mut.rs", "src/yaml/sequence/sequence_mut.rs", "src/yaml/data.rs: drop, drop_kind, replace, replace_with"])
p("Replacing a value changes only that value's text",
  "For a live value, any set_* call replaces exactly the bytes that value occupied in the write_to output: the bytes before and after it, including all whitespace and comments outside it, are unchanged.",
  "every well-formed document, every live value in it at any depth, every new scalar",
  "All documents, all positions, all values.",
  ["src/yaml/value_mut.rs: set_null, set_string, set_string_with, set_block, set_bool, set_*", "src/yaml/data.rs: replace", "src/yaml/raw.rs: write_to"])
p("A value that was set reads back as the value set",
  "After set_string/set_string_with(s) as_str is s; after set_bool(b) as_bool is Some(b); after set_null as_any is Null; after a numeric set as_number returns the number written; every other typed accessor returns None.",
  "every document, every live value, every argument",
  "All strings and numbers.",
  ["src/yaml/value_mut.rs", "src/yaml/value.rs: as_str, as_bstr, as_bool, as_any, as_number"])
p("Integers survive set and read",
  "set_uN/set_iN(x) followed by as_uM/as_iM returns Some(x) exactly when x fits in the M type, and None otherwise.",
  "every width N, M in {8,16,32,64,128}, both signs, every x of type N",
  "2^128 values per width pair.",
  ["src/yaml/value_mut.rs: set_number!", "src/yaml/value.rs: as_number!", "src/yaml/number.rs: as_number!"])
p("Written integers parse back as the same integer",
  "The text written for an integer by set_uN/set_iN, parsed as a document, is a number whose as_uN/as_iN is the same integer.",
  "every width and every integer of it",
  "2^128 values.",
  [PA+"number, is_eol", "src/yaml/value_mut.rs: set_number!"])
p("Mapping insert/get behaves as an ordered map",
  "After insert*(k, v): get(k) is v; get of every other key is unchanged; len grows by one iff k was absent; the relative order of existing entries is unchanged and a new entry is last.",
  "every well-formed document, every mapping in it, every key and value",
  "All mappings and keys.",
  ["src/yaml/mapping/mapping_mut.rs: inner_insert", "src/yaml/mapping/mapping.rs: get, len, iter"])
p("Mapping remove behaves as an ordered map",
  "remove(k) returns true iff k was present; it removes exactly the first entry with key k, all other entries keep their order and their values.",
  "every well-formed document, every mapping, every key",
  "All mappings and keys.",
  ["src/yaml/mapping/mapping_mut.rs: remove", "src/yaml/data.rs: drop"])
p("Duplicate keys: first entry wins consistently",
  "With duplicate keys in the source, get, get_mut, insert and remove all act on the first entry with the key.",
  "every mapping, every key",
  "All key multiplicities and positions.",
  ["src/yaml/mapping/mapping_mut.rs: inner_insert, get_mut, get_into_mut, remove", "src/yaml/mapping/mapping.rs: get"])
p("Inserting a new key adds exactly one line",
  "Inserting an absent key into a non-empty mapping adds to the written document only: (a comma for inline mappings,) a newline, the mapping's indentation in spaces, the key, a colon, the separator and the value, directly after the last entry; all other bytes are unchanged.",
  "every well-formed document, every mapping at any depth, every absent key, every value and separator",
  "All documents and depths.",
  ["src/yaml/mapping/mapping_mut.rs: make_prefix, inner_insert", "src/yaml/raw.rs: Mapping::write_to, MappingItem::write_to"])
p("Removing an entry deletes only that entry's text",
  "Removing an entry of a mapping or sequence deletes from the written document exactly that entry's leading whitespace, its text and, for inline collections, one separating comma.",
  "every well-formed document, every collection, every entry",
  "All documents and positions.",
  ["src/yaml/mapping/mapping_mut.rs: remove", "src/yaml/sequence/sequence_mut.rs: remove", "src/yaml/raw.rs: write_to"])
p("Sequence operations behave as a list",
  "push appends, remove(i) deletes index i and returns i < len, clear empties, get(i)/first/last/len/is_empty/iter observe that list.",
  "every well-formed document, every sequence, every finite history of operations",
  "Unbounded histories.",
  ["src/yaml/sequence/sequence_mut.rs", "src/yaml/sequence/sequence.rs", "src/yaml/sequence/iter.rs"])
p("Pushing to a sequence adds exactly one entry's text",
  "push* on a non-empty sequence adds to the written document only a newline, the sequence's indentation, '-' (block) or ',' (inline), the separator and the value, after the last entry.",
  "every well-formed document, every sequence, every value and separator",
  "All documents and depths.",
  ["src/yaml/sequence/sequence_mut.rs: make_prefix, inner_push", "src/yaml/raw.rs: Sequence::write_to"])
p("Ids stay valid across unrelated edits",
  "The Id of a live value keeps referring to the same value, with the same contents, across any edit that neither targets that value or one below it nor removes or replaces a value above it.",
  "every well-formed document, every live Id, every edit elsewhere",
  "All pairs of positions and histories with slot reuse.",
  ["src/yaml/data.rs: Id, insert, drop, replace", "src/yaml/document.rs: value, value_mut", "README.md: stored edits"])
p("New values never take the Id of a live value",
  "Every insertion allocates an Id different from the Id of each value that is in the document.",
  "every reachable document, every insertion",
  "Depends on the arena's free list after arbitrary histories.",
  ["src/yaml/data.rs: insert, drop (slab::Slab)"])
p("No leaked and no dangling arena entries",
  "After any history of edits the arena holds exactly the entries reachable from the root; in particular removing or replacing a value frees everything below it.",
  "every reachable document",
  "Unbounded histories and depths.",
  ["src/yaml/data.rs: drop, drop_kind, replace, replace_with"])
p("Using the Id of a removed value panics rather than returning other data",
  "Right after a value is removed, doc.value(id) accessors panic instead of returning data of another value; the Id is only ever reused by a later insertion.",
  "every reachable document, every removed value",
  "All positions and histories.",
  ["src/yaml/data.rs: raw, layout", "src/yaml/document.rs: value (Panics section)"])
p("Single-quoted strings round trip",
  "The text written for set_string_with(s, Single) parses back to the string s, in any context where a value may stand.",
  "every byte string s, every surrounding text not starting with a quote",
  "All strings, including quotes, newlines, NUL and non-UTF-8.",
  ["src/yaml/raw.rs: escape_single_quoted", PA+"single_quoted, single_quoted_escaped"])
p("Double-quoted strings round trip",
  "The text written for set_string_with(s, Double) parses back to the string s.",
  "every string s",
  "All strings.",
  ["src/yaml/raw.rs: escape_double_quoted", PA+"double_quoted, double_quoted_escaped, unescape"])
p("set_string picks a representation that parses back to the same string",
  "For every string s, the text written after set_string(s) parses back as a string equal to s.",
  "every string s",
  "All strings.",
  ["src/yaml/raw.rs: RawStringKind::detect, new_string", PA+"value"])
p("The quoting heuristic is the documented one",
  "set_string uses Double iff the string has a single quote or control character, otherwise Single iff it starts with an ASCII digit, contains ':' or is true/false/null, otherwise Bare.",
  "every string",
  "All strings; the loop has early returns and order-dependent state.",
  ["src/yaml/raw.rs: RawStringKind::detect", "src/yaml/value_mut.rs: set_string docs"])
p("Iteration agrees with indexing",
  "iter() on a mapping or sequence yields exactly the entries in document order, as many as len() says and none if is_empty(), next and next_back consume from the two ends without overlap or omission, and size_hint is exact at every point.",
  "every collection, every interleaving of next, next_back and nth",
  "All interleavings and lengths.",
  ["src/yaml/mapping/iter.rs", "src/yaml/sequence/iter.rs"])
p("nth_back counts from the back",
  "nth_back(n) returns the (n+1)-th entry from the back and leaves the entries before it.",
  "every collection and every n",
  "All lengths and n.",
  ["src/yaml/mapping/iter.rs: nth_back", "src/yaml/sequence/iter.rs: nth_back"])
p("Every value has exactly one kind",
  "For each value of a reachable document exactly one of null, bool, number, string, mapping, sequence holds, the typed accessors agree with as_any, and Any::Raw is never returned.",
  "every reachable document, every live value",
  "All documents and histories.",
  ["src/yaml/value.rs: into_any, as_any, as_*", "src/yaml/any.rs", "src/yaml/value_mut.rs: into_any_mut"])
p("Plain scalar classification",
  "A one-line plain scalar document is null iff it is ~ or null in any case, a boolean iff true/false in any case, and otherwise a number or a string with exactly that text.",
  "every single-line plain scalar",
  "All strings.",
  [PA+"value, number, is_eol, key_or_eol"])
p("Block scalar chomping follows the indicator",
  "For literal and folded blocks, strip (-) keeps no final line break, clip (default) keeps exactly one, keep (+) keeps all.",
  "every block scalar",
  "All block bodies.",
  [PA+"block", "src/yaml/value.rs: Chomp"])
p("set_block reads back as the joined lines",
  "After set_block/insert_block/push_block(lines, block) the value reads as the lines joined by newline (literal) or space (folded), plus a final newline unless strip; its text is the block header and each line on its own indented line.",
  "every list of lines, every block style, every target",
  "All line lists.",
  ["src/yaml/raw.rs: new_block", "src/yaml/value_mut.rs: set_block", "src/yaml/mapping/mapping_mut.rs: insert_block", "src/yaml/sequence/sequence_mut.rs: push_block"])
p("make_mapping and make_sequence are idempotent",
  "make_mapping on a mapping and make_sequence on a sequence change nothing; on any other value they yield an empty collection at the same Id, and a second call changes nothing further.",
  "every reachable document, every live value",
  "All documents.",
  ["src/yaml/value_mut.rs: make_mapping, make_sequence", "src/yaml/raw.rs: make_indent"])
p("New nested collections are indented two columns deeper",
  "A collection made from a value inside a block mapping gets indentation container + 2 and a line break before it; made from a direct item of a block sequence it stays on the item's line.",
  "every reachable document, every live value",
  "All nestings.",
  ["src/yaml/raw.rs: make_indent"])
p("Interned strings are faithful",
  "As long as no two distinct interned strings collide under the 128-bit hash, looking up an interned id always returns exactly the bytes inserted, no matter what is interned or removed later.",
  "every sequence of insertions",
  "Unbounded histories.",
  ["src/yaml/data.rs: StringId, insert_str, str"])
p("Quoted mapping keys are decoded",
  "A block mapping key written in quotes is looked up by its unquoted content, whichever entry of the mapping it is.",
  "every block mapping with quoted keys",
  "All key positions and contents.",
  [PA+"mapping_or_nul, next_mapping_key, value"])
p("Serialization is a faithful image of the document",
  "serde serialization of a value yields the same structure: mappings and sequences with the same entries in the same order, strings, booleans, null as null and each number as that number.",
  "every reachable document",
  "All documents.",
  ["src/yaml/serde/ser.rs"])
p("Deserialization terminates",
  "Deserializing any value into any type with serde returns a result.",
  "every document value and every requested type",
  "Non-termination is not observable by a finite test; all number texts.",
  ["src/yaml/serde/de.rs: deserialize_any, deserialize_*"])
p("Last write wins",
  "Setting the same value twice gives the same document as setting it once to the second argument.",
  "every document, live value, and pair of arguments",
  "All documents and arguments.",
  ["src/yaml/value_mut.rs: set_*", "src/yaml/data.rs: replace"])
p("Stored edits to different values commute",
  "Applying set_* edits addressed by Id to values none of which contains another gives the same output in every order.",
  "every document, every list of such edits, every permutation of it",
  "All permutations and documents.",
  ["README.md: stored edits", "src/yaml/document.rs: value_mut"])
p("clear empties a collection and nothing else",
  "clear leaves the mapping or sequence with no entries at the same Id; in the written output only the entries' text disappears.",
  "every reachable document, every collection",
  "All documents.",
  ["src/yaml/mapping/mapping_mut.rs: clear", "src/yaml/sequence/sequence_mut.rs: clear"])
p("Non-UTF-8 bytes are preserved",
  "write_to reproduces bytes that are not valid UTF-8 unchanged (the module documentation says neither input nor output needs to be UTF-8).",
  "every accepted byte string with invalid UTF-8",
  "All byte strings.",
  ["src/yaml/mod.rs: docs", "src/yaml/raw.rs: Sequence::write_to (write! of a BStr prefix)"])
p("Document headers are preserved",
  "Directives (%...) and the --- marker before the document are still present in the written output.",
  "every accepted document with a header",
  "All header forms.",
  [PA+"start_of_document", "src/yaml/document.rs"])
p("Error spans can be used to slice a str input",
  "For a &str input, the error span falls on character boundaries, so &input[e.span()] does not panic (as the ErrorKind examples do).",
  "every rejected UTF-8 input",
  "All malformed UTF-8 texts.",
  [PA+"unescape, unescape_unicode", "src/yaml/error.rs: ErrorKind examples"])
p("Nested block documents are read with the structure they were written with",
  "A document built from nested block and flow mappings and sequences of plain and quoted scalars, laid out with any consistent indentation, comments and blank lines, is accepted, reads through the API as exactly that structure and as no other, and is written back unchanged.",
  "every finite nesting of mappings/sequences with safe keys and scalars, every layout of it",
  "Unbounded width and depth.",
  [PA+"value, sequence, mapping_or_nul, next_mapping_key, key_or_eol, indent"])
p("Flow collections of plain items are read with the structure they were written with",
  "A flow sequence or mapping written as items separated by commas, with any white space and comments before items and after colons, parses to exactly those items, at any nesting depth, and is written back unchanged.",
  "every finite nesting of flow collections of safe scalars",
  "Unbounded width and depth.",
  [PA+"inline_sequence, inline_mapping, until_colon"])
p("Edited documents are read back",
  "After any sequence of sets, inserts, pushes, removals and clears that store scalars whose text can stand anywhere (and block scalars where they can be), a document of the supported grammar is written as text that is accepted, is written back unchanged, and in which every value is found at the same path with the same content as in the edited document.",
  "every document of the grammar, every finite sequence of such edits at any depth",
  "All documents, all edit histories.",
  ["src/yaml/value/value_mut.rs", "src/yaml/mapping/mapping_mut.rs", "src/yaml/sequence/sequence_mut.rs", "src/yaml/document.rs: write_to", PA+"parse"])
p("Deserialization hands over the document as it reads",
  "A consumer that accepts anything gets, through serde, exactly what the value reads as through the API: every entry and element once and in order, each number as the number written; a consumer that asks for a type gets that type if the value has it.",
  "every document whose number texts stand for a 64-bit integer or a floating point number; every value in it, every requested type",
  "All documents, all number texts.",
  ["src/yaml/serde/de.rs"])
p("Blocks that are stored are read back",
  "After set_block, insert_block or push_block with some lines and an indicator, the document is written as text that is accepted and in which the value found at the same path is the lines joined as the block says, and every other value is as it was.",
  "every document of the grammar, every value in it, every non-empty list of non-empty lines, literal and folded blocks with each chomping indicator",
  "All nestings and indentations of the place where the block is stored.",
  ["src/yaml/value/value_mut.rs: set_block", "src/yaml/mapping/mapping_mut.rs: insert_block", "src/yaml/sequence/sequence_mut.rs: push_block", "src/yaml/raw.rs: new_block", PA+"block"])
p("Escapes in double quotes are decoded",
  "A string in double quotes is read as its bytes, with each escape of YAML replaced by the character it stands for; an unknown escape is refused with an error that covers it.",
  "every string of bytes and escapes",
  "All strings, all code points.",
  [PA+"double_quoted, double_quoted_escaped, unescape, unescape_unicode"])
p("Block scalars are read line by line",
  "A literal block scalar is read as its lines, with indentation beyond that of the first line and white space at the end of lines kept; a folded one with line breaks between lines replaced by spaces and blank lines by line breaks.",
  "every block scalar",
  "All numbers and contents of lines.",
  [PA+"block"])
p("Every value that is read has its place in the text",
  "If from_slice accepts a text, then every value of the document has a place in it, and outside of these places there are only punctuation, white space, comments and the header. A scalar is at its place as a number, plain text, in quotes or as a block, and reads as what is written there. The items of a block collection start in one column, each with a dash or with its key and a colon; a block mapping that is the value of a key is further to the right than the key. An inline collection starts and ends with its brackets and has its items, in order, separated by commas, of which one may be missing before the last item. Exceptions: a text in double quotes can also end with a NUL byte or the text, and a key in an inline mapping with a NUL byte.",
  "every accepted text",
  "All texts, all nestings.",
  [PA+"value, sequence, mapping_or_nul, inline_sequence, inline_mapping, next_mapping_key, number, single_quoted, double_quoted"])
p("A block scalar ends where the collection it is in goes on",
  "The lines of a block scalar that is the value of a key are further to the right than the key: the next key in the column of the mapping, or further to the left, is not part of the scalar, and the entries that follow are read as entries.",
  "every text in which the value of a key of a block mapping is a block scalar, with any number of lines, and other entries follow",
  "All numbers of lines, columns and entries.",
  [PA+"block, mapping_or_nul"])
p("Errors say what is wrong and where",
  "If from_slice refuses a text, then the text is as it should be up to where the error is, and the error says what is wrong there and covers it: a text in double quotes has a backslash at the start of the span that is not followed by an escape; or a key in a block mapping starts there and has no colon after it; or the white space after the last comma (or bracket) of an inline mapping starts there and is followed by a key without a colon; or the white space after the last item (or after the comma or the bracket) of an inline collection starts there and is followed, at the end of the span, by the end of the text or by something that is neither a comma nor the bracket; or the document is complete and something other than white space and comments follows, from the start of the span.",
  "every refused text",
  "All texts, all nestings, all kinds of errors.",
  [PA+"parse, inline_sequence, inline_mapping, mapping_or_nul, unescape, unescape_unicode", "src/yaml/error.rs"])
p("A text is accepted, refused or unfinished just as it is written",
  "Each text is of exactly one of three kinds, told from the text alone. Either it has a content, and from_slice accepts it and the document reads as that content: every text in which each value has its place as described for accepted texts is accepted, and it has only one content. Or it has a fault, and from_slice refuses it with the error that describes the fault: it has only one, the first. Or it has a value that starts with a single quote that is not closed, and is as it should be up to there, and from_slice does not return.",
  "every text",
  "All texts: in both directions, what is accepted and what is refused.",
  [PA+"parse, value", "src/yaml/mod.rs: from_slice", "src/yaml/error.rs"])
p("What is written for an unchanged text",
  "If from_slice accepts a text and the document is written without a change, the result is the text except for the following, and no other. The header is left out. Between two items of an inline collection a comma is written if there is none. In an inline mapping the white space and comments between a value and what follows it are left out, unless the item is the last, without a comma before it, and the bracket follows; in an inline sequence white space and comments between a block scalar and the comma are written after the comma. A NUL byte after a key in an inline mapping is written as a colon. The white space and comments before an item of a sequence have what is not UTF-8 replaced. What follows a block scalar that has no line but that of its header is written twice.",
  "every accepted text",
  "All texts, all nestings: the exact result, in both directions.",
  [PA+"parse", "src/yaml/document.rs: write_to", "src/yaml/raw.rs: write_to"])
p("A writer that fails gets the start of the text",
  "Whatever edits were made, write_to into a writer that fails does not panic: the writer gets the bytes it would get if it did not fail, in order, up to the failure; the error is returned, and nothing is written after it. If the writer does not fail, Ok is returned and it has got all of the text.",
  "every document reachable by edits, every behaviour of a writer",
  "All documents, all points of failure.",
  ["src/yaml/document.rs: write_to", "src/yaml/raw.rs: write_to"])
p("Error messages tell errors apart",
  "Two errors with the same message (Display) have the same kind and the same span.",
  "every two errors",
  "All spans.",
  ["src/yaml/error.rs"])
p("What is written can be read again and says the same",
  "If from_slice accepts a text and the document is written without a change, then what is written is accepted by from_slice as well, and reading it gives the same content: the same mappings, with the same keys in the same order, sequences and scalars.",
  "every accepted text",
  "All texts, all nestings, all ways in which what is written differs from what was read.",
  [PA+"parse", "src/yaml/document.rs: write_to", "src/yaml/raw.rs: write_to"])
p("A snapshot restores the document",
  "With the feature serde-edits: if a document is serialized, at any time after parsing it and editing it, and deserialized again from what was serialized, the deserialization succeeds and gives a document that is written and displayed as the other one, in which the same ids are values, with the same text and content. From then on it behaves as the other one would have: any further edits, addressed by the position of values, succeed on both and leave both with the same text and content. No two strings that were in the document may have the same 128-bit hash.",
  "every document reachable by parsing, edits and snapshots; every sequence of edits after it; every order in which the serialized maps are given back",
  "All documents, including those in which values were removed; all later edits.",
  ["src/yaml/serde/mod.rs:5-7", "src/yaml/document.rs:31", "src/yaml/data.rs:16-98", "src/yaml/raw.rs:188-218"])
p("A handle displays its value's part of the text",
  "Whatever edits were made, Display of a handle does not panic and gives a part of what Display of the document gives. Display of a mapping or a sequence has in it what Display of its values gives, one after the other, in the order of iteration; Mapping and Sequence handles display what the Value handle does. In a UTF-8 text that was parsed, a scalar is displayed as it is in the text, and no more than that: as a text that is read as that scalar; only a missing value is displayed as nothing. A value of such a document is displayed as it is written.",
  "every document reachable by edits, every live value; for scalars every accepted UTF-8 text",
  "All documents, all nestings, all texts.",
  ["src/yaml/value.rs:585-590", "src/yaml/mapping/mapping.rs:234-239", "src/yaml/sequence/sequence.rs:314-319", "src/yaml/raw.rs: display"])
p("An entry or item that is added and removed again leaves no trace",
  "Whatever edits were made before: if an entry is inserted into a mapping at a key it does not have, the value is then edited in any way, as are any values that are added below it, and the entry is removed again, then the document is as it was before: it is written and displayed as before, and the same ids are values, with the same text and content. The same holds for an item that is pushed to a sequence, edited, and removed again.",
  "every document reachable by edits, every live mapping or sequence, every new key, every sequence of edits at and below the new value",
  "All documents, all sequences of edits.",
  ["src/yaml/mapping/mapping_mut.rs: insert, remove", "src/yaml/sequence/sequence_mut.rs: push, remove", "src/yaml/data.rs: drop_value"])
p("Edits of different values may be done in any order",
  "Whatever edits were made before: two edits of any kind, of two values of which neither contains the other, succeed in either order and leave the document with the same text, the same Display and the same content. The same holds for a longer series of edits, each addressed by the position of a value, new values included: two edits that follow each other may change places if the position of neither is on the way to that of the other, and so on, and the text, Display and content at the end are the same.",
  "every document reachable by edits, every two values, all operations; every series of edits and every such reordering of it",
  "All documents, all edits, all reorderings.",
  ["src/yaml/value_mut.rs", "src/yaml/mapping/mapping_mut.rs", "src/yaml/sequence/sequence_mut.rs", "src/yaml/raw.rs: make_indent"])
p("White space and comments before a text change nothing",
  "If white space and comments, ended by a line break, are put before a text, from_slice does the same as without them: it accepts the text with the same content and gives the same ids to the values, or refuses it with the same error, whose span is moved by what was put before, or does not finish in either case. What is written is what was written before, with what was put before in front of it; only if a header (a directive or ---) comes after it is it dropped, with the header.",
  "every text; all white space and comments that end with a line break",
  "All texts, accepted or not; everything that can be put before them.",
  [PA+"start_of_document", PA+"ws_nl", PA+"indent_from"])
p("White space and comments after a text do not change its content",
  "If a text that ends with a line break is accepted, and its last scalar is not a string that ends with a line break, then with white space and comments after it, ended by a line break, the text is accepted with the same content. (The last scalar is that of the last entry or item, and so on; there is none if that is an empty collection.)",
  "every accepted text that ends with a line break; all white space and comments that end with a line break",
  "All texts, all nestings, everything that can be put after them.",
  [PA+"parse", PA+"ws_nl", PA+"block", PA+"indent_from"])
p("White space and comments between the values of a text may be exchanged",
  "In a text without a header that is accepted, white space and comments between its scalars and keys may be exchanged for others, added or removed, and the text is accepted with the same content, if what is exchanged is whole lines, or is at the end of a line. In a comment at the end of a line, white space is before the #. It must not be in a scalar or a key; on the same line after a scalar without quotes; or among the line breaks after a block scalar whose value ends with a line break.",
  "every accepted text without a header; every place in it that is between the scalars and keys; all white space and comments on both sides of the exchange",
  "All texts, all nestings, all places, everything that can be put there.",
  [PA+"ws_nl", PA+"value", PA+"mapping", PA+"sequence", PA+"block", PA+"indent_from"])
p("A text holds no more than a multiple of its length",
  "If a text of n bytes is accepted, the document has at most n + 1 values, and its keys, numbers and strings have at most 2n bytes together. The document keeps two records for each value except the root, one for the value and one for what is before it, and no others, and the ids of its values are at most 2n. Parsing a text thus cannot make it grow by more than a constant factor. (The factor 2 is needed: empty lines in a block scalar can count twice.)",
  "every accepted text",
  "All texts, of any length.",
  [PA+"parse", PA+"block", "src/yaml/data.rs: insert"])
p("How deep values can be nested is limited",
  "There is a depth such that a text with values nested deeper than that is refused. (The parser, and the functions that write and display, call themselves once for each level, so that without a limit a text can make them use up the stack.)",
  "every text",
  "No nesting that is tried shows that there is a limit, or that there is none; stack overflow is not an error that is returned.",
  [PA+"value", PA+"inline_sequence", "src/yaml/raw.rs: write_to"])
p("A comment after a value on its line is not part of the value",
  "If an accepted text gets a comment at the end of a line, with white space before the #, outside of quotes and block scalars, it is accepted with the same content.",
  "every accepted text, every line of it, every comment",
  "All texts, all lines, all comments.",
  [PA+"value", PA+"key_or_eol", PA+"ws_nl"])
p("White space at the end of a line is not part of a value",
  "If an accepted text gets white space at the end of a line, outside of quotes and block scalars, it is accepted with the same content. In particular line breaks may be CR LF instead of LF.",
  "every accepted text, every line of it, all white space",
  "All texts, all lines, all white space.",
  [PA+"value", PA+"key_or_eol", PA+"ws_nl"])
p("Texts put together from lines that stand on their own",
  "Call a text of whole lines that starts with a key without quotes (or a dash) in the first column a piece, if with the line `z: 0` (`- 0`) after it it is read as its entries (items) and one more. Pieces can be put together in any number and any order, with any text that starts the same way after them, and what is read are the entries (items) of the pieces in that order, and then those of the last text.",
  "every list of pieces, in every order; every text after them",
  "All texts and all ways to put them together.",
  [PA+"parse", PA+"mapping_or_nul", PA+"sequence", PA+"next_mapping_key", PA+"ws_nl"])
p("A key or a dash with nothing after it has the value null",
  "If nothing but white space and comments is between a key of a block mapping (or a dash of a block sequence) and the next key (dash) in the same column, or the end of the text, then the value is null.",
  "every key; all white space and comments after it; everything that follows",
  "All keys, all that can be between and after them.",
  [PA+"mapping_or_nul", PA+"sequence", PA+"value", PA+"next_mapping_key"])
p("A value is further to the right than its key",
  "A text that is on the lines after a key and that does not start with white space is not read as the value of the key, unless it is a block sequence.",
  "every key and every text after it",
  "All texts.",
  [PA+"mapping_or_nul", PA+"value", PA+"indent_from"])
p("The check of Display against write_to never fails",
  "Compiled with --cfg nondestructive_write_to_eq and debug assertions, as the project's own tests are, Display for Document never panics, and gives the same text as without.",
  "every document that is parsed from UTF-8, and after any edits with UTF-8 texts",
  "All texts and all histories of edits; the check only compares the documents that are displayed in a test.",
  ["src/yaml/document.rs: fmt", "src/yaml/document.rs: display", "src/yaml/document.rs: write_to"])
p("Setting a value replaces just the characters it was read from",
  "Every value of a parsed document was read from one part of the text, at its place inside the values that contain it. What is written before the value is all that was read before it, what is written of the value is all that was read for it, and what is written after it is all that was read after it, except for the changes of C07; after a set_* only the part of the value is another. If the text is written back unchanged (no header, no block scalar without a body, no comma after white space in lists in brackets, UTF-8 or no comments), then after a set_* what is written is the text with just the characters the value was read from replaced.",
  "every accepted text, every value in it, every set_*",
  "All texts, all values and all setters; tests compare a few edited documents.",
  [PA+"parse", PA+"value", "src/yaml/value_mut.rs: set_string", "src/yaml/document.rs: write_to"])
p("The numeric accessors give just the number that is written",
  "The accessors as_u8, as_i8, ..., as_u128 and as_i128 give v if and only if the value is a number written as an optional sign and decimal digits that stand for v, and v is a value of the type; for the unsigned types there may be no minus sign, not even before a zero. In all other cases, and for all other values, they give None and do not panic. as_f32 and as_f64 give a number if and only if the value is a number and what is written is a floating point number.",
  "every document that is parsed or edited, every value in it, every type",
  "All texts of numbers of any length and all types; tests take a few numbers.",
  ["src/yaml/value.rs: as_u8", "src/yaml/value.rs: as_i128", "src/yaml/value.rs: as_f64"])
p("What is written after setting a value is read as the edited document",
  "Take a text that is written back unchanged (conditions as in C77) and a value of it that is not missing. After a set_* what is written is accepted, and what is read from it is the content of the edited document, in the whole and not only at the value; provided that the new text, with what follows on its line, is read as the new value, that nothing but a comment follows on the line after the value or the inline collection it is in, and that what looked like a key after a missing value still does. For booleans, null, numbers and strings in quotes in a text without brackets the first condition is always met (after a boolean or null nothing, after a number only white space may be on the line; a string in double quotes is without quotes and backslashes).",
  "every accepted text, every value in it, every set_*, every new text that fits in its place",
  "All texts, values and setters: the new text may change how anything after it, and keys before it, are read.",
  [PA+"parse", PA+"value", "src/yaml/value_mut.rs: set_string", "src/yaml/value_mut.rs: set_bool", "src/yaml/document.rs: write_to"])
p("What is displayed is what is written, with U+FFFD for what is not UTF-8",
  "A document that is parsed from any bytes is displayed as it is written, with one U+FFFD for every maximal part that is not UTF-8 (a byte or the start of the encoding of a character, as long as possible, where no character starts); so is every value in it, and every value that is not a collection in a document after any edits. A string that is set, with set_string or set_string_with, is displayed in the quotes it is written in. Whatever is displayed, of a document, a value, a mapping or a sequence, in any state, is UTF-8.",
  "every accepted sequence of bytes, every value in it, every history of edits with any bytes",
  "All byte strings: the text is displayed in pieces, and whether bytes are UTF-8 depends on the pieces around them; tests display UTF-8 only.",
  ["src/yaml/document.rs: display", "src/yaml/raw.rs: display", "src/yaml/value.rs: fmt"])
p("Floating point numbers that are set are read back",
  "After set_f32 or set_f64, insert_f32 or insert_f64, push_f32 or push_f64 with any floating point number, the value is a number, and the text that as_f32 and as_f64 read stands for just the number given (the shortest decimal for it, with its sign also for zero; NaN and the infinities included). The same holds after the document is written and read again.",
  "every document that is parsed or edited, every value in it, every floating point number of both types",
  "All floating point numbers: whether there is an exponent, and how the point and zeros are put, depends on their size; tests use 10.42.",
  ["src/yaml/value_mut.rs: set_float", "src/yaml/mapping/mapping_mut.rs: insert_float", "src/yaml/sequence/sequence_mut.rs: push_float", PA+"number"])
p("Any data that is loaded as a document can be used",
  "With the feature serde-edits: if Deserialize for Document gives a document, from any data, then the document can be walked, written and displayed, and edited at any of its values any number of times, without a panic and without running forever.",
  "every data of the shape that Deserialize accepts, every history of edits",
  "All data, also such as no document would give: ids that refer to anything, in any order and more than once.",
  ["src/yaml/document.rs: Document", "src/yaml/data.rs: Data, Id, Entry", "src/yaml/raw.rs: Raw"])
p("A key of a block mapping without quotes is on one line",
  "If a text is read as a block mapping, no key of it that has no quotes has a line break in it. So a line without a colon between two entries is not part of a key.",
  "every accepted text that is a block mapping, every line in it",
  "All texts: what is read at the start of a line depends on all the lines before.",
  [PA+"mapping_or_nul", PA+"next_mapping_key"])
p("Of more than one document in a text none is read as part of another",
  "A text with a document, a line `---` and another document after it is refused, with an error at the line `---`; the entries or items of the second document are not added to those of the first.",
  "every accepted text of whole lines, every text after the marker",
  "All pairs of texts.",
  [PA+"parse", PA+"mapping_or_nul", PA+"sequence", PA+"next_mapping_key"])
p("Entries that are added to a document are read back",
  "If a text that is a block mapping is parsed, entries with new keys are inserted, and the document is written, then what is written is read as the document is: the old entries with their values, and the new ones with the values given after them. The same for values pushed to a block sequence.",
  "every accepted text that is a block mapping or a block sequence, any number of entries with any keys and values",
  "All texts and all entries: where the last value ends, and what comes after it in the text, decides how the new entry is read.",
  ["src/yaml/mapping/mapping_mut.rs: insert", "src/yaml/sequence/sequence_mut.rs: push", PA+"parse", "src/yaml/document.rs: write_to"])
p("Without the entries that are removed, a document is read as it is",
  "If a text that is a block mapping is parsed, any entries are removed and others inserted, in any order, and the document is written, then what is written is read as the document is: the entries that are left, with their values, and the new ones. The same for a block sequence.",
  "every accepted text that is a block mapping or a block sequence, any number of removals and insertions in any order",
  "All texts and all orders of edits: what was before a removed entry, or after it, comes to be next to another.",
  ["src/yaml/mapping/mapping_mut.rs: remove", "src/yaml/sequence/sequence_mut.rs: remove", "src/yaml/mapping/mapping_mut.rs: insert", "src/yaml/sequence/sequence_mut.rs: push", PA+"parse", "src/yaml/document.rs: write_to"])
p("An entry added to a collection anywhere in a document is read back",
  "If an entry with a new key is inserted in a block mapping, or a value is pushed to a block sequence, at any depth of a parsed document, and the document is written, then what is written is the text with one new line at the end of the collection, and it is read as the edited document is: with the new value in that collection, and everything before and after it as it was.",
  "every accepted text, every block collection in it, every key and value",
  "All texts and places in them: the new line may be taken as part of the value before it, or what follows as part of the new one.",
  ["src/yaml/mapping/mapping_mut.rs: insert_str", "src/yaml/sequence/sequence_mut.rs: push_string", PA+"mapping_or_nul", PA+"sequence", "src/yaml/document.rs: write_to"])
p("Without an entry removed anywhere in it, a document is read as it is",
  "If an entry is removed from a block mapping, or an item from a block sequence, at any depth of a parsed document, and the document is written, then what is written is the text without that entry and the white space and comments before it, and it is read as the edited document is: without the value in that collection, and everything before and after it as it was.",
  "every accepted text, every block collection in it, every entry but the first",
  "All texts and places in them: what was after the removed entry comes to be next to what was before it, and may be taken as part of it.",
  ["src/yaml/mapping/mapping_mut.rs: remove", "src/yaml/sequence/sequence_mut.rs: remove", PA+"mapping_or_nul", PA+"sequence", "src/yaml/document.rs: write_to"])
p("After any series of edits anywhere in a document, what is written is read back",
  "Take any series of edits at any depth of a parsed document: values are set, entries are inserted in mappings and values are pushed to sequences, and entries are removed. If each of the edits, made alone in the text as it is then, is read back (C79, C87, C88), then so are all of them: at the end the document is written as a text that is accepted, and what is read from it is the content of the edited document.",
  "every accepted text, every series of edits of any length at any values of it",
  "All texts and all series of edits: each edit meets the state and the text that all the others have left behind.",
  ["src/yaml/value_mut.rs: set_string", "src/yaml/mapping/mapping_mut.rs: insert", "src/yaml/mapping/mapping_mut.rs: remove", "src/yaml/sequence/sequence_mut.rs: push", "src/yaml/sequence/sequence_mut.rs: remove", PA+"parse", "src/yaml/document.rs: write_to"])
p("In a document of plain lines, any series of plain edits is read back",
  "Take a text of plain lines: block mappings and sequences of values on one line, with comments, without quotes, brackets or block scalars, without missing values, and without white space at the end of a line. Parse it, and make any series of edits at any depth: set a value that is not a collection, insert an entry with a new key in a mapping, push a value to a sequence, remove an entry that is neither the first one nor comes after a collection; all new texts are on one line. Then every edit works, what is written at the end is again a text of plain lines, it is accepted, and what is read from it is the content of the edited document.",
  "every text of plain lines, every series of such edits of any length at any values of it",
  "All texts and all series of edits; the only conditions are on the text at the start and on each edit by itself.",
  ["src/yaml/value_mut.rs: set_string", "src/yaml/mapping/mapping_mut.rs: insert", "src/yaml/mapping/mapping_mut.rs: remove", "src/yaml/sequence/sequence_mut.rs: push", "src/yaml/sequence/sequence_mut.rs: remove", PA+"parse", "src/yaml/document.rs: write_to"])
p("The text of a value, put on its own with its indentation, is read as that value",
  "Take any value at any depth of a parsed document, and the text it is written as. Put as many spaces before it as its first line is indented by, and a line break after it. The resulting text is accepted on its own, and what is read from it is what the value says in the document: the meaning of a part does not depend on what is around it.",
  "every accepted text, every value of it",
  "All texts and all values of them: how a value is read could depend on what is before it (the column it starts in, whether it is in brackets) and after it.",
  [PA+"parse", PA+"mapping_or_nul", PA+"sequence", "src/yaml/value.rs: Display"])
p("An item added to a collection in brackets is read back",
  "If an entry with a new key is inserted in a mapping in braces, or a value is pushed to a list in brackets, at any depth of a parsed document, and the document is written, then what is written is the text with a comma, a line break and the new item after the last item of the collection, and it is read as the edited document is: with the new value at the end of that collection, and everything else as it was.",
  "every accepted text, every inline collection in it that is not empty, every key and value",
  "All texts and places in them: the new item may be taken as part of the last one or as two, and what comes before the closing bracket as part of the new one.",
  ["src/yaml/mapping/mapping_mut.rs: insert_str", "src/yaml/sequence/sequence_mut.rs: push_string", PA+"inline_mapping", PA+"inline_sequence", "src/yaml/raw.rs: display", "src/yaml/document.rs: write_to"])
p("After any edits inside a collection in brackets, the text of that collection decides if the document is read back",
  "Take a list in brackets or a mapping in braces at any depth of a parsed document, and make any series of edits of it and of what is in it: values are set, items are added and removed, collections are cleared or made. What is written is the old text with the new text of the collection in place of the old one. If that new text, put on its own with a line break after it, is accepted and says what the collection says in the edited document, then the whole of what is written is accepted, and what is read from it is the content of the edited document.",
  "every accepted text, every inline collection in it, every series of edits of any length inside it",
  "All texts, places and series of edits: what is in brackets could be read differently inside a document than on its own, and could change how the rest of the document is read.",
  ["src/yaml/mapping/mapping_mut.rs: remove", "src/yaml/sequence/sequence_mut.rs: remove", "src/yaml/sequence/sequence_mut.rs: clear", PA+"inline_mapping", PA+"inline_sequence", "src/yaml/raw.rs: display", "src/yaml/document.rs: write_to"])
p("What is loaded from saved data is what the data says",
  "Loading a document (feature serde-edits) from any data in which strings are stored under their hashes, wherever the data is from, either fails or gives a document all of which is in that data: every value, id, string, kind, indentation and parent of the loaded document stands at the same place in the data. Nothing is lost either: there is a string or a value for every id listed in the data, and if an id is listed twice, the later one counts. (The data may have more fields than needed; they are ignored.)",
  "every tree of saved data, every loaded document",
  "All data: tests save documents and load them back, so that a default filled in for something missing or malformed, or a mistaken kind of value that is accepted, does not show.",
  ["src/yaml/document.rs: Document (serde attributes)", "src/yaml/data.rs: Data, Entry, StringId, Id (serde attributes)", "src/yaml/raw.rs: Raw, Layout (serde attributes)"])
p("After any edits inside a value outside of brackets, its text and what follows it decide if the document is read back",
  "Take a block collection (or another value outside of brackets) at any depth of a parsed document, and make any series of edits of it and of what is in it: values are set, entries are added and removed, the first ones too, collections are cleared or made. What is written is the old text with the new text of the value in place of the old one. If that new text, with the indentation of its first line before it and a line break after it, is accepted on its own and says what the value says in the edited document, and what follows is not taken as a part of it, then the whole of what is written is accepted, and what is read from it is the content of the edited document.",
  "every accepted text, every block value in it, every series of edits of any length inside it",
  "All texts, places and series of edits: how the lines of a value are read could depend on what is around it, and could change how the rest of the document is read.",
  ["src/yaml/mapping/mapping_mut.rs: remove", "src/yaml/sequence/sequence_mut.rs: remove", "src/yaml/value_mut.rs: make_mapping", PA+"mapping_or_nul", PA+"sequence", "src/yaml/raw.rs: display", "src/yaml/document.rs: write_to"])
p("Any nested value can be stored with the methods for editing, and is read back",
  "Take any value made of null, true, false, numbers, strings, mappings and sequences, nested to any depth, and store it in place of a scalar of a document (or, after set_null, of any value): scalars with set_null, set_bool, the methods for numbers and set_string, collections with make_mapping or make_sequence, then insert for every key or push for every item, and the same for each new value. No call fails. What is then read in this place is the value that was stored, and what is written can be read back: its content is the old content with this value in this place, all other values as they were.",
  "every document with safe text, edited before or not; every value in it; every nested value of any size and depth",
  "All nestings: each level of a new collection is indented by the ones around it, so that an error may show only for a certain combination of mappings and sequences at a certain depth.",
  ["src/yaml/value_mut.rs: make_mapping", "src/yaml/value_mut.rs: make_sequence", "src/yaml/mapping/mapping_mut.rs: insert", "src/yaml/sequence/sequence_mut.rs: push", "src/yaml/raw.rs: make_indent", "src/yaml/raw.rs: display", PA+"mapping_or_nul", PA+"sequence"])
p("What serde is given depends only on what a value reads as",
  "Take two values of two parsed documents (or of the same one) that read the same through the API. Serializing the one makes the same calls as serializing the other, and deserializing the one into any type makes the same calls of its visitors as deserializing the other into that type, and fails or runs forever only if the other does: layout, quotes, comments, block and inline style, and what else is in the documents make no difference.",
  "every pair of accepted texts, every pair of values in them that read the same, every requested type",
  "All pairs of texts and all types: a test compares single layouts, and types that ask for each of the deserializer's methods at each depth.",
  ["src/yaml/serde/ser.rs", "src/yaml/serde/de.rs: deserialize_*", "src/yaml/serde/de.rs: MappingIter", "src/yaml/serde/de.rs: SequenceIter", PA+"number"])
p("A type that fits a value is given all of its data",
  "Take any value of a document, parsed or edited, and a type that fits what it reads as: bool for booleans, integers up to 64 bits for decimal numbers in their range, f32 and f64 for numbers that are written as floating point numbers, String for strings in UTF-8, byte buffers for strings, Option of a type that fits or null, Vec, tuples that are not longer, maps, and structs with fields of types that fit, nested to any depth. In parsed documents, values may also be passed over with IgnoredAny (as derived structs do with keys that are no fields), if all numbers in them fit 64 bits. Deserializing the value as this type does not fail (the type may still refuse what it is given, as a struct that misses a field), and it is given exactly the data that is read through the API: each number, string and boolean as it is, each element and each entry once and in order with its key, and the number of items of each collection. (Null is handed over as none, also to a type that asks for a unit, which () refuses.)",
  "every document, edited or not; every value in it; every type, of any nesting, that fits it",
  "All types and values: tests deserialize a few structs; an error may show only for a combination of requested types, or after an edit that leaves a number with another type.",
  ["src/yaml/serde/de.rs: deserialize_*", "src/yaml/serde/de.rs: MappingIter", "src/yaml/serde/de.rs: SequenceIter"])
with open("/verif/properties.jsonl","w") as f:
    for x in P: f.write(json.dumps(x, ensure_ascii=False)+"\n")
print(len(P))
