# Formal model of `nondestructive` (YAML) in Lean 4

Source: `/repo` at the pinned commit, `src/yaml/**`.  Properties: `properties.jsonl`
(ids C01...).  Status of every property: `MANIFEST.json`.

## 1. Trusted base

* Lean 4.33.0's kernel.
* Axioms: only `propext`, `Quot.sound`, `Classical.choice` (a theorem may use fewer).
  No axiom of our own, no `sorry`, no `native_decide`, no `bv_decide`.
* The correspondence between the model and the Rust source, which is by reading: each
  definition of the model cites the lines it models and says where it simplifies.
* The behaviour of third-party crates as described in section 3 (`slab`, `memchr`, `bstr`,
  `itoa`, `lexical-core`, `twox-hash`), whose sources are not available here.

## 2. Layers

The model of the code (every definition cites the lines it models):

1. **Leaf scanners** (`Scan.lean`, with `Types.lean`, `Bytes.lean`, `Utf8.lean`, `Num.lean`): pure functions on the remaining
   input bytes: whitespace and comments, numbers, quoted strings with escapes, block scalars, keys.  Loops that advance by
   at least one byte per turn and stop at the end of input are structural recursions on the remaining bytes.  The loops of
   single-quoted strings do not stop at the end of input in the Rust code; they are modelled with fuel, so "hangs" is
   "runs out of every fuel".
2. **Arena** (`Slab.lean`, `Data.lean`): the slab with its free list, entries with layout and raw value, and every panicking
   lookup as `Stop.panic`.
3. **Parser on the arena** (`Parse.lean`): function by function as in `parsing.rs`; recursion and collection loops take fuel.
   Results: `ok`, `err` (span, kind), `panic`, `fuel`.
4. **Writers** (`Write.lean`, `Show.lean`): `write_to` and `Display`, with bstr's lossy decoding.
   `Sink.lean`: `write_to` into a writer that may fail.  `Message.lean`: `Display` of errors.
5. **Edits and reads** (`Edit.lean`, `Access.lean`): `ValueMut`, `MappingMut`, `SequenceMut`, `Value`, `Mapping`, `Sequence`,
   iterators.  Histories of edits: `History.lean`.
6. **serde** (`Serde.lean`), the **string table** (`Intern.lean`) and **snapshots** (`Snapshot.lean`).

Specifications, written independently of the model:

* `Tree.lean` (abstract documents), `Spec.lean`, `Quotes.lean`, `Boundary.lean`, `SerdeSpec.lean`, `Wanted.lean`, `Typed.lean`,
  `Floats.lean` (the texts of floating point numbers).
* `Grammar.lean`: documents as abstract trees with a layout (`Page`), their text (`Page.text`), when a layout is allowed
  (`Page.ok`) and what the document says (`Content`, `Reads`).
* `Safe.lean`: the edits that C49 is about.
* `Place.lean`: where values are in the text they were read from (`Sits`).  `Fault.lean`: what is wrong with a text that is refused (`Broken`) or never read to its end (`Stuck`).  `Echo.lean`: what is written for a text that was read (`Echoes`).  `Lined.lean`: texts laid out in lines (`Lined`), for C61.

Proof devices: `Rep`, `Refine`, `PParse` (a tree-level parser and the theorem that the arena parser computes exactly the
flattening of its result), `Rules` (the tree-level parser as inductive rules, with induction over them), `Eval` (the converse:
rules compute), `Forward*` and `GrammarLemmas`/`GrammarDocs` (the parser on texts of the grammar), `Good`, `GoodEdit`,
`SafeLemmas` (edits of such documents), `Sound`, `Keep`, `Shows`, `Bounds`, `Fuel`, `Finish`, `Leaves`, `Keys`, `LeadLemmas`,
`SerdeLemmas`, `WantedLemmas`, `AlikeLemmas`, `TypedLemmas`, `PlaceScan`, `PlaceBlock`, `PlaceLead`, `PlaceRules` (the scanners and the parser, backwards), `FaultRules` (the same for errors),
`ExactScan`, `ExactLead`, `ExactRules`, `ExactFault`, `ExactDocs`, `ExactStuck` (forwards, for all texts), `EchoLead`, `EchoRules`, `EchoRun`, `EchoDocs` (both, with the text of the tree), `Again*` (the parser on what was written), `LeavesAt`, and `*Lemmas`.

Property theorems: `Props/*.lean`, each with an `example` showing that the hypotheses are met by a concrete non-trivial
document.

Checks of the model itself: `Conform.lean` (generated by `tools/gen_conform.py`) runs the tests and documentation examples of the
crate on the model, checked by the kernel.  These are tests, not proofs; they support the correspondence with the source, which
cannot be run here.  `tools/mutate.py` seeds bugs into a scratch copy (`seeded/mutations.py`) and reports which
theorems no longer hold; the outcome is in `seeded/LOG.jsonl`.

## 3. Modelling decisions and what is not modelled

* A `StringId` is modelled by the bytes it stands for.  The interning table itself is
  modelled separately (`Verif/Intern.lean`) with the hash as a parameter; C37 justifies this: without a collision of the
  hash a lookup returns the inserted bytes, and with one it is stated what is returned instead.
* `Id` is the slab index.  Running out of `usize` ids, memory or stack is not modelled, and
  `usize` arithmetic is on natural numbers (inputs are shorter than 2^64 bytes).  In particular C04 does not cover a stack
  overflow of the recursive parser (or writer) on deeply nested input.
* `slab`: `insert` takes the head of the free list or pushes; `try_remove` pushes on the
  free list; `get` of a vacant or out-of-range key is `None`; `remove` panics then.
* `bstr`: `chars()`, `char_indices` and `Display` decode UTF-8 and replace each maximal invalid
  subpart by U+FFFD; `trim` strips Unicode whitespace.
* `itoa` writes the usual decimal text.  `lexical_core::parse` for integers accepts an optional
  sign (`-` only for signed types) and decimal digits, and checks the range.
* Floats: a floating point number is its shortest decimal, digits and an exponent (`FloatV` in `Float.lean`); that `ryu` finds the shortest one is not modelled.  How
  `ryu` lays it out (`ryu::pretty::format32` and `format64`: which numbers have an exponent, `NaN`, `inf`) is modelled, without the source of the crate at hand.  Of parsing
  (`lexical_core`) only which texts are accepted is modelled (`floatText` in `Serde.lean`; C50_floats: just those of `IsFloat`), the value is the text itself.
* `&str` arguments are arbitrary byte strings in the model unless a theorem needs them to
  be UTF-8.
* `write_to` is modelled twice: as the bytes that are written (`Write.lean`), and with a writer that may fail (`Sink.lean`), which is any function that says
  how much of the next bytes is taken.  Failures of `fmt::Write`, formatting options of `Display` (width, fill), `Debug` output and `Clone` are not modelled.
* `serde`: serialization is modelled as the tree of serializer calls; deserialization's
  mutual recursion of `deserialize_any` and the typed methods is modelled with fuel.
* `serde-edits` (`Snapshot.lean`): what `derive(Serialize, Deserialize)` makes of the types and attributes in /repo, and `slab`'s `Serialize` and `Deserialize` (with its
  `Builder`, which makes a new free list), are written down from their documentation and source.  The format in between is not modelled: it gives back the tree it was given, up
  to the order of the entries of the string table and of the slab.  So nothing is said about formats that cannot have such maps (JSON has no keys that are arrays) or that cannot
  read internally tagged enums (`bincode`).

## 4. Properties: what is modelled and how each is proved

"R" = the property as stated is false of the code; the refutation is a theorem about a
concrete input, and the strongest true part found is proved with suffix `_partial`.

| id | plan |
|----|------|
| C01 | R: headers, missing commas, whitespace in `{ }`, comma after a block scalar in `[ ]`, NUL in a key, empty block at EOF, lossy prefix.  Partial: induction over the rules with the contract `prefix ++ consumed = rendered ++ returned whitespace`; exactly for documents without inline collections, up to the listed deviations with them. |
| C02 | Every stored piece of an accepted UTF-8 input is UTF-8, lossy decoding is the identity on it, and parsed empty nodes have empty prefixes. |
| C03 | R (empty null or empty block collection with non-empty prefix is written with prefix by `write_to` only).  `C03_exact`: they agree if and only if there is no such value; otherwise the display is the written text with parts left out. |
| C04 | The arena parser equals the flattened tree-level parser, whose results have no panic outcome. |
| C05 | R (unterminated single quote).  Exactly: all texts but those in which a value starts with one (`Hangs`).  Partial: terminates if every single quote that may start a string is closed; explicit fuel bound. |
| C06 | Span contract through every parser function. |
| C07 | From `parse`'s final check and `is_eof`. |
| C08 | Flattening of a tree represents that tree (ids are the preorder positions). |
| C09 | Invariant: arena represents a tree with distinct ids, all occupied slots are in it, free list is sound; preserved by every operation, by induction over histories. |
| C10 | Rendering lemma: replacing a subtree changes only its segment. |
| C11 | Reads after `replace`. |
| C12, C13 | Decimal text lemmas, for any width; C13 anywhere in a document by C49. |
| C14-C16 | Refinement of insert/get/remove to association lists. |
| C17, C18, C20, C43 | Rendering lemmas for items. |
| C19 | Refinement of sequence operations to lists. |
| C21 | Frame lemma: entries outside the edited subtree are unchanged. |
| C22, C23, C24 | Slab invariant and drop lemmas. |
| C25 | Induction on the string; the parser's two loops against the writer; anywhere in a document by C49. |
| C26 | R (`"` is written as `\"`, which is rejected; `\` is not escaped, and `\\` decodes to `"`).  Partial: strings without `"` and `\`; exact at the root: no other string is read back. |
| C27 | R (`~`, `-1`, `.5`, `- a`, `[a`, leading space, ...).  Partial: strings the chosen quotes do for.  `C27_exact`, from C57 and C26: just which strings are read back at the root. |
| C28 | Specification as a predicate on the characters. |
| C29 | Iterator state = list segment; induction over interleavings. |
| C30 | R.  Partial: what `nth_back` does return. |
| C31 | Case analysis on the represented tree. |
| C32 | Classification theorem on one-line inputs. |
| C33 | R for clip (clip behaves as keep) and for strip at the left margin.  Partial: indented blocks, and exactly which line breaks are kept, for block scalars anywhere (`Props/BlockAny.lean`). |
| C34 | Direct from `new_block`. |
| C35, C36 | Case analysis of `make_indent`. |
| C37 | Store invariant over histories, with a no-collision hypothesis; exact result with collisions. |
| C38 | R for keys after the first.  Partial: first key. |
| C39 | R for numbers out of range.  Partial: documents whose numbers fit their hint. |
| C40 | R (mutual recursion when the number does not parse).  Partial: otherwise terminates; exact for parsed documents.  `Wanted.lean` says what types are, as far as they matter here: which method they call, and which they call for what is in the value; `C40_types_partial` is about these, `C40_end_partial` about single calls. |
| C41 | R for `set_block` over a collection (its indentation is computed from what is replaced).  Partial: everything else. |
| C42 | Rendering equality. |
| C44 | R (sequence item prefixes).  Partial: bytes outside of comments. |
| C45 | R.  Partial: exactly what follows the header is written. |
| C46 | R (escape followed by a multi-byte character).  Partial: every other error.  Exactly: C56, and the first byte of a character after ASCII. |
| C47, C48 | The parser's rules on the texts of the grammar (completeness), then `Eval`; reading and rendering by induction on the abstract document. |
| C49 | Invariant `GoodDoc` (a layout of the grammar, possibly with values written as nothing), kept by the edits; then C47.  `Mode` says which block scalars the document has. |
| C50 | Induction on the tree of calls. |
| C51 | R (nested collection; line that starts with `#`).  Partial: C49 with block scalars, where the lines end up to the right of the collection. |
| C52 | R (`\\` decodes to `"`; `\"`, `\/`, `\_`, `\U` are refused).  Partial: the nine letters, `\x` and `\u`, anywhere in a document; everything else is refused with its span. |
| C53 | R (indentation of further lines, white space at the end of lines, blank lines in folded scalars).  Partial: exactly that is lost, also for block scalars anywhere (`Props/BlockAny.lean`). |
| C54 | Rule induction with the scanners read backwards (soundness of the parser; C47 is its completeness on the grammar).  Block scalars are described exactly (`BlockAt`). |
| C55 | R (a block scalar without lines takes all that follows).  Partial: block scalars with lines further to the right than the key. |
| C56 | Induction on the fuel with the same lemmas; what comes before the fault is described as in C54. |
| C57 | C54, C56 and their converses: the scanners read forwards on what `Sits`, `Broken` and `Stuck` describe, then induction on these predicates (with fuel that is enough); for the texts that hang also induction on the fuel as for C56. |
| C58 | As C57, for the text of the tree: rule induction in one direction, induction on `Writes` in the other. |
| C59 | Induction on the fuel: each function sends the bytes of its counterpart in `Write.lean`, or fails. |
| C60 | The texts of the kinds differ and have no bracket; decimal texts are read back. |
| C61 | R (`{a: \|-⏎ c⏎}` is written with the `}` on the line of `c`, and is refused then; `------`; `--- - a⏎    - b`; ...).  Partial: inline collections without block scalars, and documents laid out in lines (`Lined`); rule induction shows that `Sits` describes what is written.  For block collections the induction goes along with what follows a value: the same text, or a gap with a line break (`Next`). |
| C62 | The slab that is built has the same entries and a sound free list, hence the same tree; edits commute with a renaming of ids (`Rename.lean`), as new ids may differ. |
| C63 | Display of a tree has the display of its subtrees in it; the places of scalars by induction over the rules (`LeavesAt.lean`). |
| C64 | The tree with the last item taken away again is the tree before; edits below the item change no more than its value. |
| C65 | Subtrees at such positions are disjoint, what `make_indent` looks at is outside of the other one, and the ids of new values are exchanged by a renaming (`Apart.lean`). |
| C66 | The parser run from a later position of a text in which a line starts there does the same with all positions moved (`Shift.lean`); the white space at the start is read in one piece (`ShiftDoc.lean`). |
| C67 | By induction on the specification of accepted texts (`Place.lean`): every value is where it was, and only the end of the text moves (`After.lean`). |
| C68 | `Clear.lean` is the specification of accepted texts (`Place.lean`) with the condition that nothing of a scalar or a key is in the exchanged part. By induction on it every value is where it was, or moved by the difference (`Swap.lean`, `SwapRules.lean`, `SwapText.lean`). |
| C69 | By induction on the specification of accepted texts (`Place.lean`): every value takes up bytes of its own, a missing one those of its key or of the comma (`AmountLemmas.lean`). |
| C70 | False; `n` pairs of brackets are accepted for every `n`. |
| C71 | False; what holds instead by laying out the lines (`LineEnd.lean`), what remains from C68. |
| C72 | False; the same. |
| C73 | The specification of accepted texts does not look back past the start of a line (`Shove.lean`), nor ahead further than the next item (`Join.lean`); the line put after a piece shows that its last value ends there (`JoinText.lean`). |
| C74 | False; what happens instead from C73 and `Shove.lean`. |
| C75 | False; the same. |
| C76 | R (as C03); the check is modelled in `Check.lean`, and C02 and C03_exact say when it fails. |
| C77 | P; the tree together with the text it was read from is in `Lies.lean`, used in the proof only. |
| C78 | P; the value of a floating point number is not modelled, its text is. |
| C79 | P; how a scalar is put in the place of a value is in `Put.lean` (a copy of the specification `Sits` with one hole), used in the proof only; `FitsIn` is the condition. |
| C80 | P; `Replaced` in `Utf8Spec.lean` uses Lean's `String.utf8EncodeChar` only, and `Replaced.lossy`, `valid_iff` tie the model's decoder (`lossy`, `validUtf8`, `Utf8.lean`) to it.  `Shown.lean`: no piece the text is displayed in ends inside a character. |
| C81 | F; `a: 1e-7` is written for 0.0000001 and read back as a string, since the parser knows no sign after the `e`; `C81_number_iff` has just which numbers are not.  `Denotes` in `Props/Floats.lean` is what a text stands for (`Denotes.unique`: one number only); set, inserted and pushed numbers are read back from the same document always. |
| C82 | F; `Deserialize` checks nothing: a root without an entry, or a value where an item should be, panics later, and a sequence in itself is never written to the end (`C82_false`).  `Sane` (`Sane.lean`) says that the entries fit together, entry by entry; `Sane.holds` builds the tree from it (the number of steps from the root is bounded by the number of entries), `Holds.sane` is the converse.  Ids of strings that are not in the table are refused in the model, while the code panics when it uses them. |
| C83 | F; after the first entry a key is all up to the next colon, with the line breaks (`a: 1`, `b`, `c: 2` has the key `b\nc`, `C83_line_false`).  `C83_joined`: lines without a colon (`keyless`) between a text that stands on its own (`StandsOver`, as in C73 with a probe that goes over two lines) and a mapping become part of its first key.  Partial: all lines of the first column have colons. |
| C84 | F; the same with `---`: part of the next key of a mapping, or the string `--` in a sequence (`C84_documents_false`, `C84_mappings`, `C84_sequences`).  Partial: after a scalar or an inline collection the marker is refused (`expectedEof`, with the place), and after any document after which an item in the first column is (`C84_other_partial`, `C84_tested_partial`). |
| C85 | F; `a: [1] # c` with `b` inserted is written as `a: [1]` and `b: true # c` (`C85_comment_false`, `C85_push_false`); the line breaks after a block scalar move behind the new entry (`C85_breaks_false`).  Partial: any number of insertions or pushes at the top of a document if the text before them stands on its own (`StandsMap`, `StandsSeq` of C73) and the new lines do, and then what is written is read as the edited document (`Stable`); for booleans, numbers and strings `Val.kept` says which do. |
| C86 | F; no entry is left (`C86_empty_false`), the comment after the removed value (`C86_comment_false`), an entry without a value is left at the end (`C86_null_false`).  Partial: any removals and insertions of new keys (or pushes) in any order at the top of a document; `MapRows`/`SeqRows` are the entries with their texts, `MapOp.all`/`SeqOp.all` say what should become of them, `FitsMap`/`FitsSeq` that the lines that are left stand on their own. |
| C87 | F; a mapping in the column of its sequence (`C87_column_false`), a missing value before the pushed one (`C87_missing_false`).  Partial: one new entry or item in any block collection of a text that is written as it was read; `EndsWith`/`Closes` say with what the collection may end (a block scalar too, if it keeps no line breaks: `Strips`, `Verif/BlockTail.lean`), `KeysEnd` that no key is looked for across the new line.  The places of all that is before and after the new line are kept (`Verif/PutInner.lean`, `Verif/Nest.lean`). |
| C88 | F; a missing value before the removed entry (`C88_missing_false`).  Partial: an entry that is not the first one taken out of any block collection of a text that is written as it was read; the value before it is closed by what follows (`Closes`), which is always so for a value on one line (`Simple`).  The rows after the removed one are moved (`Verif/Cut.lean`).  The first item too (`C88_first_partial`, `C88_firstAt_partial`, `Verif/Front.lean`), if the one after it is read in the same way when it is the first; false otherwise (`C88_first_false`, `C88_firstAt_false`): a later key keeps its quotes and a later dash needs no white space after it.  Inline collections too: `C88_inline_partial`, `C88_inlineAt_partial` (`Verif/FlowCut.lean`); false when white space before the bracket would be read as part of a bare string (`C88_inline_space_false`) and when the only entry has a comma after it (`C88_inline_comma_false`). |
| C89 | F; two removals, each of which is read back, leave nothing (`C89_both_false`).  Partial: a series of edits (`Series`), each of which fits (`Suits`, the conditions of C79, C87 and C88) in the text that would be written before it.  The state that is kept by each edit is in `LaidDocs.lean` (`Laid`: the tree of the document lies in the text that is written for it, byte by byte), and C79, C87 and C88 follow from the steps there.  After the removal of the first item of a block collection the tree of the document does not lie in the text byte by byte any more (its new first item has white space before it), so such a removal can only be the last edit (`C89_first_partial`, `C89_firstAt_partial`).  The same goes for the first entry or item of an empty inline collection (`C89_fill_partial`, `C89_fillAt_partial`). |
| C90 | P; what C89 asks of each step is shown to hold for a class of texts (`Lines`, `Nested`) that is closed under a class of edits (`PlainEdit`), so that the only conditions are on the text at the start and on each edit by itself. |
| C91 | F; refuted for scalars in brackets and for missing values. For the rest: how a value lies in a text (`Lies`) is moved to another text with the same columns and another end.  A scalar that is not a block scalar is read in the same way on its own wherever it is (`Token.lone`, `C91_scalar_partial`).  Block scalars: the lines are moved to another line of the header and another end (`AloneLines.lean`). |
| C92 | F; a string with a comma (`C92_comma_false`), white space before the closing bracket (`C92_space_false`).  Partial: one new entry or item in any inline collection of a text that is written as it was read.  The text of the new item is put in the text of the collection (`Flow.lean`), and this in its place in the document as in C79 (`FlowDocs.lean`).  Also a case of `Suits` (C89).  Empty inline collections: the new item goes right after the bracket (`FlowNew.lean`, `Props/FlowNew.lean`). |
| C93 | Partial: any series of edits inside an inline collection of a text that is written as it was read.  The tree of the new text on its own is carried to its place (`Lies.carry`, `Inside.lean`); it has the same content as the tree of the edited document, but need not be the same tree.  That something has to be asked of the new text: `C93_remove_false`. |
| C94 | Proved: one lemma for each function that loads something (`Loaded.lean`), that what it was given covers what is saved of its result (`Covers`); the slab keeps the last entry of each id (`Slab.ofPairs_last`). |
| C95 | Partial: as C93, for values outside of brackets: `Lies.rejoin` (`InsideBlock.lean`) carries the tree of the new text on its own to its place, which has the same column, and what is after it is moved.  That it has to be asked what follows: `C95_follow_false`. |
| C96 | Partial: induction on the value that is stored (`build_holds`, `Build.lean`); each step is a safe edit of C49, and `Tree.put_content` says where the value is in the content.  Why sequences (other than one in the first column, `canBuildTop`) have to begin with a scalar and collections must not be empty: `C96_first_false`. |
| C97 | P: two trees with the same content, step by step (`AlikeLemmas.lean`); the parser's hint of a number is a function of its text (`NumLike.hint`).  False for edited documents (`C97_edited_false`). |
| C98 | P: induction on the type, for any tree that is stored (`TypedLemmas.lean`, `Fed.all`); what types are given is specified on contents (`Gets` in `Typed.lean`).  Found: a struct with an unknown field that holds a number beyond 64 bits is never had (`C98_ignored_false`, the recursion of C40 through `IgnoredAny`); `()` and unit structs (`visit_none` in place of `visit_unit`, `C98_unit_none`), newtype structs of scalars (de.rs:283-292) and enums are refused by serde's visitors, as the deserializer never calls `visit_unit`, `visit_newtype_struct` or `visit_enum`. |

`MANIFEST.json` holds the exact theorem names.

## 5. Other behaviour of the code found on the way

* The scanner of an unterminated single-quoted string loops forever (C05).
* A NUL byte in a double-quoted string acts as its end.
* `a:` at the end of input reads as the empty string, not as null; `- a:⏎- b` parses as `[{a: [b]}]`; `-⏎- a` nests.
* Folded blocks join any number of line breaks by one space; comment lines after a block count as line breaks; a block whose
  later lines are less indented than the first is rejected (`e: |⏎   foo⏎  bar`).
* Keys other than the first of a block mapping keep their quotes (C38) and end at the first colon (`a:b: c` is `a` with `b: c`).
* Removing the only element before a trailing comma (`[a,]`) leaves `[,]`.
* After the first entry of a root mapping is removed, a next key that starts with `%` is read as a directive.
* `make_mapping` in the first item of an indented block sequence uses indentation 2, whatever the column of the item.
* `set_block` puts the lines two columns to the right of the white space before the replaced scalar (the text between `:` or `-` and the value),
  not of the collection it is in: `a:⏎    b: x⏎    c: y` with a block set at `b` swallows `c` (C51).  In an inline collection the result is
  rejected.  `insert_block` and `push_block` use the collection's column.
* A line of a block that starts with `#` is skipped as a comment (C51).
* The column of a block scalar is that of the next line, even if that is not to the right of the key: `a: |⏎b: c` is the one entry `a`
  with the text `b: c` (C55).
* Text on the line of the indicator is accepted and is the first line (`a: | foo`); at the end of the text a comment there is read as text.
* A block scalar at the left margin that ends with the text has its final line breaks doubled; a folded one without a final line break
  gets a space at its end.
* In an inline sequence a comma is recognised only directly after a quoted item, a number or a collection: `['a' , b]` and `[1 , 2]` are refused.
* After a block scalar and a comma in an inline sequence the white space is not skipped before the bracket is looked for: `[|⏎ a⏎, ]` has an
  empty second item.  If the text ends there, the error span is one byte too far to the right (C56).
* Keys of a block mapping other than the first may have line breaks in them: `a: 1⏎b⏎c: 2` has the key `b⏎c`.  Dashes other than the first of
  a block sequence need no white space after them.
* If the second of two items without a comma between them in an inline mapping is not followed by the bracket, the error span starts before the second item.
* Stale ids may alias other values after their slot was reused (C24 is about the time before).
* A number beyond 64 bits anywhere in a value that serde is to pass over (an unknown field of a derived struct) is never got past (C98, C40).
* Null is handed to serde as `none` only, newtype structs and enums are asked for as any value: `()`, unit structs, newtype structs of scalars and derived enums
  are refused by serde's visitors (C98).
* Keys are handed to serde as bytes only, whatever is asked for: maps with integers, booleans or characters as keys are refused by serde's visitors.
