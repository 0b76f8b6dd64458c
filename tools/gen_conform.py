#!/usr/bin/env python3
"""Writes lean/Verif/Conform.lean: the tests and documentation examples of /repo, run on the model."""
import re
T = []
def lit(s):
    if isinstance(s, bytes): s = s.decode()
    return '(b! "' + s.replace("\\", "\\\\").replace('"', '\\"').replace("\n", "\\n").replace("\t", "\\t").replace("\r", "\\r") + '")'
def path(p): return "[" + ", ".join(f".key {lit(x)}" if isinstance(x, str) else f".ix {x}" for x in p) + "]"
# commands
def ed(p, op): return f".edit {path(p)} ({op})"
def out(s): return f".shows {lit(s)}"
def rd(p, v): return f".reads {path(p)} ({v})"
def s(p, v): return rd(p, f".string {lit(v)}")
def u32(p, n): return f".int {path(p)} .u32 {n}"
def u64(p, n): return f".int {path(p)} .u64 {n}"
def ln(p, n): return f".len {path(p)} {n}"
def txt(p, t): return f".text {path(p)} {lit(t)}"
def raw(p, t): return f".original {path(p)} {lit(t)}"
def ints(p, l): return f".all {path(p)} [{', '.join('.number ' + lit(str(x)) for x in l)}]"
def strs(p, l): return f".all {path(p)} [{', '.join('.string ' + lit(x) for x in l)}]"
NULL, TRUE, MAP, SEQ = ".null", ".bool true", "M", "S"
def setu(n): return f".setNumber {lit(str(n))} .u32"
def sets(t): return f".setString {lit(t)}"
def ins(k, v): return f".insert {lit(k)} ({v})"
def num(n, h="u32"): return f".number {lit(str(n))} .{h}"
def st(t): return f".str {lit(t)}"
def blk(l, b): return f".block [{', '.join(lit(x) for x in l)}] (.{b})"
def setblk(l, b): return f".setBlock [{', '.join(lit(x) for x in l)}] (.{b})"
def push(v): return f".push ({v})"
def t(cite, text, *cmds): T.append((cite, text, list(cmds)))
def err(cite, text, kind, span):
    i = text.encode().rindex(span.encode())
    T.append((cite, text, (i, i + len(span.encode()), kind)))

t("src/yaml/mod.rs:42-50", "32", u32([], 32))
t("src/yaml/document.rs:14-29", "\n%YAML 1.2\n---\nfirst: 32\nsecond: 64\n", u32(["first"], 32), u32(["second"], 64))
t("src/yaml/document.rs:67-76", "  32", ed([], setu(42)), out("  42"))
FS = "\n    first: 32\n    second: [1, 2, 3]\n    "
t("src/yaml/document.rs:92-113, 153-174", FS, ".dies [.key %s] (.remove %s)" % (lit("second"), lit("second")))
t("src/yaml/document.rs:117-135", FS, txt(["second"], "[1, 2, 3]"))
t("src/yaml/document.rs:178-204", FS, ed(["second"], sets("Hello World")), out("\n    first: 32\n    second: Hello World\n    "))
t("src/yaml/document.rs:218-241, value_mut.rs:617-637", "\n    string\n    ", ed([], ".makeMapping"), ed([], ins("first", num(1))), ed([], ins("second", num(2))), out("\n    first: 1\n    second: 2\n    "))
t("src/yaml/document.rs:243-265, value_mut.rs:639-658, tests/mod.rs:12-38", "\n    first: second\n    ", ed(["first"], ".makeMapping"), ed(["first"], ins("second", num(2))), ed(["first"], ins("third", num(3))), out("\n    first:\n      second: 2\n      third: 3\n    "))
t("src/yaml/value.rs:121-137", "string", s([], "string"))
t("", '"a double-quoted string"', s([], "a double-quoted string"))
t("", "'a single-quoted string'", s([], "a single-quoted string"))
t("", "'It''s a bargain!'", s([], "It's a bargain!"))
t("src/yaml/value.rs:332-354, 410-428", "\n    - It's the same string!\n    - \"It's the same string!\"\n    - 'It''s the same string!'\n    ", strs([], ["It's the same string!"] * 3))
t("src/yaml/value.rs:373-380", "フェリスと言います！", s([], "フェリスと言います！"))
t("src/yaml/value.rs:382-390", '"hello \\x20 world"', s([], "hello \x20 world"), out('"hello \\x20 world"'))
t("src/yaml/value.rs:396-406", "key::value", s([], "key::value"))
t("src/yaml/value.rs:441-451", "true", rd([], TRUE))
NM = '\n    number1: 10\n    number2: 20\n    mapping:\n        inner: 400\n    string3: "I am a quoted string!"\n    '
t("src/yaml/value.rs:464-488, value_mut.rs:68-131, mapping.rs:13-37, 169-193, mapping_mut.rs:215-276", NM, u32(["number1"], 10), u32(["number2"], 20), u32(["mapping", "inner"], 400), s(["string3"], "I am a quoted string!"))
OTT = "\n    - one\n    - two\n    - three\n    "
t("src/yaml/value.rs:501-519, sequence.rs:11-29, 150-377, sequence_mut.rs:143-192", OTT, s([0], "one"), s([1], "two"), s([2], "three"), ln([], 3), strs([], ["one", "two", "three"]))
t("src/yaml/value_mut.rs:142-171, mapping_mut.rs:11-47, 287-362", NM, ed(["number2"], setu(30)), out(NM.replace("20", "30")))
t("src/yaml/value_mut.rs:184-228", NM, ed(["number2"], setu(30)), ed(["string3"], sets("i-am-a-bare-string")), out(NM.replace("20", "30").replace('"I am a quoted string!"', "i-am-a-bare-string")),
  ed(["string3"], sets("It's \n a good day!")), out(NM.replace("20", "30").replace("I am a quoted string!", "It's \\n a good day!")))
TT = '\n    - 10\n    - 20\n    - inner: 400\n    - "I am a quoted string!"\n    '
t("src/yaml/value_mut.rs:241-308, sequence_mut.rs:203-271", TT, ed([1], setu(30)), out(TT.replace("20", "30")))
t("src/yaml/value_mut.rs:371-387", "  string", ed([], ".setNull .keyword"), out("  null"), ed([], ".setNull .tilde"), out("  ~"), ed([], ".setNull .empty"), out("  "))
t("src/yaml/value_mut.rs:412-439", "  string", *[c for a, b in [("i-am-a-string", "i-am-a-string"), ("I am a string", "I am a string"), ("I am a\n string", '"I am a\\n string"'), ('I am a string with "quotes"', 'I am a string with "quotes"'),
  ("null", "'null'"), ("1.65", "'1.65'"), ("rust@1.65", "rust@1.65")] for c in (ed([], sets(a)), out("  " + b))])
t("src/yaml/value_mut.rs:453-465", "  string", ed([], f".setStringWith {lit('i-am-a-string')} .double"), out('  "i-am-a-string"'), ed([], f".setStringWith {lit(chr(73)+'t' + chr(39) + 's a great success!')} .single"), out("  'It''s a great success!'"))
fbb = ["foo", "bar", "baz"]
BL = [("literal .clip", "|", "foo\nbar\nbaz\n"), ("literal .keep", "|+", "foo\nbar\nbaz\n"), ("literal .strip", "|-", "foo\nbar\nbaz"), ("folded .clip", ">", "foo bar baz\n"), ("folded .keep", ">+", "foo bar baz\n"), ("folded .strip", ">-", "foo bar baz")]
STR = "\n    string\n    "
t("src/yaml/value_mut.rs:483-571", STR, *[c for b, h, v in BL for c in (ed([], setblk(fbb, b)), s([], v), out(f"\n    {h}\n      foo\n      bar\n      baz\n    "))])
t("src/yaml/value_mut.rs:585-594", "  string", ed([], ".setBool true"), out("  true"))
t("src/yaml/value_mut.rs:662-689", "\n    - one\n    - two\n    ", ed([], push(".null .auto")), ed([2], ".makeMapping"), ed([2], ins("three", num(3))), ed([2], ins("four", num(4))), out("\n    - one\n    - two\n    - three: 3\n      four: 4\n    "))
t("src/yaml/value_mut.rs:714-734", STR, ed([], ".makeSequence"), ed([], push(num(1))), ed([], push(num(2))), out("\n    - 1\n    - 2\n    "))
t("src/yaml/value_mut.rs:736-755", "\n    first: second\n    ", ed(["first"], ".makeSequence"), ed(["first"], push(num(2))), ed(["first"], push(num(3))), out("\n    first:\n      - 2\n      - 3\n    "))
for h, v in [("f32", "10.42"), ("f64", "10.42"), ("u8", "42"), ("i8", "-42"), ("i128", "-42")]:
    t("src/yaml/mapping_mut.rs:93-132 (%s)" % h, "\n    number1: 10\n    ", ed([], ins("number2", num(v, h))), out(f"\n    number1: 10\n    number2: {v}\n    "))
    t("src/yaml/sequence_mut.rs:50-86 (%s)" % h, "\n    - 10\n    ", ed([], push(num(v, h))), out(f"\n    - 10\n    - {v}\n    "))
t("src/yaml/mapping_mut.rs:381-411", NM, ".removes %s false" % lit("no such key"), ".removes %s true" % lit("mapping"), ".removes %s false" % lit("mapping"), out('\n    number1: 10\n    number2: 20\n    string3: "I am a quoted string!"\n    '))
t("src/yaml/mapping_mut.rs:437-458", NM, ed([], ".clearMapping"), out("\n    \n    "))
t("src/yaml/mapping_mut.rs:476-499", "\n    one: 1\n    two: 2\n    ", ed([], ins("three", ".null (.custom %s)" % lit("   "))), ed(["three"], setu(3)), out("\n    one: 1\n    two: 2\n    three:   3\n    "))
t("src/yaml/mapping_mut.rs:512-533", "\n    number1: 10\n    ", ed([], ins("string2", st("hello"))), out("\n    number1: 10\n    string2: hello\n    "))
t("src/yaml/mapping_mut.rs:551-651", STR, *[c for b, h, v in BL for c in (ed([], ".makeMapping"), ed([], ".clearMapping"), ed([], ins("key", blk(fbb, b))), s(["key"], v), out(f"\n    key: {h}\n      foo\n      bar\n      baz\n    "))])
t("src/yaml/mapping_mut.rs:666-687", "\n    number1: 10\n    ", ed([], ins("bool2", ".bool true")), out("\n    number1: 10\n    bool2: true\n    "))
t("src/yaml/mapping.rs:41-72", "{}", out("{}"))
t("", "{test: 1,}", ln([], 1), out("{test: 1,}"))
I3 = "\n    {one: one, two: two, three: 3,}\n    "
t("src/yaml/mapping.rs:55-72, tests/mapping.rs:58-81", I3, s(["one"], "one"), s(["two"], "two"), u32(["three"], 3), out(I3))
t("src/yaml/mapping.rs:87-106", FS, ints(["second"], [1, 2, 3]))
t("src/yaml/mapping.rs:117-158, 211-297", "\n    one: 1\n    two: 2\n    three: 3\n    ", ln([], 3))
N4 = "\n    - one\n    - two\n    - - three\n      - four: 2\n        five: 1\n    - six\n    "
t("src/yaml/sequence.rs:33-70, tests/mod.rs:65-100", N4, s([0], "one"), s([1], "two"), s([2, 0], "three"), u32([2, 1, "four"], 2), u32([2, 1, "five"], 1), s([3], "six"))
t("src/yaml/sequence.rs:74-105", "[]", out("[]"))
t("", "[,]", ln([], 1), out("[,]"))
t("", "\n    [one, two, 3,]\n    ", s([0], "one"), s([1], "two"), u32([2], 3), out("\n    [one, two, 3,]\n    "))
t("src/yaml/sequence.rs:120-139", "\n    - 32\n    - [1, 2, 3]\n    ", ints([1], [1, 2, 3]))
t("src/yaml/sequence_mut.rs:287-315", TT, ".removesAt 4 false", ".removesAt 2 true", out('\n    - 10\n    - 20\n    - "I am a quoted string!"\n    '))
t("src/yaml/sequence_mut.rs:332-352", TT, ed([], ".clearSequence"), out("\n    \n    "))
t("src/yaml/sequence_mut.rs:369-392", "\n    - one\n    - two\n    ", ed([], push(".null (.custom %s)" % lit("   "))), ed([2], ".setBool true"), out("\n    - one\n    - two\n    -   true\n    "))
t("src/yaml/sequence_mut.rs:402-424, tests/sequence.rs:48-77", "\n    - - 10\n    ", ed([0], push(st("nice string"))), out("\n    - - 10\n      - nice string\n    "))
t("src/yaml/sequence_mut.rs:441-541", STR, *[c for b, h, v in BL for c in (ed([], ".makeSequence"), ed([], ".clearSequence"), ed([], push(blk(fbb, b))), s([0], v), out(f"\n    - {h}\n      foo\n      bar\n      baz\n    "))])
t("src/yaml/sequence_mut.rs:555-577", "\n    - - 10\n    ", ed([0], push(".bool false")), out("\n    - - 10\n      - false\n    "))
t("src/yaml/any.rs:34-44", "null", rd([], NULL))
t("src/yaml/any.rs:102-113", "42", u32([], 42))
t("src/yaml/string.rs:51-66", '"Hello\\n World"', s([], "Hello\n World"), raw([], '"Hello\\n World"'))
t("", '"Hello World"', raw([], '"Hello World"'))
t("", "'Hello World'", raw([], "'Hello World'"))
t("src/yaml/number.rs:62-73", "3.1415", rd([], ".number " + lit("3.1415")))
err("src/yaml/error.rs:55-67", "\n{hello: world}\n42\n", "expectedEof", "42\n")
err("src/yaml/error.rs:73-81", "[Aristotle, # this is a comment", "badSequenceTerminator", " # this is a comment")
err("src/yaml/error.rs:87-95", "{name: Aristotle, age # this is a comment", "badMappingSeparator", " age # this is a comment")
err("src/yaml/error.rs:99-109", "\nname: Aristotle\nage # end", "badMappingSeparator", "age # end")
err("src/yaml/error.rs:115-123", "{name: Aristotle, # this is a comment", "badMappingTerminator", " # this is a comment")
err("src/yaml/error.rs:129-137", '"hello \\o1u world"', "badEscape", "\\o")
err("src/yaml/error.rs:143-151", '"hello \\x1u world"', "badHexEscape", "\\x1u")
err("src/yaml/error.rs:157-165", '"hello \\ud800 world"', "badUnicodeEscape", "\\ud800")
t("src/lib.rs:31-59", "\n    greeting: Hello World!\n    ", s(["greeting"], "Hello World!"), ed([], ins("greeting2", st("Hello Rust!"))), out("\n    greeting: Hello World!\n    greeting2: Hello Rust!\n    "))
t("src/lib.rs:96-135", "\n    - 10\n    - 24\n    - 30\n    ", ed([0], setu(1)), ed([2], setu(3)), out("\n    - 1\n    - 24\n    - 3\n    "))
t("src/lib.rs:146-176", "\n    name: Descartes\n    country: Grece\n    ", s(["name"], "Descartes"), ed(["name"], sets("Plato")), ed(["country"], sets("Greece")), out("\n    name: Plato\n    country: Greece\n    "))
t("tests/insert-strip.rs:4-15", "doc: test", ed([], ins("my_string", blk(["one", "two"], "literal .strip"))), out("doc: test\nmy_string: |-\n  one\n  two"))
t("tests/insert-strip.rs:17-29", "\ndoc: test", ed([], ins("my_string", blk(["one", "two"], "literal .strip"))), out("\ndoc: test\nmy_string: |-\n  one\n  two"))
t("tests/insert-strip.rs:31-92", "\n    doc: test\n    obj:\n      title: Object\n    obj_array:\n      - title: Object in an array",
  ed([], ins("my_string_outer", blk(["one", "two"], "literal .strip"))), ed(["obj"], ins("my_string_inner1", blk(["one", "two"], "literal .strip"))), ed(["obj_array", 0], ins("my_string_inner2", blk(["one", "two"], "literal .strip"))),
  out("\n    doc: test\n    obj:\n      title: Object\n      my_string_inner1: |-\n        one\n        two\n    obj_array:\n      - title: Object in an array\n        my_string_inner2: |-\n          one\n          two\n    my_string_outer: |-\n      one\n      two"))
t("tests/push-mapping.rs:4-37", "\n        - one\n        - two\n        ", ed([], push(".null .auto")), ed([2], ".makeMapping"), ed([2], ins("three", num(3))), ed([2], ins("four", num(4))), ed([2], ins("five", ".null .auto")), ed([2, "five"], ".makeMapping"),
  ed([2, "five"], ins("six", st("six"))), ed([2, "five"], ins("seven", st("seven"))), out("\n        - one\n        - two\n        - three: 3\n          four: 4\n          five:\n            six: six\n            seven: seven\n        "))
t("tests/quoted-map-key.rs:4-13", "'!quoted_keys': |-\n  are compliant", s(["!quoted_keys"], "are compliant"))
for a, b in [("\"a \\n b\"", "a \n b"), ("\"a \\t b\"", "a \t b"), ("\"a \\r b\"", "a \r b"), ("\"a \\\\ b\"", "a \" b"), ("\"a \\x77 b\"", "a \x77 b"), ("\"a \\u79c1 b\"", "a 私 b"), ("'It is a party!'", "It is a party!"), ("'It''s a party!'", "It's a party!")]:
    t("src/yaml/tests/escape.rs:12-35", a, s([], b))
for e, n in [("0", 0), ("a", 7), ("b", 8), ("v", 11), ("f", 12), ("e", 27)]:
    t("src/yaml/tests/escape.rs:12-35", f'"a \\{e} b"', rd([], f".string [97, 32, {n}, 32, 98]"))
M1 = "\n        one: 1\n        two: 2\n        three:\n          four: 4\n          five: 5\n        "
t("src/yaml/tests/mapping.rs:5-30", M1, out(M1))
t("src/yaml/tests/mapping.rs:32-56", M1.replace("four: 4", "four: {inner: 10, inner2: 20}"), out(M1.replace("four: 4", "four: {inner: 10, inner2: 20}")))
t("src/yaml/tests/mapping.rs:83-105", "\n        string\n        ", ed([], ".makeMapping"), ed([], ins("first", num(1))), ed([], ins("second", num(2))), out("\n        first: 1\n        second: 2\n        "))
t("src/yaml/tests/mapping.rs:107-132", "a:\nb:\nc:", ln([], 3), ed(["a"], ".makeMapping"), out("a:\nb:\nc:"), ed(["a"], ins("inner", ".null .auto")), ed(["a", "inner"], ".makeSequence"), ed(["a", "inner"], push(st("value"))), out("a:\n  inner:\n    - value\nb:\nc:"))
t("src/yaml/tests/mod.rs:40-63", '\n        mapping:\n            inner: so this is as a matter of @ course, a large document\n        string3: "I am a quoted string!"\n        ', s(["mapping", "inner"], "so this is as a matter of @ course, a large document"))
def ml(h, tail=""): return f"\n        first: {h}\n          bar\n          baz\n{tail}        second: 2\n        "
t("src/yaml/tests/multiline.rs:5-39", ml("|\n          foo\n"), s(["first"], "foo\n\nbar\nbaz\n"), u32(["second"], 2), out(ml("|\n          foo\n")))
t("src/yaml/tests/multiline.rs:41-75", ml("| foo\n"), s(["first"], "foo\nbar\nbaz\n"), u32(["second"], 2), out(ml("| foo\n")))
t("src/yaml/tests/multiline.rs:77-99", ml("|-\n          foo\n"), s(["first"], "foo\n\nbar\nbaz"), u32(["second"], 2))
t("src/yaml/tests/multiline.rs:101-123", ml("|+\n          foo\n", "\n"), s(["first"], "foo\n\nbar\nbaz\n\n"), u32(["second"], 2))
t("src/yaml/tests/multiline.rs:125-172", ml("> foo\n"), s(["first"], "foo bar baz\n"), u32(["second"], 2), out(ml("> foo\n")), ed(["first"], sets("removed")), out("\n        first: removed\n        second: 2\n        "))
t("src/yaml/tests/multiline.rs:174-200", ml(">\n          foo\n"), s(["first"], "foo bar baz\n"), out(ml(">\n          foo\n")))
Q1 = "\n        - 1\n        - 2\n        - - 4\n          - 5\n        "
t("src/yaml/tests/sequence.rs:5-26", Q1, out(Q1))
t("src/yaml/tests/sequence.rs:28-46", Q1.replace("4", "[one, two, three]"), out(Q1.replace("4", "[one, two, three]")))
# tests/yaml-compare.rs: values as libyaml reads them, and the text again
Y = "/repo/tests/yaml/"
def y(f, *c):
    x = open(Y + f).read(); t("tests/yaml-compare.rs, tests/yaml/" + f, x, *c, out(x), f".writes {lit(x)}")
y("bug1.yaml", s(["version"], "1.6.3"), s(["name"], "app"))
y("bug1_sequence.yaml", s([0], "1.6.3"), s([1], "app"))
y("bug1_suffix.yaml", s(["version"], "1.4.5"), s(["memory"], "600m"))
y("case-preserving.yaml", *[rd([k], TRUE) for k in ["true_value", "upper_true_value", "mixed_true_value", "false_value", "upper_false_value", "mixed_false_value"]], *[rd([k], NULL) for k in ["null_value", "upper_null_value", "mixed_null_value"]])
y("null.yaml", *[rd([k], NULL) for k in ["empty_value", "null_value", "tilde_null_value"]], s(["tilde_quoted_value"], "~"), s(["tilde_quoted_path_value"], "~/some/path"), s(["tilde_string_path_value"], "~/some/path"))
y("numerical.yaml", u64(["n0"], 0), rd(["n1"], ".number " + lit("0e10")), s(["n2"], ".e10"), rd(["n3"], ".number " + lit(".0e10")), rd(["n4"], ".number " + lit("1.0e10")))
y("value-with-e.yaml", strs(["value"], ["eb"]))

o = open("/verif/lean/Verif/Conform.lean", "w")
o.write('''import Verif.History
/-
Tests of the model, not proofs of properties: the tests and documentation examples of the crate (which it passes), run on the model.
Generated by tools/gen_conform.py.
-/
namespace Verif.Conform

/-- A step of a path: the value at a key or an index. -/
inductive Step
  | key (k : Bytes) | ix (n : Nat)

/-- `as_mapping`, `get` and `as_sequence`, `get`. -/
def find (d : Data) (x : Nat) : List Step → Option Nat
  | [] => some x
  | .key k :: r =>
    match asMapping d x with
    | .ok (some m) => match mapGet d m k with | .ok (some v) => find d v r | _ => none
    | _ => none
  | .ix n :: r =>
    match asSequence d x with
    | .ok (some m) => match seqGet d m n with | .ok (some v) => find d v r | _ => none
    | _ => none

/-- What the tests do: edit; look at a value, an integer, the number of entries, the text of a value, the source text of a string, all items of a sequence; check
the results of `remove`; compare the document's text. -/
inductive Cmd
  | edit (p : List Step) (op : Op)
  | reads (p : List Step) (v : AnyV)
  | int (p : List Step) (ty : IntTy) (n : Int)
  | len (p : List Step) (n : Nat)
  | text (p : List Step) (s : Bytes)
  | original (p : List Step) (s : Bytes)
  | all (p : List Step) (l : List AnyV)
  | removes (k : Bytes) (b : Bool)
  | removesAt (n : Nat) (b : Bool)
  | dies (p : List Step) (op : Op)
  | shows (s : Bytes)
  | writes (s : Bytes)

def check (doc : Document) : List Cmd → Bool
  | [] => true
  | .edit p op :: r =>
    match find doc.data doc.root p with
    | some x => match doc.edit x op with | .ok doc => check doc r | .error _ => false
    | none => false
  | .reads p v :: r => (match find doc.data doc.root p with | some x => asAny doc.data x == .ok v | none => false) && check doc r
  | .int p t n :: r => (match find doc.data doc.root p with | some x => asInt t doc.data x == .ok (some n) | none => false) && check doc r
  | .len p n :: r =>
    (match find doc.data doc.root p with
    | some x => (asMapping doc.data x == .ok (some x) && mapLen doc.data x == .ok n) || (asSequence doc.data x == .ok (some x) && seqLen' doc.data x == .ok n)
    | none => false) && check doc r
  | .text p s :: r =>
    (match find doc.data doc.root p with
    | some x => valueDisplay doc.data x == .ok s
    | none => false) && check doc r
  | .original p s :: r =>
    (match find doc.data doc.root p with
    | some x => (match doc.data.raw x with | .ok (.string v) => v.original == s | _ => false)
    | none => false) && check doc r
  | .all p l :: r =>
    (match find doc.data doc.root p with
    | some x => (match seqValues doc.data x with | .ok vs => vs.map (asAny doc.data) == l.map .ok | .error _ => false)
    | none => false) && check doc r
  | .removes k b :: r =>
    match mapRemove doc.data doc.root k with
    | .ok (b', d) => b == b' && check { doc with data := d } r
    | .error _ => false
  | .removesAt n b :: r =>
    match seqRemove doc.data doc.root n with
    | .ok (b', d) => b == b' && check { doc with data := d } r
    | .error _ => false
  | .dies p op :: r =>
    match find doc.data doc.root p with
    | some x => (match doc.edit doc.root op with | .ok doc => asMapping doc.data x == .error .panic && check doc r | .error _ => false)
    | none => false
  | .shows s :: r => doc.display == .ok s && check doc r
  | .writes s :: r => doc.write == .ok s && check doc r

/-- The text is accepted and the commands succeed. -/
def passes (inp : Bytes) (cmds : List Cmd) : Bool :=
  match fromSlice inp with
  | .ok doc => check doc cmds
  | .error _ => false

''')
last = ""
for cite, text, cmds in T:
    if cite: last = cite
    o.write(f"/-- {last} -/\n")
    if isinstance(cmds, tuple):
        o.write(f"example : fromSlice {lit(text)} = .error (.err {cmds[0]} {cmds[1]} .{cmds[2]}) := by decide +kernel\n")
    else:
        o.write(f"example : passes {lit(text)}\n    [{', '.join(cmds)}] = true := by decide +kernel\n")
o.write("\nend Verif.Conform\n")
print(len(T))
