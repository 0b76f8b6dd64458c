import Verif.History
/-
Tests of the model, not proofs of properties: the tests and documentation examples of the crate (which it passes), run on the model.
Generated by tools/gen_conform.py.
-/
namespace Verif.Conform

/-- A step of a path: the value at a key or an index. -/
inductive Step
  | key (k : Bytes) | ix (n : Nat)

/-- `as_mapping`, `get` and `as_sequence`, `get`. -/
def find (d : Data) (x : Nat) : List Step → Option Nat
  | [] => some x
  | .key k :: r =>
    match asMapping d x with
    | .ok (some m) => match mapGet d m k with | .ok (some v) => find d v r | _ => none
    | _ => none
  | .ix n :: r =>
    match asSequence d x with
    | .ok (some m) => match seqGet d m n with | .ok (some v) => find d v r | _ => none
    | _ => none

/-- What the tests do: edit; look at a value, an integer, the number of entries, the text of a value, the source text of a string, all items of a sequence; check
the results of `remove`; compare the document's text. -/
inductive Cmd
  | edit (p : List Step) (op : Op)
  | reads (p : List Step) (v : AnyV)
  | int (p : List Step) (ty : IntTy) (n : Int)
  | len (p : List Step) (n : Nat)
  | text (p : List Step) (s : Bytes)
  | original (p : List Step) (s : Bytes)
  | all (p : List Step) (l : List AnyV)
  | removes (k : Bytes) (b : Bool)
  | removesAt (n : Nat) (b : Bool)
  | dies (p : List Step) (op : Op)
  | shows (s : Bytes)
  | writes (s : Bytes)

def check (doc : Document) : List Cmd → Bool
  | [] => true
  | .edit p op :: r =>
    match find doc.data doc.root p with
    | some x => match doc.edit x op with | .ok doc => check doc r | .error _ => false
    | none => false
  | .reads p v :: r => (match find doc.data doc.root p with | some x => asAny doc.data x == .ok v | none => false) && check doc r
  | .int p t n :: r => (match find doc.data doc.root p with | some x => asInt t doc.data x == .ok (some n) | none => false) && check doc r
  | .len p n :: r =>
    (match find doc.data doc.root p with
    | some x => (asMapping doc.data x == .ok (some x) && mapLen doc.data x == .ok n) || (asSequence doc.data x == .ok (some x) && seqLen' doc.data x == .ok n)
    | none => false) && check doc r
  | .text p s :: r =>
    (match find doc.data doc.root p with
    | some x => valueDisplay doc.data x == .ok s
    | none => false) && check doc r
  | .original p s :: r =>
    (match find doc.data doc.root p with
    | some x => (match doc.data.raw x with | .ok (.string v) => v.original == s | _ => false)
    | none => false) && check doc r
  | .all p l :: r =>
    (match find doc.data doc.root p with
    | some x => (match seqValues doc.data x with | .ok vs => vs.map (asAny doc.data) == l.map .ok | .error _ => false)
    | none => false) && check doc r
  | .removes k b :: r =>
    match mapRemove doc.data doc.root k with
    | .ok (b', d) => b == b' && check { doc with data := d } r
    | .error _ => false
  | .removesAt n b :: r =>
    match seqRemove doc.data doc.root n with
    | .ok (b', d) => b == b' && check { doc with data := d } r
    | .error _ => false
  | .dies p op :: r =>
    match find doc.data doc.root p with
    | some x => (match doc.edit doc.root op with | .ok doc => asMapping doc.data x == .error .panic && check doc r | .error _ => false)
    | none => false
  | .shows s :: r => doc.display == .ok s && check doc r
  | .writes s :: r => doc.write == .ok s && check doc r

/-- The text is accepted and the commands succeed. -/
def passes (inp : Bytes) (cmds : List Cmd) : Bool :=
  match fromSlice inp with
  | .ok doc => check doc cmds
  | .error _ => false

/-- src/yaml/mod.rs:42-50 -/
example : passes (b! "32")
    [.int [] .u32 32] = true := by decide +kernel
/-- src/yaml/document.rs:14-29 -/
example : passes (b! "\n%YAML 1.2\n---\nfirst: 32\nsecond: 64\n")
    [.int [.key (b! "first")] .u32 32, .int [.key (b! "second")] .u32 64] = true := by decide +kernel
/-- src/yaml/document.rs:67-76 -/
example : passes (b! "  32")
    [.edit [] (.setNumber (b! "42") .u32), .shows (b! "  42")] = true := by decide +kernel
/-- src/yaml/document.rs:92-113, 153-174 -/
example : passes (b! "\n    first: 32\n    second: [1, 2, 3]\n    ")
    [.dies [.key (b! "second")] (.remove (b! "second"))] = true := by decide +kernel
/-- src/yaml/document.rs:117-135 -/
example : passes (b! "\n    first: 32\n    second: [1, 2, 3]\n    ")
    [.text [.key (b! "second")] (b! "[1, 2, 3]")] = true := by decide +kernel
/-- src/yaml/document.rs:178-204 -/
example : passes (b! "\n    first: 32\n    second: [1, 2, 3]\n    ")
    [.edit [.key (b! "second")] (.setString (b! "Hello World")), .shows (b! "\n    first: 32\n    second: Hello World\n    ")] = true := by decide +kernel
/-- src/yaml/document.rs:218-241, value_mut.rs:617-637 -/
example : passes (b! "\n    string\n    ")
    [.edit [] (.makeMapping), .edit [] (.insert (b! "first") (.number (b! "1") .u32)), .edit [] (.insert (b! "second") (.number (b! "2") .u32)), .shows (b! "\n    first: 1\n    second: 2\n    ")] = true := by decide +kernel
/-- src/yaml/document.rs:243-265, value_mut.rs:639-658, tests/mod.rs:12-38 -/
example : passes (b! "\n    first: second\n    ")
    [.edit [.key (b! "first")] (.makeMapping), .edit [.key (b! "first")] (.insert (b! "second") (.number (b! "2") .u32)), .edit [.key (b! "first")] (.insert (b! "third") (.number (b! "3") .u32)), .shows (b! "\n    first:\n      second: 2\n      third: 3\n    ")] = true := by decide +kernel
/-- src/yaml/value.rs:121-137 -/
example : passes (b! "string")
    [.reads [] (.string (b! "string"))] = true := by decide +kernel
/-- src/yaml/value.rs:121-137 -/
example : passes (b! "\"a double-quoted string\"")
    [.reads [] (.string (b! "a double-quoted string"))] = true := by decide +kernel
/-- src/yaml/value.rs:121-137 -/
example : passes (b! "'a single-quoted string'")
    [.reads [] (.string (b! "a single-quoted string"))] = true := by decide +kernel
/-- src/yaml/value.rs:121-137 -/
example : passes (b! "'It''s a bargain!'")
    [.reads [] (.string (b! "It's a bargain!"))] = true := by decide +kernel
/-- src/yaml/value.rs:332-354, 410-428 -/
example : passes (b! "\n    - It's the same string!\n    - \"It's the same string!\"\n    - 'It''s the same string!'\n    ")
    [.all [] [.string (b! "It's the same string!"), .string (b! "It's the same string!"), .string (b! "It's the same string!")]] = true := by decide +kernel
/-- src/yaml/value.rs:373-380 -/
example : passes (b! "フェリスと言います！")
    [.reads [] (.string (b! "フェリスと言います！"))] = true := by decide +kernel
/-- src/yaml/value.rs:382-390 -/
example : passes (b! "\"hello \\x20 world\"")
    [.reads [] (.string (b! "hello   world")), .shows (b! "\"hello \\x20 world\"")] = true := by decide +kernel
/-- src/yaml/value.rs:396-406 -/
example : passes (b! "key::value")
    [.reads [] (.string (b! "key::value"))] = true := by decide +kernel
/-- src/yaml/value.rs:441-451 -/
example : passes (b! "true")
    [.reads [] (.bool true)] = true := by decide +kernel
/-- src/yaml/value.rs:464-488, value_mut.rs:68-131, mapping.rs:13-37, 169-193, mapping_mut.rs:215-276 -/
example : passes (b! "\n    number1: 10\n    number2: 20\n    mapping:\n        inner: 400\n    string3: \"I am a quoted string!\"\n    ")
    [.int [.key (b! "number1")] .u32 10, .int [.key (b! "number2")] .u32 20, .int [.key (b! "mapping"), .key (b! "inner")] .u32 400, .reads [.key (b! "string3")] (.string (b! "I am a quoted string!"))] = true := by decide +kernel
/-- src/yaml/value.rs:501-519, sequence.rs:11-29, 150-377, sequence_mut.rs:143-192 -/
example : passes (b! "\n    - one\n    - two\n    - three\n    ")
    [.reads [.ix 0] (.string (b! "one")), .reads [.ix 1] (.string (b! "two")), .reads [.ix 2] (.string (b! "three")), .len [] 3, .all [] [.string (b! "one"), .string (b! "two"), .string (b! "three")]] = true := by decide +kernel
/-- src/yaml/value_mut.rs:142-171, mapping_mut.rs:11-47, 287-362 -/
example : passes (b! "\n    number1: 10\n    number2: 20\n    mapping:\n        inner: 400\n    string3: \"I am a quoted string!\"\n    ")
    [.edit [.key (b! "number2")] (.setNumber (b! "30") .u32), .shows (b! "\n    number1: 10\n    number2: 30\n    mapping:\n        inner: 400\n    string3: \"I am a quoted string!\"\n    ")] = true := by decide +kernel
/-- src/yaml/value_mut.rs:184-228 -/
example : passes (b! "\n    number1: 10\n    number2: 20\n    mapping:\n        inner: 400\n    string3: \"I am a quoted string!\"\n    ")
    [.edit [.key (b! "number2")] (.setNumber (b! "30") .u32), .edit [.key (b! "string3")] (.setString (b! "i-am-a-bare-string")), .shows (b! "\n    number1: 10\n    number2: 30\n    mapping:\n        inner: 400\n    string3: i-am-a-bare-string\n    "), .edit [.key (b! "string3")] (.setString (b! "It's \n a good day!")), .shows (b! "\n    number1: 10\n    number2: 30\n    mapping:\n        inner: 400\n    string3: \"It's \\n a good day!\"\n    ")] = true := by decide +kernel
/-- src/yaml/value_mut.rs:241-308, sequence_mut.rs:203-271 -/
example : passes (b! "\n    - 10\n    - 20\n    - inner: 400\n    - \"I am a quoted string!\"\n    ")
    [.edit [.ix 1] (.setNumber (b! "30") .u32), .shows (b! "\n    - 10\n    - 30\n    - inner: 400\n    - \"I am a quoted string!\"\n    ")] = true := by decide +kernel
/-- src/yaml/value_mut.rs:371-387 -/
example : passes (b! "  string")
    [.edit [] (.setNull .keyword), .shows (b! "  null"), .edit [] (.setNull .tilde), .shows (b! "  ~"), .edit [] (.setNull .empty), .shows (b! "  ")] = true := by decide +kernel
/-- src/yaml/value_mut.rs:412-439 -/
example : passes (b! "  string")
    [.edit [] (.setString (b! "i-am-a-string")), .shows (b! "  i-am-a-string"), .edit [] (.setString (b! "I am a string")), .shows (b! "  I am a string"), .edit [] (.setString (b! "I am a\n string")), .shows (b! "  \"I am a\\n string\""), .edit [] (.setString (b! "I am a string with \"quotes\"")), .shows (b! "  I am a string with \"quotes\""), .edit [] (.setString (b! "null")), .shows (b! "  'null'"), .edit [] (.setString (b! "1.65")), .shows (b! "  '1.65'"), .edit [] (.setString (b! "rust@1.65")), .shows (b! "  rust@1.65")] = true := by decide +kernel
/-- src/yaml/value_mut.rs:453-465 -/
example : passes (b! "  string")
    [.edit [] (.setStringWith (b! "i-am-a-string") .double), .shows (b! "  \"i-am-a-string\""), .edit [] (.setStringWith (b! "It's a great success!") .single), .shows (b! "  'It''s a great success!'")] = true := by decide +kernel
/-- src/yaml/value_mut.rs:483-571 -/
example : passes (b! "\n    string\n    ")
    [.edit [] (.setBlock [(b! "foo"), (b! "bar"), (b! "baz")] (.literal .clip)), .reads [] (.string (b! "foo\nbar\nbaz\n")), .shows (b! "\n    |\n      foo\n      bar\n      baz\n    "), .edit [] (.setBlock [(b! "foo"), (b! "bar"), (b! "baz")] (.literal .keep)), .reads [] (.string (b! "foo\nbar\nbaz\n")), .shows (b! "\n    |+\n      foo\n      bar\n      baz\n    "), .edit [] (.setBlock [(b! "foo"), (b! "bar"), (b! "baz")] (.literal .strip)), .reads [] (.string (b! "foo\nbar\nbaz")), .shows (b! "\n    |-\n      foo\n      bar\n      baz\n    "), .edit [] (.setBlock [(b! "foo"), (b! "bar"), (b! "baz")] (.folded .clip)), .reads [] (.string (b! "foo bar baz\n")), .shows (b! "\n    >\n      foo\n      bar\n      baz\n    "), .edit [] (.setBlock [(b! "foo"), (b! "bar"), (b! "baz")] (.folded .keep)), .reads [] (.string (b! "foo bar baz\n")), .shows (b! "\n    >+\n      foo\n      bar\n      baz\n    "), .edit [] (.setBlock [(b! "foo"), (b! "bar"), (b! "baz")] (.folded .strip)), .reads [] (.string (b! "foo bar baz")), .shows (b! "\n    >-\n      foo\n      bar\n      baz\n    ")] = true := by decide +kernel
/-- src/yaml/value_mut.rs:585-594 -/
example : passes (b! "  string")
    [.edit [] (.setBool true), .shows (b! "  true")] = true := by decide +kernel
/-- src/yaml/value_mut.rs:662-689 -/
example : passes (b! "\n    - one\n    - two\n    ")
    [.edit [] (.push (.null .auto)), .edit [.ix 2] (.makeMapping), .edit [.ix 2] (.insert (b! "three") (.number (b! "3") .u32)), .edit [.ix 2] (.insert (b! "four") (.number (b! "4") .u32)), .shows (b! "\n    - one\n    - two\n    - three: 3\n      four: 4\n    ")] = true := by decide +kernel
/-- src/yaml/value_mut.rs:714-734 -/
example : passes (b! "\n    string\n    ")
    [.edit [] (.makeSequence), .edit [] (.push (.number (b! "1") .u32)), .edit [] (.push (.number (b! "2") .u32)), .shows (b! "\n    - 1\n    - 2\n    ")] = true := by decide +kernel
/-- src/yaml/value_mut.rs:736-755 -/
example : passes (b! "\n    first: second\n    ")
    [.edit [.key (b! "first")] (.makeSequence), .edit [.key (b! "first")] (.push (.number (b! "2") .u32)), .edit [.key (b! "first")] (.push (.number (b! "3") .u32)), .shows (b! "\n    first:\n      - 2\n      - 3\n    ")] = true := by decide +kernel
/-- src/yaml/mapping_mut.rs:93-132 (f32) -/
example : passes (b! "\n    number1: 10\n    ")
    [.edit [] (.insert (b! "number2") (.number (b! "10.42") .f32)), .shows (b! "\n    number1: 10\n    number2: 10.42\n    ")] = true := by decide +kernel
/-- src/yaml/sequence_mut.rs:50-86 (f32) -/
example : passes (b! "\n    - 10\n    ")
    [.edit [] (.push (.number (b! "10.42") .f32)), .shows (b! "\n    - 10\n    - 10.42\n    ")] = true := by decide +kernel
/-- src/yaml/mapping_mut.rs:93-132 (f64) -/
example : passes (b! "\n    number1: 10\n    ")
    [.edit [] (.insert (b! "number2") (.number (b! "10.42") .f64)), .shows (b! "\n    number1: 10\n    number2: 10.42\n    ")] = true := by decide +kernel
/-- src/yaml/sequence_mut.rs:50-86 (f64) -/
example : passes (b! "\n    - 10\n    ")
    [.edit [] (.push (.number (b! "10.42") .f64)), .shows (b! "\n    - 10\n    - 10.42\n    ")] = true := by decide +kernel
/-- src/yaml/mapping_mut.rs:93-132 (u8) -/
example : passes (b! "\n    number1: 10\n    ")
    [.edit [] (.insert (b! "number2") (.number (b! "42") .u8)), .shows (b! "\n    number1: 10\n    number2: 42\n    ")] = true := by decide +kernel
/-- src/yaml/sequence_mut.rs:50-86 (u8) -/
example : passes (b! "\n    - 10\n    ")
    [.edit [] (.push (.number (b! "42") .u8)), .shows (b! "\n    - 10\n    - 42\n    ")] = true := by decide +kernel
/-- src/yaml/mapping_mut.rs:93-132 (i8) -/
example : passes (b! "\n    number1: 10\n    ")
    [.edit [] (.insert (b! "number2") (.number (b! "-42") .i8)), .shows (b! "\n    number1: 10\n    number2: -42\n    ")] = true := by decide +kernel
/-- src/yaml/sequence_mut.rs:50-86 (i8) -/
example : passes (b! "\n    - 10\n    ")
    [.edit [] (.push (.number (b! "-42") .i8)), .shows (b! "\n    - 10\n    - -42\n    ")] = true := by decide +kernel
/-- src/yaml/mapping_mut.rs:93-132 (i128) -/
example : passes (b! "\n    number1: 10\n    ")
    [.edit [] (.insert (b! "number2") (.number (b! "-42") .i128)), .shows (b! "\n    number1: 10\n    number2: -42\n    ")] = true := by decide +kernel
/-- src/yaml/sequence_mut.rs:50-86 (i128) -/
example : passes (b! "\n    - 10\n    ")
    [.edit [] (.push (.number (b! "-42") .i128)), .shows (b! "\n    - 10\n    - -42\n    ")] = true := by decide +kernel
/-- src/yaml/mapping_mut.rs:381-411 -/
example : passes (b! "\n    number1: 10\n    number2: 20\n    mapping:\n        inner: 400\n    string3: \"I am a quoted string!\"\n    ")
    [.removes (b! "no such key") false, .removes (b! "mapping") true, .removes (b! "mapping") false, .shows (b! "\n    number1: 10\n    number2: 20\n    string3: \"I am a quoted string!\"\n    ")] = true := by decide +kernel
/-- src/yaml/mapping_mut.rs:437-458 -/
example : passes (b! "\n    number1: 10\n    number2: 20\n    mapping:\n        inner: 400\n    string3: \"I am a quoted string!\"\n    ")
    [.edit [] (.clearMapping), .shows (b! "\n    \n    ")] = true := by decide +kernel
/-- src/yaml/mapping_mut.rs:476-499 -/
example : passes (b! "\n    one: 1\n    two: 2\n    ")
    [.edit [] (.insert (b! "three") (.null (.custom (b! "   ")))), .edit [.key (b! "three")] (.setNumber (b! "3") .u32), .shows (b! "\n    one: 1\n    two: 2\n    three:   3\n    ")] = true := by decide +kernel
/-- src/yaml/mapping_mut.rs:512-533 -/
example : passes (b! "\n    number1: 10\n    ")
    [.edit [] (.insert (b! "string2") (.str (b! "hello"))), .shows (b! "\n    number1: 10\n    string2: hello\n    ")] = true := by decide +kernel
/-- src/yaml/mapping_mut.rs:551-651 -/
example : passes (b! "\n    string\n    ")
    [.edit [] (.makeMapping), .edit [] (.clearMapping), .edit [] (.insert (b! "key") (.block [(b! "foo"), (b! "bar"), (b! "baz")] (.literal .clip))), .reads [.key (b! "key")] (.string (b! "foo\nbar\nbaz\n")), .shows (b! "\n    key: |\n      foo\n      bar\n      baz\n    "), .edit [] (.makeMapping), .edit [] (.clearMapping), .edit [] (.insert (b! "key") (.block [(b! "foo"), (b! "bar"), (b! "baz")] (.literal .keep))), .reads [.key (b! "key")] (.string (b! "foo\nbar\nbaz\n")), .shows (b! "\n    key: |+\n      foo\n      bar\n      baz\n    "), .edit [] (.makeMapping), .edit [] (.clearMapping), .edit [] (.insert (b! "key") (.block [(b! "foo"), (b! "bar"), (b! "baz")] (.literal .strip))), .reads [.key (b! "key")] (.string (b! "foo\nbar\nbaz")), .shows (b! "\n    key: |-\n      foo\n      bar\n      baz\n    "), .edit [] (.makeMapping), .edit [] (.clearMapping), .edit [] (.insert (b! "key") (.block [(b! "foo"), (b! "bar"), (b! "baz")] (.folded .clip))), .reads [.key (b! "key")] (.string (b! "foo bar baz\n")), .shows (b! "\n    key: >\n      foo\n      bar\n      baz\n    "), .edit [] (.makeMapping), .edit [] (.clearMapping), .edit [] (.insert (b! "key") (.block [(b! "foo"), (b! "bar"), (b! "baz")] (.folded .keep))), .reads [.key (b! "key")] (.string (b! "foo bar baz\n")), .shows (b! "\n    key: >+\n      foo\n      bar\n      baz\n    "), .edit [] (.makeMapping), .edit [] (.clearMapping), .edit [] (.insert (b! "key") (.block [(b! "foo"), (b! "bar"), (b! "baz")] (.folded .strip))), .reads [.key (b! "key")] (.string (b! "foo bar baz")), .shows (b! "\n    key: >-\n      foo\n      bar\n      baz\n    ")] = true := by decide +kernel
/-- src/yaml/mapping_mut.rs:666-687 -/
example : passes (b! "\n    number1: 10\n    ")
    [.edit [] (.insert (b! "bool2") (.bool true)), .shows (b! "\n    number1: 10\n    bool2: true\n    ")] = true := by decide +kernel
/-- src/yaml/mapping.rs:41-72 -/
example : passes (b! "{}")
    [.shows (b! "{}")] = true := by decide +kernel
/-- src/yaml/mapping.rs:41-72 -/
example : passes (b! "{test: 1,}")
    [.len [] 1, .shows (b! "{test: 1,}")] = true := by decide +kernel
/-- src/yaml/mapping.rs:55-72, tests/mapping.rs:58-81 -/
example : passes (b! "\n    {one: one, two: two, three: 3,}\n    ")
    [.reads [.key (b! "one")] (.string (b! "one")), .reads [.key (b! "two")] (.string (b! "two")), .int [.key (b! "three")] .u32 3, .shows (b! "\n    {one: one, two: two, three: 3,}\n    ")] = true := by decide +kernel
/-- src/yaml/mapping.rs:87-106 -/
example : passes (b! "\n    first: 32\n    second: [1, 2, 3]\n    ")
    [.all [.key (b! "second")] [.number (b! "1"), .number (b! "2"), .number (b! "3")]] = true := by decide +kernel
/-- src/yaml/mapping.rs:117-158, 211-297 -/
example : passes (b! "\n    one: 1\n    two: 2\n    three: 3\n    ")
    [.len [] 3] = true := by decide +kernel
/-- src/yaml/sequence.rs:33-70, tests/mod.rs:65-100 -/
example : passes (b! "\n    - one\n    - two\n    - - three\n      - four: 2\n        five: 1\n    - six\n    ")
    [.reads [.ix 0] (.string (b! "one")), .reads [.ix 1] (.string (b! "two")), .reads [.ix 2, .ix 0] (.string (b! "three")), .int [.ix 2, .ix 1, .key (b! "four")] .u32 2, .int [.ix 2, .ix 1, .key (b! "five")] .u32 1, .reads [.ix 3] (.string (b! "six"))] = true := by decide +kernel
/-- src/yaml/sequence.rs:74-105 -/
example : passes (b! "[]")
    [.shows (b! "[]")] = true := by decide +kernel
/-- src/yaml/sequence.rs:74-105 -/
example : passes (b! "[,]")
    [.len [] 1, .shows (b! "[,]")] = true := by decide +kernel
/-- src/yaml/sequence.rs:74-105 -/
example : passes (b! "\n    [one, two, 3,]\n    ")
    [.reads [.ix 0] (.string (b! "one")), .reads [.ix 1] (.string (b! "two")), .int [.ix 2] .u32 3, .shows (b! "\n    [one, two, 3,]\n    ")] = true := by decide +kernel
/-- src/yaml/sequence.rs:120-139 -/
example : passes (b! "\n    - 32\n    - [1, 2, 3]\n    ")
    [.all [.ix 1] [.number (b! "1"), .number (b! "2"), .number (b! "3")]] = true := by decide +kernel
/-- src/yaml/sequence_mut.rs:287-315 -/
example : passes (b! "\n    - 10\n    - 20\n    - inner: 400\n    - \"I am a quoted string!\"\n    ")
    [.removesAt 4 false, .removesAt 2 true, .shows (b! "\n    - 10\n    - 20\n    - \"I am a quoted string!\"\n    ")] = true := by decide +kernel
/-- src/yaml/sequence_mut.rs:332-352 -/
example : passes (b! "\n    - 10\n    - 20\n    - inner: 400\n    - \"I am a quoted string!\"\n    ")
    [.edit [] (.clearSequence), .shows (b! "\n    \n    ")] = true := by decide +kernel
/-- src/yaml/sequence_mut.rs:369-392 -/
example : passes (b! "\n    - one\n    - two\n    ")
    [.edit [] (.push (.null (.custom (b! "   ")))), .edit [.ix 2] (.setBool true), .shows (b! "\n    - one\n    - two\n    -   true\n    ")] = true := by decide +kernel
/-- src/yaml/sequence_mut.rs:402-424, tests/sequence.rs:48-77 -/
example : passes (b! "\n    - - 10\n    ")
    [.edit [.ix 0] (.push (.str (b! "nice string"))), .shows (b! "\n    - - 10\n      - nice string\n    ")] = true := by decide +kernel
/-- src/yaml/sequence_mut.rs:441-541 -/
example : passes (b! "\n    string\n    ")
    [.edit [] (.makeSequence), .edit [] (.clearSequence), .edit [] (.push (.block [(b! "foo"), (b! "bar"), (b! "baz")] (.literal .clip))), .reads [.ix 0] (.string (b! "foo\nbar\nbaz\n")), .shows (b! "\n    - |\n      foo\n      bar\n      baz\n    "), .edit [] (.makeSequence), .edit [] (.clearSequence), .edit [] (.push (.block [(b! "foo"), (b! "bar"), (b! "baz")] (.literal .keep))), .reads [.ix 0] (.string (b! "foo\nbar\nbaz\n")), .shows (b! "\n    - |+\n      foo\n      bar\n      baz\n    "), .edit [] (.makeSequence), .edit [] (.clearSequence), .edit [] (.push (.block [(b! "foo"), (b! "bar"), (b! "baz")] (.literal .strip))), .reads [.ix 0] (.string (b! "foo\nbar\nbaz")), .shows (b! "\n    - |-\n      foo\n      bar\n      baz\n    "), .edit [] (.makeSequence), .edit [] (.clearSequence), .edit [] (.push (.block [(b! "foo"), (b! "bar"), (b! "baz")] (.folded .clip))), .reads [.ix 0] (.string (b! "foo bar baz\n")), .shows (b! "\n    - >\n      foo\n      bar\n      baz\n    "), .edit [] (.makeSequence), .edit [] (.clearSequence), .edit [] (.push (.block [(b! "foo"), (b! "bar"), (b! "baz")] (.folded .keep))), .reads [.ix 0] (.string (b! "foo bar baz\n")), .shows (b! "\n    - >+\n      foo\n      bar\n      baz\n    "), .edit [] (.makeSequence), .edit [] (.clearSequence), .edit [] (.push (.block [(b! "foo"), (b! "bar"), (b! "baz")] (.folded .strip))), .reads [.ix 0] (.string (b! "foo bar baz")), .shows (b! "\n    - >-\n      foo\n      bar\n      baz\n    ")] = true := by decide +kernel
/-- src/yaml/sequence_mut.rs:555-577 -/
example : passes (b! "\n    - - 10\n    ")
    [.edit [.ix 0] (.push (.bool false)), .shows (b! "\n    - - 10\n      - false\n    ")] = true := by decide +kernel
/-- src/yaml/any.rs:34-44 -/
example : passes (b! "null")
    [.reads [] (.null)] = true := by decide +kernel
/-- src/yaml/any.rs:102-113 -/
example : passes (b! "42")
    [.int [] .u32 42] = true := by decide +kernel
/-- src/yaml/string.rs:51-66 -/
example : passes (b! "\"Hello\\n World\"")
    [.reads [] (.string (b! "Hello\n World")), .original [] (b! "\"Hello\\n World\"")] = true := by decide +kernel
/-- src/yaml/string.rs:51-66 -/
example : passes (b! "\"Hello World\"")
    [.original [] (b! "\"Hello World\"")] = true := by decide +kernel
/-- src/yaml/string.rs:51-66 -/
example : passes (b! "'Hello World'")
    [.original [] (b! "'Hello World'")] = true := by decide +kernel
/-- src/yaml/number.rs:62-73 -/
example : passes (b! "3.1415")
    [.reads [] (.number (b! "3.1415"))] = true := by decide +kernel
/-- src/yaml/error.rs:55-67 -/
example : fromSlice (b! "\n{hello: world}\n42\n") = .error (.err 16 19 .expectedEof) := by decide +kernel
/-- src/yaml/error.rs:73-81 -/
example : fromSlice (b! "[Aristotle, # this is a comment") = .error (.err 11 31 .badSequenceTerminator) := by decide +kernel
/-- src/yaml/error.rs:87-95 -/
example : fromSlice (b! "{name: Aristotle, age # this is a comment") = .error (.err 17 41 .badMappingSeparator) := by decide +kernel
/-- src/yaml/error.rs:99-109 -/
example : fromSlice (b! "\nname: Aristotle\nage # end") = .error (.err 17 26 .badMappingSeparator) := by decide +kernel
/-- src/yaml/error.rs:115-123 -/
example : fromSlice (b! "{name: Aristotle, # this is a comment") = .error (.err 17 37 .badMappingTerminator) := by decide +kernel
/-- src/yaml/error.rs:129-137 -/
example : fromSlice (b! "\"hello \\o1u world\"") = .error (.err 7 9 .badEscape) := by decide +kernel
/-- src/yaml/error.rs:143-151 -/
example : fromSlice (b! "\"hello \\x1u world\"") = .error (.err 7 11 .badHexEscape) := by decide +kernel
/-- src/yaml/error.rs:157-165 -/
example : fromSlice (b! "\"hello \\ud800 world\"") = .error (.err 7 13 .badUnicodeEscape) := by decide +kernel
/-- src/lib.rs:31-59 -/
example : passes (b! "\n    greeting: Hello World!\n    ")
    [.reads [.key (b! "greeting")] (.string (b! "Hello World!")), .edit [] (.insert (b! "greeting2") (.str (b! "Hello Rust!"))), .shows (b! "\n    greeting: Hello World!\n    greeting2: Hello Rust!\n    ")] = true := by decide +kernel
/-- src/lib.rs:96-135 -/
example : passes (b! "\n    - 10\n    - 24\n    - 30\n    ")
    [.edit [.ix 0] (.setNumber (b! "1") .u32), .edit [.ix 2] (.setNumber (b! "3") .u32), .shows (b! "\n    - 1\n    - 24\n    - 3\n    ")] = true := by decide +kernel
/-- src/lib.rs:146-176 -/
example : passes (b! "\n    name: Descartes\n    country: Grece\n    ")
    [.reads [.key (b! "name")] (.string (b! "Descartes")), .edit [.key (b! "name")] (.setString (b! "Plato")), .edit [.key (b! "country")] (.setString (b! "Greece")), .shows (b! "\n    name: Plato\n    country: Greece\n    ")] = true := by decide +kernel
/-- tests/insert-strip.rs:4-15 -/
example : passes (b! "doc: test")
    [.edit [] (.insert (b! "my_string") (.block [(b! "one"), (b! "two")] (.literal .strip))), .shows (b! "doc: test\nmy_string: |-\n  one\n  two")] = true := by decide +kernel
/-- tests/insert-strip.rs:17-29 -/
example : passes (b! "\ndoc: test")
    [.edit [] (.insert (b! "my_string") (.block [(b! "one"), (b! "two")] (.literal .strip))), .shows (b! "\ndoc: test\nmy_string: |-\n  one\n  two")] = true := by decide +kernel
/-- tests/insert-strip.rs:31-92 -/
example : passes (b! "\n    doc: test\n    obj:\n      title: Object\n    obj_array:\n      - title: Object in an array")
    [.edit [] (.insert (b! "my_string_outer") (.block [(b! "one"), (b! "two")] (.literal .strip))), .edit [.key (b! "obj")] (.insert (b! "my_string_inner1") (.block [(b! "one"), (b! "two")] (.literal .strip))), .edit [.key (b! "obj_array"), .ix 0] (.insert (b! "my_string_inner2") (.block [(b! "one"), (b! "two")] (.literal .strip))), .shows (b! "\n    doc: test\n    obj:\n      title: Object\n      my_string_inner1: |-\n        one\n        two\n    obj_array:\n      - title: Object in an array\n        my_string_inner2: |-\n          one\n          two\n    my_string_outer: |-\n      one\n      two")] = true := by decide +kernel
/-- tests/push-mapping.rs:4-37 -/
example : passes (b! "\n        - one\n        - two\n        ")
    [.edit [] (.push (.null .auto)), .edit [.ix 2] (.makeMapping), .edit [.ix 2] (.insert (b! "three") (.number (b! "3") .u32)), .edit [.ix 2] (.insert (b! "four") (.number (b! "4") .u32)), .edit [.ix 2] (.insert (b! "five") (.null .auto)), .edit [.ix 2, .key (b! "five")] (.makeMapping), .edit [.ix 2, .key (b! "five")] (.insert (b! "six") (.str (b! "six"))), .edit [.ix 2, .key (b! "five")] (.insert (b! "seven") (.str (b! "seven"))), .shows (b! "\n        - one\n        - two\n        - three: 3\n          four: 4\n          five:\n            six: six\n            seven: seven\n        ")] = true := by decide +kernel
/-- tests/quoted-map-key.rs:4-13 -/
example : passes (b! "'!quoted_keys': |-\n  are compliant")
    [.reads [.key (b! "!quoted_keys")] (.string (b! "are compliant"))] = true := by decide +kernel
/-- src/yaml/tests/escape.rs:12-35 -/
example : passes (b! "\"a \\n b\"")
    [.reads [] (.string (b! "a \n b"))] = true := by decide +kernel
/-- src/yaml/tests/escape.rs:12-35 -/
example : passes (b! "\"a \\t b\"")
    [.reads [] (.string (b! "a \t b"))] = true := by decide +kernel
/-- src/yaml/tests/escape.rs:12-35 -/
example : passes (b! "\"a \\r b\"")
    [.reads [] (.string (b! "a \r b"))] = true := by decide +kernel
/-- src/yaml/tests/escape.rs:12-35 -/
example : passes (b! "\"a \\\\ b\"")
    [.reads [] (.string (b! "a \" b"))] = true := by decide +kernel
/-- src/yaml/tests/escape.rs:12-35 -/
example : passes (b! "\"a \\x77 b\"")
    [.reads [] (.string (b! "a w b"))] = true := by decide +kernel
/-- src/yaml/tests/escape.rs:12-35 -/
example : passes (b! "\"a \\u79c1 b\"")
    [.reads [] (.string (b! "a 私 b"))] = true := by decide +kernel
/-- src/yaml/tests/escape.rs:12-35 -/
example : passes (b! "'It is a party!'")
    [.reads [] (.string (b! "It is a party!"))] = true := by decide +kernel
/-- src/yaml/tests/escape.rs:12-35 -/
example : passes (b! "'It''s a party!'")
    [.reads [] (.string (b! "It's a party!"))] = true := by decide +kernel
/-- src/yaml/tests/escape.rs:12-35 -/
example : passes (b! "\"a \\0 b\"")
    [.reads [] (.string [97, 32, 0, 32, 98])] = true := by decide +kernel
/-- src/yaml/tests/escape.rs:12-35 -/
example : passes (b! "\"a \\a b\"")
    [.reads [] (.string [97, 32, 7, 32, 98])] = true := by decide +kernel
/-- src/yaml/tests/escape.rs:12-35 -/
example : passes (b! "\"a \\b b\"")
    [.reads [] (.string [97, 32, 8, 32, 98])] = true := by decide +kernel
/-- src/yaml/tests/escape.rs:12-35 -/
example : passes (b! "\"a \\v b\"")
    [.reads [] (.string [97, 32, 11, 32, 98])] = true := by decide +kernel
/-- src/yaml/tests/escape.rs:12-35 -/
example : passes (b! "\"a \\f b\"")
    [.reads [] (.string [97, 32, 12, 32, 98])] = true := by decide +kernel
/-- src/yaml/tests/escape.rs:12-35 -/
example : passes (b! "\"a \\e b\"")
    [.reads [] (.string [97, 32, 27, 32, 98])] = true := by decide +kernel
/-- src/yaml/tests/mapping.rs:5-30 -/
example : passes (b! "\n        one: 1\n        two: 2\n        three:\n          four: 4\n          five: 5\n        ")
    [.shows (b! "\n        one: 1\n        two: 2\n        three:\n          four: 4\n          five: 5\n        ")] = true := by decide +kernel
/-- src/yaml/tests/mapping.rs:32-56 -/
example : passes (b! "\n        one: 1\n        two: 2\n        three:\n          four: {inner: 10, inner2: 20}\n          five: 5\n        ")
    [.shows (b! "\n        one: 1\n        two: 2\n        three:\n          four: {inner: 10, inner2: 20}\n          five: 5\n        ")] = true := by decide +kernel
/-- src/yaml/tests/mapping.rs:83-105 -/
example : passes (b! "\n        string\n        ")
    [.edit [] (.makeMapping), .edit [] (.insert (b! "first") (.number (b! "1") .u32)), .edit [] (.insert (b! "second") (.number (b! "2") .u32)), .shows (b! "\n        first: 1\n        second: 2\n        ")] = true := by decide +kernel
/-- src/yaml/tests/mapping.rs:107-132 -/
example : passes (b! "a:\nb:\nc:")
    [.len [] 3, .edit [.key (b! "a")] (.makeMapping), .shows (b! "a:\nb:\nc:"), .edit [.key (b! "a")] (.insert (b! "inner") (.null .auto)), .edit [.key (b! "a"), .key (b! "inner")] (.makeSequence), .edit [.key (b! "a"), .key (b! "inner")] (.push (.str (b! "value"))), .shows (b! "a:\n  inner:\n    - value\nb:\nc:")] = true := by decide +kernel
/-- src/yaml/tests/mod.rs:40-63 -/
example : passes (b! "\n        mapping:\n            inner: so this is as a matter of @ course, a large document\n        string3: \"I am a quoted string!\"\n        ")
    [.reads [.key (b! "mapping"), .key (b! "inner")] (.string (b! "so this is as a matter of @ course, a large document"))] = true := by decide +kernel
/-- src/yaml/tests/multiline.rs:5-39 -/
example : passes (b! "\n        first: |\n          foo\n\n          bar\n          baz\n        second: 2\n        ")
    [.reads [.key (b! "first")] (.string (b! "foo\n\nbar\nbaz\n")), .int [.key (b! "second")] .u32 2, .shows (b! "\n        first: |\n          foo\n\n          bar\n          baz\n        second: 2\n        ")] = true := by decide +kernel
/-- src/yaml/tests/multiline.rs:41-75 -/
example : passes (b! "\n        first: | foo\n\n          bar\n          baz\n        second: 2\n        ")
    [.reads [.key (b! "first")] (.string (b! "foo\nbar\nbaz\n")), .int [.key (b! "second")] .u32 2, .shows (b! "\n        first: | foo\n\n          bar\n          baz\n        second: 2\n        ")] = true := by decide +kernel
/-- src/yaml/tests/multiline.rs:77-99 -/
example : passes (b! "\n        first: |-\n          foo\n\n          bar\n          baz\n        second: 2\n        ")
    [.reads [.key (b! "first")] (.string (b! "foo\n\nbar\nbaz")), .int [.key (b! "second")] .u32 2] = true := by decide +kernel
/-- src/yaml/tests/multiline.rs:101-123 -/
example : passes (b! "\n        first: |+\n          foo\n\n          bar\n          baz\n\n        second: 2\n        ")
    [.reads [.key (b! "first")] (.string (b! "foo\n\nbar\nbaz\n\n")), .int [.key (b! "second")] .u32 2] = true := by decide +kernel
/-- src/yaml/tests/multiline.rs:125-172 -/
example : passes (b! "\n        first: > foo\n\n          bar\n          baz\n        second: 2\n        ")
    [.reads [.key (b! "first")] (.string (b! "foo bar baz\n")), .int [.key (b! "second")] .u32 2, .shows (b! "\n        first: > foo\n\n          bar\n          baz\n        second: 2\n        "), .edit [.key (b! "first")] (.setString (b! "removed")), .shows (b! "\n        first: removed\n        second: 2\n        ")] = true := by decide +kernel
/-- src/yaml/tests/multiline.rs:174-200 -/
example : passes (b! "\n        first: >\n          foo\n\n          bar\n          baz\n        second: 2\n        ")
    [.reads [.key (b! "first")] (.string (b! "foo bar baz\n")), .shows (b! "\n        first: >\n          foo\n\n          bar\n          baz\n        second: 2\n        ")] = true := by decide +kernel
/-- src/yaml/tests/sequence.rs:5-26 -/
example : passes (b! "\n        - 1\n        - 2\n        - - 4\n          - 5\n        ")
    [.shows (b! "\n        - 1\n        - 2\n        - - 4\n          - 5\n        ")] = true := by decide +kernel
/-- src/yaml/tests/sequence.rs:28-46 -/
example : passes (b! "\n        - 1\n        - 2\n        - - [one, two, three]\n          - 5\n        ")
    [.shows (b! "\n        - 1\n        - 2\n        - - [one, two, three]\n          - 5\n        ")] = true := by decide +kernel
/-- tests/yaml-compare.rs, tests/yaml/bug1.yaml -/
example : passes (b! "# https://github.com/udoprog/nondestructive/issues/1\n\nversion: 1.6.3\nname: \"app\"\n")
    [.reads [.key (b! "version")] (.string (b! "1.6.3")), .reads [.key (b! "name")] (.string (b! "app")), .shows (b! "# https://github.com/udoprog/nondestructive/issues/1\n\nversion: 1.6.3\nname: \"app\"\n"), .writes (b! "# https://github.com/udoprog/nondestructive/issues/1\n\nversion: 1.6.3\nname: \"app\"\n")] = true := by decide +kernel
/-- tests/yaml-compare.rs, tests/yaml/bug1_sequence.yaml -/
example : passes (b! "# https://github.com/udoprog/nondestructive/issues/1\n#\n# Extra test case where we ensure that the same processing also applies to\n# structural sequnces.\n\n- 1.6.3\n- \"app\"\n")
    [.reads [.ix 0] (.string (b! "1.6.3")), .reads [.ix 1] (.string (b! "app")), .shows (b! "# https://github.com/udoprog/nondestructive/issues/1\n#\n# Extra test case where we ensure that the same processing also applies to\n# structural sequnces.\n\n- 1.6.3\n- \"app\"\n"), .writes (b! "# https://github.com/udoprog/nondestructive/issues/1\n#\n# Extra test case where we ensure that the same processing also applies to\n# structural sequnces.\n\n- 1.6.3\n- \"app\"\n")] = true := by decide +kernel
/-- tests/yaml-compare.rs, tests/yaml/bug1_suffix.yaml -/
example : passes (b! "# reported by denizoztreves\n#\n# Comment: https://github.com/udoprog/nondestructive/issues/1#issuecomment-1508337593\n\nversion: '1.4.5'\nmemory: 600m\n")
    [.reads [.key (b! "version")] (.string (b! "1.4.5")), .reads [.key (b! "memory")] (.string (b! "600m")), .shows (b! "# reported by denizoztreves\n#\n# Comment: https://github.com/udoprog/nondestructive/issues/1#issuecomment-1508337593\n\nversion: '1.4.5'\nmemory: 600m\n"), .writes (b! "# reported by denizoztreves\n#\n# Comment: https://github.com/udoprog/nondestructive/issues/1#issuecomment-1508337593\n\nversion: '1.4.5'\nmemory: 600m\n")] = true := by decide +kernel
/-- tests/yaml-compare.rs, tests/yaml/case-preserving.yaml -/
example : passes (b! "true_value: true\nupper_true_value: TRUE\nmixed_true_value: True\n\nfalse_value: true\nupper_false_value: TRUE\nmixed_false_value: True\n\nnull_value: null\nupper_null_value: NULL\nmixed_null_value: Null")
    [.reads [.key (b! "true_value")] (.bool true), .reads [.key (b! "upper_true_value")] (.bool true), .reads [.key (b! "mixed_true_value")] (.bool true), .reads [.key (b! "false_value")] (.bool true), .reads [.key (b! "upper_false_value")] (.bool true), .reads [.key (b! "mixed_false_value")] (.bool true), .reads [.key (b! "null_value")] (.null), .reads [.key (b! "upper_null_value")] (.null), .reads [.key (b! "mixed_null_value")] (.null), .shows (b! "true_value: true\nupper_true_value: TRUE\nmixed_true_value: True\n\nfalse_value: true\nupper_false_value: TRUE\nmixed_false_value: True\n\nnull_value: null\nupper_null_value: NULL\nmixed_null_value: Null"), .writes (b! "true_value: true\nupper_true_value: TRUE\nmixed_true_value: True\n\nfalse_value: true\nupper_false_value: TRUE\nmixed_false_value: True\n\nnull_value: null\nupper_null_value: NULL\nmixed_null_value: Null")] = true := by decide +kernel
/-- tests/yaml-compare.rs, tests/yaml/null.yaml -/
example : passes (b! "empty_value:\nnull_value: null\ntilde_null_value: ~\n\ntilde_quoted_value: \"~\"\ntilde_quoted_path_value: \"~/some/path\"\ntilde_string_path_value: ~/some/path")
    [.reads [.key (b! "empty_value")] (.null), .reads [.key (b! "null_value")] (.null), .reads [.key (b! "tilde_null_value")] (.null), .reads [.key (b! "tilde_quoted_value")] (.string (b! "~")), .reads [.key (b! "tilde_quoted_path_value")] (.string (b! "~/some/path")), .reads [.key (b! "tilde_string_path_value")] (.string (b! "~/some/path")), .shows (b! "empty_value:\nnull_value: null\ntilde_null_value: ~\n\ntilde_quoted_value: \"~\"\ntilde_quoted_path_value: \"~/some/path\"\ntilde_string_path_value: ~/some/path"), .writes (b! "empty_value:\nnull_value: null\ntilde_null_value: ~\n\ntilde_quoted_value: \"~\"\ntilde_quoted_path_value: \"~/some/path\"\ntilde_string_path_value: ~/some/path")] = true := by decide +kernel
/-- tests/yaml-compare.rs, tests/yaml/numerical.yaml -/
example : passes (b! "n0: 0\nn1: 0e10\nn2: .e10\nn3: .0e10\nn4: 1.0e10\n")
    [.int [.key (b! "n0")] .u64 0, .reads [.key (b! "n1")] (.number (b! "0e10")), .reads [.key (b! "n2")] (.string (b! ".e10")), .reads [.key (b! "n3")] (.number (b! ".0e10")), .reads [.key (b! "n4")] (.number (b! "1.0e10")), .shows (b! "n0: 0\nn1: 0e10\nn2: .e10\nn3: .0e10\nn4: 1.0e10\n"), .writes (b! "n0: 0\nn1: 0e10\nn2: .e10\nn3: .0e10\nn4: 1.0e10\n")] = true := by decide +kernel
/-- tests/yaml-compare.rs, tests/yaml/value-with-e.yaml -/
example : passes (b! "# There was an issue where a lone e prefix would be considered numerical.\n# https://github.com/udoprog/nondestructive/pull/6\nvalue: [eb]\n")
    [.all [.key (b! "value")] [.string (b! "eb")], .shows (b! "# There was an issue where a lone e prefix would be considered numerical.\n# https://github.com/udoprog/nondestructive/pull/6\nvalue: [eb]\n"), .writes (b! "# There was an issue where a lone e prefix would be considered numerical.\n# https://github.com/udoprog/nondestructive/pull/6\nvalue: [eb]\n")] = true := by decide +kernel

end Verif.Conform
