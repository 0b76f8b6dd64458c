import Verif.Data
/-
The editing API: `raw.rs` constructors, `value_mut.rs`, `mapping_mut.rs`, `sequence_mut.rs`.
`&str` arguments are byte strings.
-/
namespace Verif

/-! ### Constructors of raw values -/

/-- `char::is_control` (general category Cc) of a UTF-8 encoded character. -/
def isControlChar : Bytes → Bool
  | [b] => b < 0x20 || b == 0x7F
  | [b0, b1] => b0 == 0xC2 && 0x80 ≤ b1 && b1 ≤ 0x9F
  | _ => false

/-- raw.rs:487-505, the loop of `RawStringKind::detect`. -/
def detectGo : (first : Bool) → (kind : StrKind) → List Bytes → StrKind
  | _, kind, [] => kind
  | first, kind, c :: cs =>
    if first && (match c with | [b] => isDigit b | _ => false) then detectGo false .single cs
    else if c == [SQ] then .double
    else if c == [COLON] then detectGo false .single cs
    else if isControlChar c then .double
    else detectGo false kind cs

/-- raw.rs:479-508 `RawStringKind::detect`. -/
def detect (s : Bytes) : StrKind :=
  if s == b! "true" || s == b! "false" || s == b! "null" then .single
  else detectGo true .bare (chars s)

/-- raw.rs:36-39 `new_bool`. -/
def newBool (v : Bool) : Raw := .bool v (if v then b! "true" else b! "false")

/-- raw.rs:42-49 `new_string`. -/
def newString (s : Bytes) : Raw := .string ⟨detect s, s, s⟩

/-- raw.rs:120-132 `new_string_with`. -/
def newStringWith (s : Bytes) (kind : StringKind) : Raw :=
  .string ⟨match kind with | .bare => .bare | .single => .single | .double => .double, s, s⟩

/-- value.rs:27-33 `Chomp::as_byte`. -/
def Chomp.asByte : Chomp → Bytes
  | .strip => [DASH]
  | .clip => []
  | .keep => [43]

/-- raw.rs:160-161 and 165-170: the source text of a new block. -/
def blockText (mark : UInt8) (chomp : Chomp) (pre : Bytes) (indent : Nat) (lines : List Bytes) : Bytes :=
  mark :: chomp.asByte ++ lines.flatMap fun l => NL :: pre ++ List.replicate indent SP ++ l

/-- raw.rs:165-179: the content of a new block. -/
def blockContent (join : UInt8) (chomp : Chomp) : List Bytes → Bytes
  | [] => (match chomp with | .strip => [] | _ => [NL])
  | [l] => l ++ (match chomp with | .strip => [] | _ => [NL])
  | l :: ls => l ++ [join] ++ blockContent join chomp ls

/-- raw.rs:135-185 `new_block`. -/
def newBlock (d : Data) (id : Nat) (lines : List Bytes) (block : Block) : Except Stop Raw := do
  let e ← d.entry id
  let (indent, pre) :=
    match e.raw with
    | .mapping c => (c.indent + 2, [])
    | .sequence c => (c.indent + 2, [])
    | _ => (2, lastLine e.pre)
  match block with
  | .literal c => return .string ⟨.original, blockContent NL c lines, blockText PIPE c pre indent lines⟩
  | .folded c => return .string ⟨.original, blockContent SP c lines, blockText GT c pre indent lines⟩

/-- raw.rs:106-114: newline and `indent` characters, the first ones taken from `existing`. -/
def indentText (existing : List Bytes) (indent : Nat) : Bytes :=
  NL :: ((existing.take indent).flatten ++ List.replicate (indent - existing.length) SP)

/-- raw.rs:52-117 `make_indent`: indentation and prefix. -/
def makeIndent (d : Data) (id : Nat) (extra : Nat) : Except Stop (Nat × Bytes) := do
  let e ← d.entry id
  let container ← (match e.parent with
    | none => (return none : Except Stop (Option Entry))
    | some p => do
      match (← d.entry p).parent with
      | none => return none
      | some c => return some (← d.entry c))
  let other : Nat × Bytes :=
    (countIndent e.pre + extra, if extra = 0 then e.pre else e.pre ++ List.replicate extra SP)
  match container with
  | some ⟨.mapping c, cpre, _⟩ => return deeper c.indent cpre
  | some ⟨.sequence c, cpre, _⟩ =>
    if c.kind = .block then
      match e.parent with
      | some p =>
        let pe ← d.entry p
        match pe.raw with
        | .sequenceItem _ => return (countIndent pe.pre + 2 + extra, [SP])
        | _ => return deeper c.indent cpre
      | none => return deeper c.indent cpre
    else return deeper c.indent cpre
  | _ => return other
where
  /-- raw.rs:100-116 -/
  deeper (indent : Nat) (cpre : Bytes) : Nat × Bytes :=
    (indent + 2, indentText (chars (lastLine cpre)) (indent + 2))

/-! ### `ValueMut` -/

/-- value_mut.rs:389-397 `set_null`. -/
def setNull (d : Data) (id : Nat) (k : NullKind) : Except Stop Data :=
  d.replace id (.null (match k with | .keyword => .keyword (b! "null") | .tilde => .tilde | .empty => .empty))

/-- value_mut.rs:441-448 `set_string`. -/
def setString (d : Data) (id : Nat) (s : Bytes) : Except Stop Data := d.replace id (newString s)

/-- value_mut.rs:467-474 `set_string_with`. -/
def setStringWith (d : Data) (id : Nat) (s : Bytes) (k : StringKind) : Except Stop Data :=
  d.replace id (newStringWith s k)

/-- value_mut.rs:572-579 `set_block`. -/
def setBlock (d : Data) (id : Nat) (lines : List Bytes) (b : Block) : Except Stop Data := do
  d.replace id (← newBlock d id lines b)

/-- value_mut.rs:595-598 `set_bool`. -/
def setBool (d : Data) (id : Nat) (v : Bool) : Except Stop Data := d.replace id (newBool v)

/-- value_mut.rs:318-366, the `set_float!` and `set_number!` setters; the formatted text is a
parameter (for integers see `Verif.Num`). -/
def setNumber (d : Data) (id : Nat) (text : Bytes) (h : Hint) : Except Stop Data := d.replace id (.number text h)

/-- value_mut.rs:692-708 `make_mapping`. -/
def makeMapping (d : Data) (id : Nat) : Except Stop Data := do
  match ← d.raw id with
  | .mapping _ => return d
  | _ =>
    let (indent, pre) ← makeIndent d id 0
    d.replaceWith id pre (.mapping ⟨indent, .block, []⟩)

/-- value_mut.rs:758-774 `make_sequence`. -/
def makeSequence (d : Data) (id : Nat) : Except Stop Data := do
  match ← d.raw id with
  | .sequence _ => return d
  | _ =>
    let (indent, pre) ← makeIndent d id 0
    d.replaceWith id pre (.sequence ⟨indent, .block, []⟩)

/-! ### `MappingMut` -/

/-- raw.rs:311-322 `is_tabular`. -/
def Raw.isTabular : Raw → Bool
  | .sequence c => c.kind == .block
  | .mapping c => c.kind == .block
  | _ => false

/-- mapping_mut.rs:140-148 and sequence_mut.rs:94-102 `make_prefix`. -/
def makePrefix (indent : Nat) : Bytes := NL :: List.replicate indent SP

/-- The search of mapping_mut.rs:154-161, 317-325, 365-373, mapping.rs:196-204: value of the first
item whose key has the given content. -/
def findKey (d : Data) (key : Bytes) : List Nat → Except Stop (Option Nat)
  | [] => return none
  | i :: is => do
    let (k, v) ← d.mappingItem i
    if k.id == key then return some v else findKey d key is

/-- mapping_mut.rs:151-206 `inner_insert`. -/
def innerInsert (d : Data) (id : Nat) (key : Bytes) (sep : Separator) (value : Raw) : Except Stop (Nat × Data) := do
  let c ← d.mapping id
  match ← findKey d key c.items with
  | some v => return (v, ← d.replace v value)
  | none =>
    let itemPre := if c.items.isEmpty then [] else makePrefix c.indent
    let (itemId, d) ← d.insert (.null .empty) itemPre (some id)
    let valuePre ← (match sep with
      | .custom s => (return s : Except Stop Bytes)
      | .auto =>
        if value.isTabular then do
          let c ← d.mapping id
          match c.items.getLast? with
          | some last => d.pre (← d.mappingItem last).2
          | none => return NL :: List.replicate (c.indent + 1) SP
        else return [SP])
    let (v, d) ← d.insert value valuePre (some itemId)
    let d ← d.replace itemId (.mappingItem ⟨.bare, key, key⟩ v)
    let c ← d.mapping id
    let d ← d.setMappingItems id (c.items ++ [itemId])
    return (v, d)

/-- mapping_mut.rs:500-506 `insert`: a null value to be set through the returned handle. -/
def mapInsert (d : Data) (id : Nat) (key : Bytes) (sep : Separator) : Except Stop (Nat × Data) :=
  innerInsert d id key sep (.null .empty)

/-- mapping_mut.rs:534-541 `insert_str`. -/
def mapInsertStr (d : Data) (id : Nat) (key s : Bytes) : Except Stop (Nat × Data) :=
  innerInsert d id key .auto (newString s)

/-- mapping_mut.rs:652-660 `insert_block`. -/
def mapInsertBlock (d : Data) (id : Nat) (key : Bytes) (lines : List Bytes) (b : Block) : Except Stop (Nat × Data) := do
  innerInsert d id key .auto (← newBlock d id lines b)

/-- mapping_mut.rs:688-694 `insert_bool`. -/
def mapInsertBool (d : Data) (id : Nat) (key : Bytes) (v : Bool) : Except Stop (Nat × Data) :=
  innerInsert d id key .auto (newBool v)

/-- mapping_mut.rs:53-132, the numeric inserts. -/
def mapInsertNumber (d : Data) (id : Nat) (key text : Bytes) (h : Hint) : Except Stop (Nat × Data) :=
  innerInsert d id key .auto (.number text h)

/-- mapping_mut.rs:316-326 `get_mut` (and 364-374 `get_into_mut`): the value's id. -/
def mapGetMut (d : Data) (id : Nat) (key : Bytes) : Except Stop (Option Nat) := do
  findKey d key (← d.mapping id).items

/-- mapping_mut.rs:413-422: index of the first item with the key. -/
def findIndex (d : Data) (key : Bytes) : List Nat → Except Stop (Option Nat)
  | [] => return none
  | i :: is => do
    let (k, _) ← d.mappingItem i
    if k.id == key then return some 0 else return (← findIndex d key is).map (· + 1)

/-- mapping_mut.rs:412-431 `remove`. -/
def mapRemove (d : Data) (id : Nat) (key : Bytes) : Except Stop (Bool × Data) := do
  let c ← d.mapping id
  match ← findIndex d key c.items with
  | none => return (false, d)
  | some ix =>
    match c.items[ix]? with
    | none => .error .panic
    | some item =>
      let d ← d.setMappingItems id (c.items.eraseIdx ix)
      return (true, ← d.drop item)

/-- mapping_mut.rs:459-467 `clear`. -/
def mapClear (d : Data) (id : Nat) : Except Stop Data := do
  let c ← d.mapping id
  let d ← d.setMappingItems id []
  let d ← c.items.foldlM Data.drop d
  d.setMappingItems id []

/-! ### `SequenceMut` -/

/-- sequence_mut.rs:105-134 `inner_push`. -/
def innerPush (d : Data) (id : Nat) (sep : Separator) (value : Raw) : Except Stop (Nat × Data) := do
  let c ← d.sequence id
  let itemPre := if c.items.isEmpty then [] else makePrefix c.indent
  let (itemId, d) ← d.insert (.null .empty) itemPre (some id)
  let valuePre ← (match sep with
    | .custom s => (return s : Except Stop Bytes)
    | .auto => do
      let c ← d.sequence id
      match c.items.getLast? with
      | some last => d.pre (← d.sequenceItem last)
      | none => return [SP])
  let (v, d) ← d.insert value valuePre (some itemId)
  let d ← d.replace itemId (.sequenceItem v)
  let c ← d.sequence id
  let d ← d.setSequenceItems id (c.items ++ [itemId])
  return (v, d)

/-- sequence_mut.rs:393-396 `push`. -/
def seqPush (d : Data) (id : Nat) (sep : Separator) : Except Stop (Nat × Data) :=
  innerPush d id sep (.null .empty)

/-- sequence_mut.rs:425-431 `push_string`. -/
def seqPushStr (d : Data) (id : Nat) (s : Bytes) : Except Stop (Nat × Data) :=
  innerPush d id .auto (newString s)

/-- sequence_mut.rs:542-549 `push_block`. -/
def seqPushBlock (d : Data) (id : Nat) (lines : List Bytes) (b : Block) : Except Stop (Nat × Data) := do
  innerPush d id .auto (← newBlock d id lines b)

/-- sequence_mut.rs:578-581 `push_bool`. -/
def seqPushBool (d : Data) (id : Nat) (v : Bool) : Except Stop (Nat × Data) :=
  innerPush d id .auto (newBool v)

/-- sequence_mut.rs:13-86, the numeric pushes. -/
def seqPushNumber (d : Data) (id : Nat) (text : Bytes) (h : Hint) : Except Stop (Nat × Data) :=
  innerPush d id .auto (.number text h)

/-- sequence_mut.rs:231-238 `get_mut` (and 273-280): the value's id. -/
def seqGetMut (d : Data) (id ix : Nat) : Except Stop (Option Nat) := do
  match (← d.sequence id).items[ix]? with
  | some i => return some (← d.sequenceItem i)
  | none => return none

/-- sequence_mut.rs:316-326 `remove`. -/
def seqRemove (d : Data) (id ix : Nat) : Except Stop (Bool × Data) := do
  let c ← d.sequence id
  match c.items[ix]? with
  | none => return (false, d)
  | some item =>
    let d ← d.setSequenceItems id (c.items.eraseIdx ix)
    return (true, ← d.drop item)

/-- sequence_mut.rs:353-361 `clear`. -/
def seqClear (d : Data) (id : Nat) : Except Stop Data := do
  let c ← d.sequence id
  let d ← d.setSequenceItems id []
  let d ← c.items.foldlM Data.drop d
  d.setSequenceItems id []

end Verif
