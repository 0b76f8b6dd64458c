import Verif.Data
/-
`write_to` and `Display` of `raw.rs` and `document.rs`.
-/
namespace Verif

/-- Two lower-case hexadecimal digits (`{:02x}`). -/
def hex2 (b : UInt8) : Bytes :=
  let d (k : Nat) : UInt8 := if k < 10 then UInt8.ofNat (48 + k) else UInt8.ofNat (87 + k)
  [d (b.toNat / 16), d (b.toNat % 16)]

/-- raw.rs:620-639 (and 532-548) `escape_single_quoted` between the quotes: every quote is
doubled. -/
def escapeSingleBody : Bytes → Bytes
  | [] => []
  | b :: r => if b == SQ then SQ :: SQ :: escapeSingleBody r else b :: escapeSingleBody r

/-- raw.rs:620-639 `escape_single_quoted`. -/
def escapeSingle (s : Bytes) : Bytes := [SQ] ++ escapeSingleBody s ++ [SQ]

/-- raw.rs:651-671 (and 558-577): the escape of one byte, `none` if it is copied. -/
def escapeByte (b : UInt8) : Option Bytes :=
  if b == 0 then some (b! "\\0")
  else if b == 0x07 then some (b! "\\a")
  else if b == 0x08 then some (b! "\\b")
  else if b == 0x09 then some (b! "\\t")
  else if b == NL then some (b! "\\n")
  else if b == 0x0b then some (b! "\\v")
  else if b == 0x0c then some (b! "\\f")
  else if b == 13 then some (b! "\\r")
  else if b == 0x1b then some (b! "\\e")
  else if b == DQ then some (b! "\\\"")
  else if b < 0x20 || b == 0x7f then some (b! "\\x" ++ hex2 b)
  else none

/-- raw.rs:650-678, body of `escape_double_quoted` in `write_to`, byte by byte. -/
def escapeDoubleBody : Bytes → Bytes
  | [] => []
  | b :: r => (escapeByte b).getD [b] ++ escapeDoubleBody r

/-- raw.rs:643-681 `escape_double_quoted` in `write_to`. -/
def escapeDouble (s : Bytes) : Bytes := [DQ] ++ escapeDoubleBody s ++ [DQ]

/-- raw.rs:552-586 `escape_double_quoted` in `display`: the pieces between escapes go through
`Display` of a `BStr`; `cur` is the piece being collected. -/
def escapeDoubleDisplayGo : (cur : Bytes) → Bytes → Bytes
  | cur, [] => lossy cur
  | cur, b :: r =>
    match escapeByte b with
    | some e => lossy cur ++ e ++ escapeDoubleDisplayGo [] r
    | none => escapeDoubleDisplayGo (cur ++ [b]) r

/-- raw.rs:532-548 `escape_single_quoted` in `display`; `cur` is the piece being collected. -/
def escapeSingleDisplayGo : (cur : Bytes) → Bytes → Bytes
  | cur, [] => lossy cur
  | cur, b :: r =>
    if b == SQ then lossy cur ++ [SQ, SQ] ++ escapeSingleDisplayGo [] r
    else escapeSingleDisplayGo (cur ++ [b]) r

/-- raw.rs:614-705 `String::write_to`. -/
def RStr.write (s : RStr) : Bytes :=
  match s.kind with
  | .bare => s.id
  | .double => escapeDouble s.id
  | .single => escapeSingle s.id
  | .original => s.original
  | .multiline pre => pre ++ s.original

/-- raw.rs:529-612 `String::display`. -/
def RStr.display (s : RStr) : Bytes :=
  match s.kind with
  | .bare => lossy s.id
  | .double => [DQ] ++ escapeDoubleDisplayGo [] s.id ++ [DQ]
  | .single => [SQ] ++ escapeSingleDisplayGo [] s.id ++ [SQ]
  | .original => lossy s.original
  | .multiline pre => lossy pre ++ lossy s.original

/-- raw.rs:383-400 `Null::write_to`. -/
def RNull.write : RNull → Bytes
  | .keyword s => s
  | .tilde => b! "~"
  | .empty => []

/-- Between items of an inline collection (raw.rs:775-779, 812-816, 917-921, 950-954). -/
def sepOf (kind : CollKind) (last : Bool) : Bytes :=
  match kind with
  | .inline _ _ => if last then [] else [COMMA]
  | .block => []

/-- Opening bracket (raw.rs:760, 797, 906, 940). -/
def openOf (kind : CollKind) (c : UInt8) : Bytes :=
  match kind with
  | .inline _ _ => [c]
  | .block => []

/-- Closing part (raw.rs:819-826, 957-964): trailing comma, suffix, bracket. -/
def closeOf (kind : CollKind) (c : UInt8) : Bytes :=
  match kind with
  | .inline tr suffix => (if tr then [COMMA] else []) ++ suffix ++ [c]
  | .block => []

/-- As `closeOf` in `display` (raw.rs:782-788, 924-931). -/
def closeOfDisplay (kind : CollKind) (c : UInt8) : Bytes :=
  match kind with
  | .inline tr suffix => (if tr then [COMMA] else []) ++ lossy suffix ++ [c]
  | .block => []

/-- raw.rs:803-817, items of `Sequence::write_to`; `w` writes a value.  `write!("{}", prefix)`
goes through `Display`, hence `lossy`. -/
def writeSeqItems (w : Data → Raw → Except Stop Bytes) (d : Data) (kind : CollKind) : List Nat → Except Stop Bytes
  | [] => .ok []
  | i :: is => do
    let pre ← d.pre i
    let v ← d.sequenceItem i
    let vpre ← d.pre v
    let body ← w d (← d.raw v)
    let rest ← writeSeqItems w d kind is
    return lossy pre ++ (if kind = .block then [DASH] else []) ++ vpre ++ body ++ sepOf kind is.isEmpty ++ rest

/-- raw.rs:946-955, items of `Mapping::write_to`, and 986-995 `MappingItem::write_to`. -/
def writeMapItems (w : Data → Raw → Except Stop Bytes) (d : Data) (kind : CollKind) : List Nat → Except Stop Bytes
  | [] => .ok []
  | i :: is => do
    let pre ← d.pre i
    let (key, v) ← d.mappingItem i
    let vpre ← d.pre v
    let body ← w d (← d.raw v)
    let rest ← writeMapItems w d kind is
    return pre ++ key.write ++ [COLON] ++ vpre ++ body ++ sepOf kind is.isEmpty ++ rest

/-- raw.rs:277-309 `Raw::write_to`, with fuel for the nesting depth. -/
def writeRawF : Nat → Data → Raw → Except Stop Bytes
  | 0, _, _ => .error .fuel
  | f + 1, d, raw =>
    match raw with
    | .null n => .ok n.write
    | .bool _ s => .ok s
    | .number s _ => .ok s
    | .string s => .ok s.write
    | .mapping c => do
      let body ← writeMapItems (writeRawF f) d c.kind c.items
      return openOf c.kind LCB ++ body ++ closeOf c.kind RCB
    | .mappingItem key v => do
      let vpre ← d.pre v
      let body ← writeRawF f d (← d.raw v)
      return key.write ++ [COLON] ++ vpre ++ body
    | .sequence c => do
      let body ← writeSeqItems (writeRawF f) d c.kind c.items
      return openOf c.kind LBR ++ body ++ closeOf c.kind RBR
    | .sequenceItem v => do
      let vpre ← d.pre v
      let body ← writeRawF f d (← d.raw v)
      return vpre ++ body

/-- raw.rs:277-309 `Raw::write_to`. -/
def writeRaw (d : Data) (raw : Raw) : Except Stop Bytes := writeRawF d.fuel d raw

/-- document.rs:266-274 `Document::write_to` (into a writer that never fails). -/
def Document.write (doc : Document) : Except Stop Bytes := do
  let pre ← doc.data.pre doc.root
  let body ← writeRaw doc.data (← doc.data.raw doc.root)
  return pre ++ body ++ doc.suffix

/-- The optional prefix argument of `Raw::display` (raw.rs:225). -/
def dispPre (pre : Option Bytes) : Bytes :=
  match pre with
  | some p => lossy p
  | none => []

/-- raw.rs:764-780, items of `Sequence::display`, and 840-843. -/
def dispSeqItems (w : Data → Raw → Option Bytes → Except Stop Bytes) (d : Data) (kind : CollKind) :
    List Nat → Except Stop Bytes
  | [] => .ok []
  | i :: is => do
    let pre ← d.pre i
    let v ← d.sequenceItem i
    let body ← w d (← d.raw v) (some (← d.pre v))
    let rest ← dispSeqItems w d kind is
    return lossy pre ++ (if kind = .block then [DASH] else []) ++ body ++ sepOf kind is.isEmpty ++ rest

/-- raw.rs:910-922, items of `Mapping::display`, and 979-984 `MappingItem::display`. -/
def dispMapItems (w : Data → Raw → Option Bytes → Except Stop Bytes) (d : Data) (kind : CollKind) :
    List Nat → Except Stop Bytes
  | [] => .ok []
  | i :: is => do
    let pre ← d.pre i
    let (key, v) ← d.mappingItem i
    let body ← w d (← d.raw v) (some (← d.pre v))
    let rest ← dispMapItems w d kind is
    return lossy pre ++ key.display ++ [COLON] ++ body ++ sepOf kind is.isEmpty ++ rest

/-- Whether `Mapping::display`/`Sequence::display` writes the prefix (raw.rs:754, 900). -/
def showsPre (c : Coll) : Bool := c.kind != .block || !c.items.isEmpty

/-- raw.rs:221-275 `Raw::display`; the `Option<Id>` of the Rust code is only used to look
up the prefix, which is passed here.  Items are never displayed on their own. -/
def dispRawF : Nat → Data → Raw → Option Bytes → Except Stop Bytes
  | 0, _, _, _ => .error .fuel
  | f + 1, d, raw, pre =>
    match raw with
    | .null .empty => .ok []
    | .null .tilde => .ok (dispPre pre ++ b! "~")
    | .null (.keyword s) => .ok (dispPre pre ++ lossy s)
    | .bool _ s => .ok (dispPre pre ++ lossy s)
    | .number s _ => .ok (dispPre pre ++ lossy s)
    | .string s => .ok (dispPre pre ++ s.display)
    | .mapping c => do
      let body ← dispMapItems (dispRawF f) d c.kind c.items
      return (if showsPre c then dispPre pre else []) ++ openOf c.kind LCB ++ body ++ closeOfDisplay c.kind RCB
    | .mappingItem key v => do
      let body ← dispRawF f d (← d.raw v) (some (← d.pre v))
      return dispPre pre ++ key.display ++ [COLON] ++ body
    | .sequence c => do
      let body ← dispSeqItems (dispRawF f) d c.kind c.items
      return (if showsPre c then dispPre pre else []) ++ openOf c.kind LBR ++ body ++ closeOfDisplay c.kind RBR
    | .sequenceItem v => do
      let body ← dispRawF f d (← d.raw v) (some (← d.pre v))
      return dispPre pre ++ body

/-- document.rs:277-284 `Document::display` (what `to_string` returns). -/
def Document.display (doc : Document) : Except Stop Bytes := do
  let pre ← doc.data.pre doc.root
  let body ← dispRawF doc.data.fuel doc.data (← doc.data.raw doc.root) none
  return lossy pre ++ body ++ lossy doc.suffix

/-- value.rs:585-590 `Display for Value`. -/
def valueDisplay (d : Data) (id : Nat) : Except Stop Bytes := do
  dispRawF d.fuel d (← d.raw id) none

end Verif
