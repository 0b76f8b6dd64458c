import Verif.Types
/-
The scanning functions of `parsing.rs`.  The parser's position is an index into the
input.  `insert_str` is the identity here (see `Verif.Intern`), and the `scratch` buffer, which
is empty whenever no string is being read, is an accumulator.
-/
namespace Verif

/-- parsing.rs:166-173 `peek`: the byte at `n`, or the EOF byte 0 past the end. -/
def peekAt (inp : Bytes) (n : Nat) : UInt8 := (inp.drop n).headD 0

/-- parsing.rs:176-178 `bump`. -/
def bump (inp : Bytes) (n k : Nat) : Nat := min (n + k) inp.length

/-- `find(NEWLINE)`, parsing.rs:193-201, as the number of bytes passed. -/
def findNl : Bytes → Nat
  | [] => 0
  | b :: r => if b == NL then 0 else findNl r + 1

/-- parsing.rs:215-233 `ws_nl` on the remaining input: bytes consumed and newlines counted.
`true` means inside a comment, where the loop body calls `find(NEWLINE)`.  The `u32` newline
counter is a natural number here. -/
def wsGo : Bool → Bytes → Nat × Nat
  | _, [] => (0, 0)
  | true, b :: r =>
    if b == NL then let (k, m) := wsGo false r; (k + 1, m + 1)
    else let (k, m) := wsGo true r; (k + 1, m)
  | false, b :: r =>
    if b == HASH then let (k, m) := wsGo true r; (k + 1, m)
    else if b == NL then let (k, m) := wsGo false r; (k + 1, m + 1)
    else if isOtherWs b then let (k, m) := wsGo false r; (k + 1, m)
    else (0, 0)

/-- parsing.rs:215-233 `ws_nl`: position after the whitespace. -/
def wsEnd (inp : Bytes) (n : Nat) : Nat := n + (wsGo false (inp.drop n)).1

/-- parsing.rs:215-233 `ws_nl`: the newline count. -/
def wsNl (inp : Bytes) (n : Nat) : Nat := (wsGo false (inp.drop n)).2

/-- parsing.rs:236-238 `ws`: the whitespace text. -/
def wsStr (inp : Bytes) (n : Nat) : Bytes := slice inp n (wsEnd inp n)

/-- parsing.rs:241-259 `is_eol` on the remaining input. -/
def isEol : Bytes → Bool
  | [] => true
  | b :: r => if b == NL then true else if isOtherWs b then isEol r else false

/-- parsing.rs:275-296, the loop of `number`: bytes consumed, and whether the hint became
`F64`. -/
def numGo : (wantsDot wantsE hasNum : Bool) → Bytes → Nat × Bool
  | _, _, _, [] => (0, false)
  | wd, we, hn, b :: r =>
    if b == 46 && wd then let (k, _) := numGo false we hn r; (k + 1, true)
    else if (b == 101 || b == 69) && (hn && we) then let (k, _) := numGo false false hn r; (k + 1, true)
    else if isDigit b then let (k, fl) := numGo wd we true r; (k + 1, fl)
    else (0, false)

/-- parsing.rs:736-744 `indent_from`. -/
def indentFrom (inp : Bytes) (n : Nat) : Nat := countIndent (inp.take n)

/-- parsing.rs:322-334, the loop of `single_quoted`: bytes passed, and whether `''` was met.
Fuel-bounded because the Rust loop does not stop at the end of input. -/
def sqScan : Nat → Bytes → Nat → Except Stop (Nat × Bool)
  | 0, _, _ => .error .fuel
  | f + 1, rest, k =>
    if rest.headD 0 == SQ then .ok (k, rest.tail.headD 0 == SQ)
    else sqScan f rest.tail (k + if rest.isEmpty then 0 else 1)

/-- parsing.rs:347-361, the loop of `single_quoted_escaped`: content and bytes passed. -/
def sqEsc : Nat → Bytes → Bytes → Nat → Except Stop (Bytes × Nat)
  | 0, _, _, _ => .error .fuel
  | f + 1, rest, scratch, k =>
    if rest.headD 0 == SQ then
      if rest.tail.headD 0 == SQ then sqEsc f (rest.drop 2) (scratch ++ [SQ]) (k + 2)
      else .ok (scratch, k)
    else sqEsc f rest.tail (scratch ++ [rest.headD 0]) (k + if rest.isEmpty then 0 else 1)

/-- parsing.rs:317-341 `single_quoted` and 344-370 `single_quoted_escaped`, starting at the
opening quote at `n`: the string and the position after it. -/
def singleQuoted (fuel : Nat) (inp : Bytes) (n : Nat) : Except Stop (RStr × Nat) := do
  let start := bump inp n 1
  let (k, esc) ← sqScan fuel (inp.drop start) 0
  let m := start + k
  if esc then
    let (s, k2) ← sqEsc fuel (inp.drop m) (slice inp start m) 0
    let e := bump inp (m + k2) 1
    return (⟨.original, s, slice inp n e⟩, e)
  else
    let e := bump inp m (if m = inp.length then 0 else 1)
    return (⟨.original, slice inp start m, slice inp n e⟩, e)

/-- parsing.rs:378-388, the loop of `double_quoted`: bytes passed, and whether it stopped at
a backslash. -/
def dqScan : Bytes → Nat × Bool
  | [] => (0, false)
  | b :: r =>
    if b == DQ || b == 0 then (0, false)
    else if b == BSL then (0, true)
    else let (k, e) := dqScan r; (k + 1, e)

/-- parsing.rs:435-445: the single-character escapes. -/
def simpleEscape (b : UInt8) : Option UInt8 :=
  if b == 110 then some NL          -- n
  else if b == 48 then some 0       -- 0
  else if b == 97 then some 0x07    -- a
  else if b == 98 then some 0x08    -- b
  else if b == 116 then some 0x09   -- t
  else if b == 118 then some 0x0b   -- v
  else if b == 102 then some 0x0c   -- f
  else if b == 114 then some 13     -- r
  else if b == 101 then some 0x1b   -- e
  else if b == BSL then some DQ     -- `\\` yields a double quote (sic)
  else none

/-- parsing.rs:472-476: value of a hexadecimal digit. -/
def hexVal (b : UInt8) : Option Nat :=
  if 48 ≤ b && b ≤ 57 then some (b.toNat - 48)
  else if 97 ≤ b && b ≤ 102 then some (b.toNat - 97 + 10)
  else if 65 ≤ b && b ≤ 70 then some (b.toNat - 65 + 10)
  else none

/-- parsing.rs:466-491 `unescape_unicode`, from position `n`, `count` digits to go, `c` read so
far: the encoded character and the position after it. -/
def unescapeUnicode (inp : Bytes) (start : Nat) (err : ErrKind) : (count : Nat) → (n c : Nat) → Except Stop (Bytes × Nat)
  | 0, n, c =>
    -- `char::from_u32` fails exactly on surrogates here
    if 0xD800 ≤ c ∧ c ≤ 0xDFFF then .error (.err start n err) else .ok (encodeCp c, n)
  | count + 1, n, c =>
    match hexVal (peekAt inp n) with
    | some v => unescapeUnicode inp start err count (bump inp n 1) (c * 16 + v)
    | none => .error (.err start (bump inp n 1) err)

/-- parsing.rs:434-463 `unescape`: `start` is the backslash, `n` the byte after it. -/
def unescape (inp : Bytes) (start n : Nat) : Except Stop (Bytes × Nat) :=
  let b := peekAt inp n
  match simpleEscape b with
  | some x => .ok ([x], bump inp n 1)
  | none =>
    if b == 120 then unescapeUnicode inp start .badHexEscape 2 (bump inp n 1) 0
    else if b == 117 then unescapeUnicode inp start .badUnicodeEscape 4 (bump inp n 1) 0
    else .error (.err start (bump inp n 1) .badEscape)

/-- parsing.rs:405-418, the loop of `double_quoted_escaped`: content and end position. -/
def dqEsc (inp : Bytes) : Nat → Nat → Bytes → Except Stop (Bytes × Nat)
  | 0, _, _ => .error .fuel
  | f + 1, n, scratch =>
    let b := peekAt inp n
    if b == DQ || b == 0 then .ok (scratch, n)
    else if b == BSL then do
      let (s, m) ← unescape inp n (bump inp n 1)
      dqEsc inp f m (scratch ++ s)
    else dqEsc inp f (bump inp n 1) (scratch ++ [b])

/-- parsing.rs:373-399 `double_quoted` and 402-431 `double_quoted_escaped`. -/
def doubleQuoted (fuel : Nat) (inp : Bytes) (n : Nat) : Except Stop (RStr × Nat) := do
  let start := bump inp n 1
  let (k, esc) := dqScan (inp.drop start)
  let m := start + k
  if esc then
    let (s, m2) ← dqEsc inp fuel m (slice inp start m)
    let e := bump inp m2 1
    return (⟨.original, s, slice inp n e⟩, e)
  else
    let e := bump inp m (if m = inp.length then 0 else 1)
    return (⟨.original, slice inp start m, slice inp n e⟩, e)

/-- parsing.rs:747-766 `key_or_eol` on the remaining input: bytes passed, and whether a key
separator was found. -/
def keyGo : Bytes → Nat × Bool
  | [] => (0, false)
  | b :: r =>
    if b == NL then (0, false)
    else if b == COLON && (isWs (r.headD 0) || r.headD 0 == 0) then (0, true)
    else let (k, e) := keyGo r; (k + 1, e)

/-- parsing.rs:770-772 (`until_colon`) and 936-951 (`next_mapping_key`): bytes up to a colon or
the EOF byte. -/
def colonGo : Bytes → Nat
  | [] => 0
  | b :: r => if b == COLON || b == 0 then 0 else colonGo r + 1

/-- parsing.rs:898-900: bytes up to a control character. -/
def ctlGo : Bytes → Nat
  | [] => 0
  | b :: r => if isCtl b then 0 else ctlGo r + 1

/-- parsing.rs:769-780 `until_colon`: the key and the position of the colon, `none` at the end
of input. -/
def untilColon (inp : Bytes) (n : Nat) : Nat × Option RStr :=
  let m := n + colonGo (inp.drop n)
  if m = inp.length then (m, none)
  else let k := slice inp n m; (m, some ⟨.bare, k, k⟩)

/-- parsing.rs:933-955 `next_mapping_key`. -/
def nextMappingKey (inp : Bytes) (n : Nat) : Nat × Option RStr :=
  let m := n + colonGo (inp.drop n)
  let k := slice inp n m
  if k.isEmpty then (m, none) else (m, some ⟨.bare, k, k⟩)

/-- State of the loop in `block`. -/
structure BlockSt where
  n : Nat
  scratch : Bytes
  stop : Nat
  ws : Bytes
  nl : Nat

/-- parsing.rs:813-829, the loop of `block`. -/
def blockLoop (inp : Bytes) (indent : Nat) (join : UInt8) (folded : Bool) : Nat → BlockSt → Except Stop BlockSt
  | 0, _ => .error .fuel
  | f + 1, st =>
    if st.n = inp.length then .ok st
    else
      let e := st.n + findNl (inp.drop st.n)
      let scratch := st.scratch ++ trim (slice inp st.n e)
      let n := wsEnd inp e
      let nl := wsNl inp e
      let ws := wsStr inp e
      if indentFrom inp n < indent then .ok ⟨n, scratch, e, ws, nl⟩
      else blockLoop inp indent join folded f
        ⟨n, scratch ++ List.replicate (if folded then 1 else nl) join, e, ws, nl⟩

/-- parsing.rs:783-850 `block`: the string, the whitespace after it and the position. -/
def block (fuel : Nat) (inp : Bytes) (n : Nat) (hdr : Nat) (join : UInt8) (folded chomp clip : Bool) :
    Except Stop (RStr × Bytes × Nat) := do
  let start := bump inp n hdr
  let pre := slice inp n start
  let n1 := wsEnd inp start
  let nl1 := wsNl inp start
  let st : BlockSt :=
    if nl1 = 0 then
      let e := n1 + findNl (inp.drop n1)
      let out := trim (slice inp start e)
      let n2 := wsEnd inp e
      { n := n2, scratch := if n2 = inp.length then out else out ++ [join], stop := n2,
        ws := wsStr inp e, nl := wsNl inp e }
    else { n := n1, scratch := [], stop := n1, ws := wsStr inp start, nl := nl1 }
  let st ← blockLoop inp (indentFrom inp st.n) join folded fuel st
  let tail := if chomp then (if clip then List.replicate (min st.nl 1) NL else List.replicate st.nl NL) else []
  return (⟨.multiline pre, st.scratch ++ tail, slice inp start st.stop⟩, st.ws, st.n)

/-- Scalar values: the `Raw` cases the parser inserts as leaves. -/
inductive Scalar
  | null (n : RNull)
  | bool (value : Bool) (string : Bytes)
  | number (string : Bytes) (hint : Hint)
  | string (s : RStr)
deriving DecidableEq, Repr

/-- The `Raw` of a scalar. -/
def Scalar.toRaw : Scalar → Raw
  | .null n => .null n
  | .bool v s => .bool v s
  | .number s h => .number s h
  | .string s => .string s

/-- parsing.rs:908-921: what a plain (unquoted, non-numeric) text becomes. -/
def plainScalar (string : Bytes) : Scalar :=
  if string == b! "~" then .null .tilde
  else if eqIgnoreCase string (b! "null") then .null (.keyword string)
  else if eqIgnoreCase string (b! "true") then .bool true string
  else if eqIgnoreCase string (b! "false") then .bool false string
  else .string ⟨.bare, string, string⟩

/-- parsing.rs:262-308 `number`: the position reached, and the scalar if there is one. -/
def number (inp : Bytes) (tabular : Bool) (n : Nat) : Nat × Option Scalar :=
  let neg := peekAt inp n == DASH
  let m := if neg then bump inp n 1 else n
  let (k, fl) := numGo true true false (inp.drop m)
  let e := m + k
  if k = 0 then (e, none)
  else if tabular && !isEol (inp.drop e) then (e, none)
  else (e, some (.number (slice inp n e) (if fl then .f64 else if neg then .i64 else .u64)))

/-- How a value starts, with everything read that does not need recursion. -/
inductive Lead
  | seq
  | flowSeq
  | flowMap
  | key (key : RStr) (n : Nat)
  | scalar (s : Scalar) (ws : Option Bytes) (n : Nat)

/-- parsing.rs:853-926, the dispatch of `value` and its non-recursive branches; `seq`,
`flowSeq`, `flowMap` and `key` stand for the calls of `sequence`, `inline_sequence`,
`inline_mapping` and `mapping_or_nul` (with `start = n`). -/
def lead (fuel : Nat) (inp : Bytes) (inline tabular : Bool) (n : Nat) : Except Stop Lead := do
  let a := peekAt inp n
  let b := peekAt inp (n + 1)
  if a == DASH && isWs b && !inline then return .seq
  else if a == DQ then
    let (s, e) ← doubleQuoted fuel inp n
    if !inline && peekAt inp e == COLON then return .key s e
    else return .scalar (.string s) none e
  else if a == SQ then
    let (s, e) ← singleQuoted fuel inp n
    if !inline && peekAt inp e == COLON then return .key s e
    else return .scalar (.string s) none e
  else if a == LBR then return .flowSeq
  else if a == LCB then return .flowMap
  else if a == GT || a == PIPE then
    let (s, ws, e) ← block fuel inp n (if b == DASH || b == 43 then 2 else 1)
      (if a == GT then SP else NL) (a == GT) (b != DASH) (b == DASH)
    return .scalar (.string s) (some ws) e
  else
    match number inp tabular n with
    | (e, some s) => return .scalar s none e
    | (e, none) =>
      if inline then
        let m := e + ctlGo (inp.drop e)
        return .scalar (plainScalar (slice inp n m)) none m
      else
        let (k, found) := keyGo (inp.drop e)
        let m := e + k
        let text := slice inp n m
        if found then return .key ⟨.bare, text, text⟩ m
        else return .scalar (plainScalar text) none m

/-- parsing.rs:132-149, the loop of `start_of_document`: the prefix and the position. -/
def startLoop (inp : Bytes) : Nat → Nat → Bytes → Except Stop (Bytes × Nat)
  | 0, _, _ => .error .fuel
  | f + 1, n, pre =>
    if peekAt inp n == PCT then
      let e := n + findNl (inp.drop n)
      startLoop inp f (wsEnd inp e) (wsStr inp e)
    else if peekAt inp n == DASH && peekAt inp (n + 1) == DASH && peekAt inp (n + 2) == DASH then
      let e := bump inp n 3
      .ok (wsStr inp e, wsEnd inp e)
    else .ok (pre, n)

/-- parsing.rs:129-152 `start_of_document`. -/
def startOfDocument (fuel : Nat) (inp : Bytes) : Except Stop (Bytes × Nat) :=
  startLoop inp fuel (wsEnd inp 0) (wsStr inp 0)

end Verif
