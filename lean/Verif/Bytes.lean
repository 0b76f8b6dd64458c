/-
Bytes, byte classes and the part of `bstr`/UTF-8 the crate relies on.
-/
namespace Verif

/-- Byte strings (`&[u8]`, `BStr`, `Vec<u8>`). -/
abbrev Bytes := List UInt8

open Lean in
/-- `b! "abc"` is the list of the UTF-8 bytes of the literal.  A notation only: it
expands to a list of numerals when the file is read. -/
macro "b!" s:str : term => do
  let mut t ← `(([] : List UInt8))
  for b in s.getString.toUTF8.toList.reverse do
    t ← `(List.cons ($(Syntax.mkNumLit (toString b.toNat)) : UInt8) $t)
  return t

/-- `b'\n'`, raw.rs:15. -/
abbrev NL : UInt8 := 10
/-- `b' '`, raw.rs:17. -/
abbrev SP : UInt8 := 32
/-- `b'\''` -/
abbrev SQ : UInt8 := 39
/-- `b'"'` -/
abbrev DQ : UInt8 := 34
/-- `b'\\'` -/
abbrev BSL : UInt8 := 92
/-- `b':'` -/
abbrev COLON : UInt8 := 58
/-- `b','` -/
abbrev COMMA : UInt8 := 44
/-- `b'-'` -/
abbrev DASH : UInt8 := 45
/-- `b'#'` -/
abbrev HASH : UInt8 := 35
/-- `b'['` -/
abbrev LBR : UInt8 := 91
/-- `b']'` -/
abbrev RBR : UInt8 := 93
/-- `b'{'` -/
abbrev LCB : UInt8 := 123
/-- `b'}'` -/
abbrev RCB : UInt8 := 125
/-- `b'|'` -/
abbrev PIPE : UInt8 := 124
/-- `b'>'` -/
abbrev GT : UInt8 := 62
/-- `b'%'` -/
abbrev PCT : UInt8 := 37

/-- The `other_ws!` macro, parsing.rs:23-27: tab, form feed, carriage return, space. -/
def isOtherWs (b : UInt8) : Bool := b == 9 || b == 12 || b == 13 || b == SP
/-- The `ws!` macro, parsing.rs:29-33: `other_ws!` or newline. -/
def isWs (b : UInt8) : Bool := isOtherWs b || b == NL
/-- The `ctl!` macro, parsing.rs:16-20: `, : ] }` or the EOF byte. -/
def isCtl (b : UInt8) : Bool := b == COMMA || b == COLON || b == RBR || b == RCB || b == 0
/-- `b'0'..=b'9'` -/
def isDigit (b : UInt8) : Bool := 48 ≤ b && b ≤ 57

/-- ASCII lower case of one byte (for `eq_ignore_ascii_case`). -/
def lower (b : UInt8) : UInt8 := if 65 ≤ b && b ≤ 90 then b + 32 else b
/-- `<[u8]>::eq_ignore_ascii_case`. -/
def eqIgnoreCase (a b : Bytes) : Bool := a.map lower == b.map lower

/-- `input.get(a..b).unwrap_or_default()` for `b ≤ input.len()`. -/
def slice (inp : Bytes) (a b : Nat) : Bytes := (inp.drop a).take (b - a)

/-! ### UTF-8 decoding as done by `bstr` (third-party, see DESIGN.md §3) -/

/-- Continuation byte. -/
def isCont (b : UInt8) : Bool := 0x80 ≤ b && b ≤ 0xBF

/-- Number of bytes announced by a non-ASCII lead byte, 0 if it cannot lead. -/
def seqLen (b : UInt8) : Nat :=
  if 0xC2 ≤ b && b ≤ 0xDF then 2
  else if 0xE0 ≤ b && b ≤ 0xEF then 3
  else if 0xF0 ≤ b && b ≤ 0xF4 then 4
  else 0

/-- Allowed second bytes (Unicode table 3-7). -/
def secondOk (b0 b1 : UInt8) : Bool :=
  if b0 == 0xE0 then 0xA0 ≤ b1 && b1 ≤ 0xBF
  else if b0 == 0xED then 0x80 ≤ b1 && b1 ≤ 0x9F
  else if b0 == 0xF0 then 0x90 ≤ b1 && b1 ≤ 0xBF
  else if b0 == 0xF4 then 0x80 ≤ b1 && b1 ≤ 0x8F
  else isCont b1

/-- `bstr::decode_utf8` on a non-empty slice: whether a character was decoded, and how many
bytes it (or the maximal invalid subpart) takes. -/
def decodeHead : Bytes → Bool × Nat
  | [] => (false, 0)
  | b0 :: r =>
    if b0 < 0x80 then (true, 1) else
    match seqLen b0, r with
    | 0, _ => (false, 1)
    | _, [] => (false, 1)
    | 2, b1 :: _ => if secondOk b0 b1 then (true, 2) else (false, 1)
    | 3, b1 :: r2 =>
      if !secondOk b0 b1 then (false, 1) else
      match r2 with
      | [] => (false, 2)
      | b2 :: _ => if isCont b2 then (true, 3) else (false, 2)
    | _, b1 :: r2 =>
      if !secondOk b0 b1 then (false, 1) else
      match r2 with
      | [] => (false, 2)
      | b2 :: r3 =>
        if !isCont b2 then (false, 2) else
        match r3 with
        | [] => (false, 3)
        | b3 :: _ => if isCont b3 then (true, 4) else (false, 3)

/-- The UTF-8 encoding of U+FFFD. -/
def replacement : Bytes := [0xEF, 0xBF, 0xBD]

/-- `bstr`'s `chars()`: the decoded characters, each given by its UTF-8 encoding; an invalid
subpart yields U+FFFD.  `skip` counts bytes of the current character still to be passed. -/
def charsGo : Nat → Bytes → List Bytes
  | _, [] => []
  | skip + 1, _ :: r => charsGo skip r
  | 0, b :: r =>
    let (ok, len) := decodeHead (b :: r)
    (if ok then (b :: r).take len else replacement) :: charsGo (len - 1) r

/-- `ByteSlice::chars`. -/
def chars (s : Bytes) : List Bytes := charsGo 0 s

/-- What `Display` of a `BStr` writes: invalid subparts replaced by U+FFFD. -/
def lossy (s : Bytes) : Bytes := (chars s).flatten

/-- Whether every decoding step succeeds. -/
def validGo : Nat → Bytes → Bool
  | 0, [] => true
  | _ + 1, [] => true
  | skip + 1, _ :: r => validGo skip r
  | 0, b :: r => (decodeHead (b :: r)).1 && validGo ((decodeHead (b :: r)).2 - 1) r

/-- `ByteSlice::to_str` succeeds. -/
def validUtf8 (s : Bytes) : Bool := validGo 0 s

/-- Length of a Unicode `White_Space` character at the head, 0 if there is none. -/
def uniWsLen : Bytes → Nat
  | b0 :: r =>
    if (9 ≤ b0 && b0 ≤ 13) || b0 == 32 then 1 else
    match r with
    | b1 :: r2 =>
      if b0 == 0xC2 && (b1 == 0x85 || b1 == 0xA0) then 2 else
      match r2 with
      | b2 :: _ =>
        if (b0 == 0xE1 && b1 == 0x9A && b2 == 0x80)
          || (b0 == 0xE2 && b1 == 0x80 && ((0x80 ≤ b2 && b2 ≤ 0x8A) || b2 == 0xA8 || b2 == 0xA9 || b2 == 0xAF))
          || (b0 == 0xE2 && b1 == 0x81 && b2 == 0x9F)
          || (b0 == 0xE3 && b1 == 0x80 && b2 == 0x80) then 3 else 0
      | [] => 0
    | [] => 0
  | [] => 0

/-- Length of a Unicode `White_Space` character at the end; the argument is reversed. -/
def uniWsLenRev : Bytes → Nat
  | b0 :: r =>
    if (9 ≤ b0 && b0 ≤ 13) || b0 == 32 then 1 else
    match r with
    | b1 :: r2 =>
      if b1 == 0xC2 && (b0 == 0x85 || b0 == 0xA0) then 2 else
      match r2 with
      | b2 :: _ => if uniWsLen [b2, b1, b0] == 3 then 3 else 0
      | [] => 0
    | [] => 0
  | [] => 0

/-- `trim_start`; `skip` counts bytes of the current white-space character to be passed. -/
def trimGo (len : Bytes → Nat) : Nat → Bytes → Bytes
  | _, [] => []
  | skip + 1, _ :: r => trimGo len skip r
  | 0, b :: r => if len (b :: r) = 0 then b :: r else trimGo len (len (b :: r) - 1) r

/-- `ByteSlice::trim`. -/
def trim (s : Bytes) : Bytes :=
  (trimGo uniWsLenRev 0 (trimGo uniWsLen 0 s).reverse).reverse

/-- `char::encode_utf8` for a scalar value below 0x10000 (all the parser can produce). -/
def encodeCp (c : Nat) : Bytes :=
  if c < 0x80 then [UInt8.ofNat c]
  else if c < 0x800 then [UInt8.ofNat (0xC0 + c / 64), UInt8.ofNat (0x80 + c % 64)]
  else [UInt8.ofNat (0xE0 + c / 4096), UInt8.ofNat (0x80 + c / 64 % 64), UInt8.ofNat (0x80 + c % 64)]

/-- raw.rs:20-28 `indent`: the part after the last newline. -/
def lastLine (s : Bytes) : Bytes := (s.reverse.takeWhile (· != NL)).reverse

/-- raw.rs:31-33 `count_indent`: number of characters after the last newline. -/
def countIndent (s : Bytes) : Nat := (chars (lastLine s)).length

example : b! "aé" = [97, 0xC3, 0xA9] := rfl
example : lossy [97, 0xE2, 0x80, 98] = [97, 0xEF, 0xBF, 0xBD, 98] := by decide
example : trim (b! " \t a b \r") = b! "a b" := by decide
example : countIndent (b! "x\n é ") = 3 := by decide

end Verif
