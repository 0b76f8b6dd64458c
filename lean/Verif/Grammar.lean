import Verif.Num
import Verif.History
import Verif.Spec
import Verif.Utf8
import Verif.Quotes
/-
Specification: a grammar of documents and how they read.  Nothing here is part of the Rust code.
The texts are laid out as a person would write them; `Reads` uses the reading API only.
-/
namespace Verif

/-! ### Scalars -/

/-- Optional minus sign, digits, optional point and digits, optional `e` and digits (the last only after some digit); not empty. -/
def isNumber (s : Bytes) : Bool :=
  let s := if s.head? = some DASH then s.tail else s
  let a := s.takeWhile isDigit
  let r := s.dropWhile isDigit
  let dot := r.head? = some 46
  let b := if dot then r.tail.takeWhile isDigit else []
  let r := if dot then r.tail.dropWhile isDigit else r
  let e := (r.head? = some 101 ∨ r.head? = some 69) ∧ (a ≠ [] ∨ b ≠ [])
  let r := if e then r.tail.dropWhile isDigit else r
  decide (r = [] ∧ (a ≠ [] ∨ dot))

/-- What a plain text means. -/
def plainValue (s : Bytes) : AnyV :=
  if isNumber s then .number s
  else if s = b! "~" ∨ s.map lower = b! "null" then .null
  else if s.map lower = b! "true" then .bool true
  else if s.map lower = b! "false" then .bool false
  else .string s

/-- A piece of a text in double quotes: a byte, or an escape, which is a backslash with one letter, with `x` and two digits, or with `u` and four. -/
inductive Piece
  | byte (b : UInt8) | esc (c : UInt8) | hex (a b : UInt8) | uni (a b c d : UInt8)
deriving DecidableEq, Repr

def Piece.text : Piece → Bytes
  | .byte b => [b]
  | .esc c => [BSL, c]
  | .hex a b => BSL :: b! "x" ++ [a, b]
  | .uni a b c d => BSL :: b! "u" ++ [a, b, c, d]

/-- The characters that have an escape of one letter. -/
def letters : List (UInt8 × UInt8) :=
  (b! "0abtnvfre").zip [0, 7, 8, 9, 10, 11, 12, 13, 27]

/-- The value of a hexadecimal digit. -/
def digit16 (b : UInt8) : Option Nat := (b! "0123456789abcdef").idxOf? (lower b)

/-- The number written with hexadecimal digits. -/
def number16 : Bytes → Option Nat
  | [] => some 0
  | b :: r => do return (← digit16 b) * 16 ^ r.length + (← number16 r)

/-- The character with that number, if there is one. -/
def charOf (ds : Bytes) : Option Char := do
  let n ← number16 ds
  if n.isValidChar then some (Char.ofNat n) else none

def Piece.value : Piece → Bytes
  | .byte b => [b]
  | .esc c => (letters.lookup c).toList
  | .hex a b => ((charOf [a, b]).map String.utf8EncodeChar).getD []
  | .uni a b c d => ((charOf [a, b, c, d]).map String.utf8EncodeChar).getD []

/-- The escape is one of those above, and stands for a character. -/
def Piece.ok : Piece → Bool
  | .byte b => b != DQ && b != BSL && b != 0
  | .esc c => (letters.lookup c).isSome
  | .hex a b => (charOf [a, b]).isSome
  | .uni a b c d => (charOf [a, b, c, d]).isSome

/-- A scalar as it is written: plain, in single quotes or in double quotes, each given by its content; or in double quotes, given by its pieces. -/
inductive Atom
  | plain (s : Bytes) | single (s : Bytes) | double (s : Bytes) | pieces (ps : List Piece)
deriving DecidableEq, Repr

/-- In single quotes a quote is written twice, in double quotes control characters are escaped. -/
def Atom.text : Atom → Bytes
  | .plain s => s
  | .single s => quoteSingle s
  | .double s => quoteDouble s
  | .pieces ps => DQ :: ps.flatMap Piece.text ++ [DQ]

def Atom.value : Atom → AnyV
  | .plain s => plainValue s
  | .single s => .string s
  | .double s => .string s
  | .pieces ps => .string (ps.flatMap Piece.value)

/-- Bytes that make something other than a plain scalar when they come first. -/
def isIndicator (b : UInt8) : Bool := isWs b || b == HASH || b == DQ || b == SQ || b == LBR || b == LCB || b == GT || b == PIPE

/-- The text has no colon that is followed by white space, a NUL byte or the end. -/
def noKeySep : Bytes → Bool
  | [] => true
  | b :: r => !(b == COLON && (r.isEmpty || isWs (r.headD 0) || r.headD 0 == 0)) && noKeySep r

/-- Starts like the item of a sequence. -/
def dashed (s : Bytes) : Bool := s.head? == some DASH && (s.tail.isEmpty || isWs (s.tail.headD 0))

/-- A plain scalar outside of inline collections: one line, no key in it, no indicator or dash at its start, no white space at its end. -/
def plainBlock (s : Bytes) : Bool :=
  !s.isEmpty && !isIndicator (s.headD 0) && !dashed s && !s.contains NL && noKeySep s && !isWs (s.getLastD 0)

/-- A plain scalar in inline collections: no indicator at its start, none of `, : ] }` and NUL, no white space at its end, and starting like a number only
if it is one. -/
def plainFlow (s : Bytes) : Bool :=
  !s.isEmpty && !isIndicator (s.headD 0) && !s.any isCtl && !isWs (s.getLastD 0) &&
    (isNumber s || (let t := if s.head? = some DASH then s.tail else s; !isDigit (t.headD 0) && t.headD 0 != 46))

/-- The scalar can be written where it is (`inl`: in an inline collection). -/
def Atom.ok (inl : Bool) : Atom → Bool
  | .plain s => if inl then plainFlow s else plainBlock s
  | .single _ => true
  | .double s => !s.contains DQ && !s.contains BSL
  | .pieces ps => ps.all Piece.ok

/-! ### White space -/

/-- White space and comments, the last of which is ended by a line break; `true`: inside a comment. -/
def gapGo : Bool → Bytes → Bool
  | c, [] => !c
  | true, b :: r => gapGo (b != NL) r
  | false, b :: r => if b == HASH then gapGo true r else isWs b && gapGo false r

def gap (s : Bytes) : Bool := gapGo false s

/-! ### Inline collections -/

mutual
/-- A scalar or an inline collection: a mapping or a sequence. -/
inductive F
  | atom (a : Atom)
  | coll (m : Bool) (items : Fs)
/-- Items with the text before them, their key, the text after its colon, and their value.  In a sequence the keys and what is after them are ignored. -/
inductive Fs
  | nil
  | cons (pre : Bytes) (key : Bytes) (sep : Bytes) (v : F) (rest : Fs)
end

deriving instance DecidableEq, Repr for F, Fs

def Fs.isNil : Fs → Bool
  | .nil => true
  | .cons _ _ _ _ _ => false

mutual
/-- `[a, b]` and `{k: a, l: b}`. -/
def F.text : F → Bytes
  | .atom a => a.text
  | .coll m items => [if m then LCB else LBR] ++ items.text m ++ [if m then RCB else RBR]
def Fs.text (m : Bool) : Fs → Bytes
  | .nil => []
  | .cons pre key sep v rest => pre ++ (if m then key ++ [COLON] ++ sep else []) ++ v.text ++ (if rest.isNil then [] else [COMMA]) ++ rest.text m
end

/-- A key of an inline mapping: no colon or NUL, and not starting with white space, `#` or the closing brace. -/
def keyFlow (k : Bytes) : Bool :=
  !k.isEmpty && !k.contains COLON && !k.contains 0 && !isWs (k.headD 0) && k.headD 0 != HASH && k.headD 0 != RCB

mutual
def F.ok (inl : Bool) : F → Bool
  | .atom a => a.ok inl
  | .coll m items => items.ok m
def Fs.ok (m : Bool) : Fs → Bool
  | .nil => true
  | .cons pre key sep v rest => gap pre && validUtf8 pre && (!m || (keyFlow key && gap sep)) && v.ok true && rest.ok m
end

/-! ### Block scalars -/

/-- A block scalar: literal or folded, the indicator, what is on the line after it, how much further to the right than need be the lines are, the first line,
the other lines with the number of blank lines before them, and the number of line breaks after the last line. -/
structure Blk where
  folded : Bool
  chomp : Chomp
  note : Bytes
  more : Nat
  first : Bytes
  lines : List (Nat × Bytes)
  breaks : Nat
deriving DecidableEq, Repr

/-- The chomping indicator. -/
def Chomp.text : Chomp → Bytes
  | .strip => [DASH]
  | .clip => []
  | .keep => [43]

/-- Lines in column `w`. -/
def linesText (w : Nat) : List (Nat × Bytes) → Bytes
  | [] => []
  | (k, l) :: r => List.replicate (k + 1) NL ++ List.replicate w SP ++ l ++ linesText w r

/-- Text of a block scalar in a collection in column `c`, from the indicator to the end of the last line. -/
def Blk.text (c : Nat) (b : Blk) : Bytes :=
  [if b.folded then GT else PIPE] ++ b.chomp.text ++ b.note ++ linesText (c + 1 + b.more) ((0, b.first) :: b.lines)

/-- In literal scalars line breaks are kept, in folded ones they are spaces. -/
def linesValue (folded : Bool) : List (Nat × Bytes) → Bytes
  | [] => []
  | (k, l) :: r => (if folded then [SP] else List.replicate (k + 1) NL) ++ l ++ linesValue folded r

/-- The line breaks at the end: none, at most one or all of them. -/
def Chomp.final (breaks : Nat) : Chomp → Bytes
  | .strip => []
  | .clip => List.replicate (min breaks 1) NL
  | .keep => List.replicate breaks NL

def Blk.value (b : Blk) : Bytes := b.first ++ linesValue b.folded b.lines ++ b.chomp.final b.breaks

/-- The white space characters of Unicode. -/
def whites : List Nat := [9, 10, 11, 12, 13, 32, 0x85, 0xA0, 0x1680, 0x2000, 0x2001, 0x2002, 0x2003, 0x2004, 0x2005, 0x2006, 0x2007, 0x2008, 0x2009, 0x200A,
  0x2028, 0x2029, 0x202F, 0x205F, 0x3000]

/-- The bytes of a character. -/
def utf8 (n : Nat) : Bytes := String.utf8EncodeChar (Char.ofNat n)

/-- A line of a block scalar: not empty, no `#` at its start, and no Unicode white space at its start or end. -/
def blkLine (l : Bytes) : Bool :=
  !l.isEmpty && !l.contains NL && l.headD 0 != HASH && whites.all fun w => !(utf8 w).isPrefixOf l && !(utf8 w).isSuffixOf l

/-- There are no blank lines in folded scalars, and not more than one line break at the end unless the indicator says so. -/
def Blk.ok (b : Blk) : Bool :=
  blank b.note && !b.note.contains NL && (b.note.isEmpty || isWs (b.note.headD 0)) && blkLine b.first && b.lines.all (fun l => blkLine l.2 && (!b.folded || l.1 == 0)) &&
    (b.chomp != .clip || b.breaks ≤ 1)

/-- White space and comments after a block scalar, up to the start of a line or, in literal scalars, the end.  No comments unless the line breaks do not count. -/
def Blk.after (b : Blk) (s : Bytes) : Bool :=
  (if s.isEmpty then !b.folded else s.getLastD 0 == NL) && (b.chomp == .strip || (s.count NL == b.breaks && !s.contains HASH))

/-! ### Block collections -/

/-- Where a value is: on the line of its key or dash, after some spaces, or on a later line, after comments and blank lines, and that much further to the
right than the collection it is in; `none`: there is no value. -/
inductive Place
  | here (more : Nat) | below (g : Bytes) (more : Nat) | none
deriving DecidableEq, Repr

/-- The text before a value in a collection in column `c`. -/
def Place.sep (c : Nat) : Place → Bytes
  | .here n => List.replicate (n + 1) SP
  | .below g n => g ++ NL :: List.replicate (c + n) SP
  | .none => []

/-- The column of a block collection in a collection in column `c`; `here` after a dash. -/
def Place.col (c : Nat) : Place → Nat
  | .here n => c + 2 + n
  | .below _ n => c + n
  | .none => c

def Place.isHere : Place → Bool
  | .here _ => true
  | .below _ _ | .none => false

/-- `level`: the value may be as far to the left as the collection it is in. -/
def Place.ok (level : Bool) : Place → Bool
  | .here _ => true
  | .below g n => blank g && (g.isEmpty || isWs (g.headD 0)) && (level || 0 < n)
  | .none => false

mutual
/-- A value outside of inline collections; `hole`: nothing, which is null. -/
inductive Y
  | flow (f : F)
  | block (b : Blk)
  | hole
  | coll (m : Bool) (items : Ys)
/-- Items with the rest of the line and the lines before them, where their value is, their key and their value.  The text before the first item is ignored,
and so are the keys in sequences. -/
inductive Ys
  | nil
  | cons (before : Bytes) (place : Place) (key : Bytes) (v : Y) (rest : Ys)
end

deriving instance DecidableEq, Repr for Y, Ys

/-- The text before an item other than the first: the item is on a line of its own, in column `c`. -/
def newLine (c : Nat) (before : Bytes) : Bytes := before ++ NL :: List.replicate c SP

/-- The column that matters for the layout of a value in a collection in column `c`: that of a block collection is its own. -/
def Y.col (place : Place) (c : Nat) : Y → Nat
  | .coll _ _ => place.col c
  | _ => c

mutual
/-- Text of a value in column `c`. -/
def Y.text (c : Nat) : Y → Bytes
  | .flow f => f.text
  | .block b => b.text c
  | .hole => []
  | .coll m items => items.text m c true
def Ys.text (m : Bool) (c : Nat) (first : Bool) : Ys → Bytes
  | .nil => []
  | .cons before place key v rest => (if first then [] else newLine c before) ++ (if m then key ++ [COLON] else [DASH]) ++ place.sep c ++
      v.text (v.col place c) ++ rest.text m c false
end

/-- A key of a block mapping: one line, no colon or NUL, no indicator or dash at its start. -/
def keyBlock (k : Bytes) : Bool :=
  !k.isEmpty && !isIndicator (k.headD 0) && k.headD 0 != DASH && !k.contains NL && !k.contains COLON && !k.contains 0

def Ys.isNil : Ys → Bool
  | .nil => true
  | .cons _ _ _ _ _ => false

/-- Not a block collection. -/
def Y.isFlow : Y → Bool
  | .coll _ _ => false
  | _ => true

def Y.isHole : Y → Bool
  | .hole => true
  | _ => false

def Y.isSeq : Y → Bool
  | .coll false _ => true
  | _ => false

def F.isPlain : F → Bool
  | .atom (.plain _) => true
  | _ => false

mutual
/-- The value ends in a plain scalar or a line of a block scalar. -/
def Y.plainEnd : Y → Bool
  | .flow f => f.isPlain
  | .block _ => true
  | .hole => false
  | .coll _ items => items.plainEnd
def Ys.plainEnd : Ys → Bool
  | .nil => false
  | .cons _ _ _ v rest => if rest.isNil then v.plainEnd else rest.plainEnd
end

mutual
/-- The block scalar the value ends in. -/
def Y.endBlk : Y → Option Blk
  | .block b => some b
  | .coll _ items => items.endBlk
  | _ => none
def Ys.endBlk : Ys → Option Blk
  | .nil => none
  | .cons _ _ _ v rest => if rest.isNil then v.endBlk else rest.endBlk
end

/-- What may be after the block scalar the value ends in. -/
def Y.blkAfter (v : Y) (s : Bytes) : Bool :=
  match v.endBlk with
  | none => true
  | some b => b.after s

/-- White space and comments after a value, from the end of it on.  A plain scalar goes on to the end of its line, so there is nothing after it on the line;
`strict`: nor is there after any other value, and no key starts with `%` or has no value. -/
def afterOk (strict : Bool) (v : Y) (s : Bytes) : Bool := blank s && (s.isEmpty || s.headD 0 == NL || (!strict && !v.plainEnd))

def Ys.beforeOk (strict : Bool) (prev : Y) : Ys → Bool
  | .nil => true
  | .cons before _ _ _ _ => afterOk strict prev before && (validUtf8 before && prev.blkAfter (before ++ [NL]))

/-- A key may have no value if there is another key after it. -/
def Ys.holeOk (strict : Bool) (place : Place) (v : Y) (rest : Ys) : Bool :=
  !strict && v.isHole && place == .none &&
    match rest with
    | .nil => false
    | .cons before _ _ _ _ => before.isEmpty || isWs (before.headD 0)

mutual
/-- Block collections are not empty, are below their key, and further to the right, except that sequences may be in the same column as the key. -/
def Y.ok (strict : Bool) : Y → Bool
  | .flow f => f.ok false
  | .block b => b.ok
  | .hole => false
  | .coll m items => !items.isNil && items.ok strict m
def Ys.ok (strict : Bool) (m : Bool) : Ys → Bool
  | .nil => true
  | .cons _ place key v rest => (!m || (keyBlock key && (v.isFlow || !place.isHere) && (!strict || key.headD 0 != PCT))) &&
      ((m && Ys.holeOk strict place v rest) || (place.ok (v.isFlow || (m && v.isSeq)) && v.ok strict)) && rest.beforeOk strict v && rest.ok strict m
end

/-! ### Documents -/

/-- A document: blank lines, the value, and white space and comments after it. -/
structure Page where
  lead : Bytes
  col : Nat
  body : Y
  tail : Bytes
deriving DecidableEq, Repr

def Page.text (p : Page) : Bytes := p.lead ++ List.replicate p.col SP ++ p.body.text p.col ++ p.tail

/-- Blank lines and comments. -/
def leadOk (s : Bytes) : Bool := blank s && (s.isEmpty || s.getLastD 0 == NL)

/-- There is no directive or `---` at the start. -/
def Page.ok (strict : Bool) (p : Page) : Bool :=
  leadOk p.lead && p.body.ok strict && (afterOk strict p.body p.tail && p.body.blkAfter p.tail) && (p.body.text p.col).headD 0 != PCT && !(b! "---").isPrefixOf (p.body.text p.col)

/-! ### Reading -/

mutual
/-- What a document says, whatever its layout: a scalar, a mapping or a sequence. -/
inductive Content
  | scalar (a : AnyV)
  | map (es : Entries)
  | seq (es : Elems)
inductive Entries
  | nil
  | cons (key : Bytes) (v : Content) (rest : Entries)
inductive Elems
  | nil
  | cons (v : Content) (rest : Elems)
end

deriving instance DecidableEq, Repr for Content, Entries, Elems

/-- The value `x` is a mapping with the entries `l`. -/
def IsMap (d : Data) (x : Nat) (l : List (Bytes × Nat)) : Prop := asMapping d x = .ok (some x) ∧ mapEntries d x = .ok l
/-- The value `x` is a sequence of `l`. -/
def IsSeq (d : Data) (x : Nat) (l : List Nat) : Prop := asSequence d x = .ok (some x) ∧ seqValues d x = .ok l

def AnyV.isScalar : AnyV → Bool
  | .null | .bool _ | .number _ | .string _ => true
  | _ => false

mutual
/-- The value `x` says `v`, judging by `as_any` and the iterators. -/
def Reads (d : Data) (x : Nat) : Content → Prop
  | .scalar a => asAny d x = .ok a ∧ a.isScalar = true
  | .map es => ∃ l, IsMap d x l ∧ ReadsMap d l es
  | .seq es => ∃ l, IsSeq d x l ∧ ReadsSeq d l es
def ReadsMap (d : Data) (l : List (Bytes × Nat)) : Entries → Prop
  | .nil => l = []
  | .cons key v rest => ∃ x l', l = (key, x) :: l' ∧ Reads d x v ∧ ReadsMap d l' rest
def ReadsSeq (d : Data) (l : List Nat) : Elems → Prop
  | .nil => l = []
  | .cons v rest => ∃ x l', l = x :: l' ∧ Reads d x v ∧ ReadsSeq d l' rest
end

mutual
/-- What a text of the grammar says. -/
def F.val : F → Content
  | .atom a => .scalar a.value
  | .coll true items => .map items.entries
  | .coll false items => .seq items.elems
def Fs.entries : Fs → Entries
  | .nil => .nil
  | .cons _ key _ v rest => .cons key v.val rest.entries
def Fs.elems : Fs → Elems
  | .nil => .nil
  | .cons _ _ _ v rest => .cons v.val rest.elems
end

mutual
def Y.val : Y → Content
  | .flow f => f.val
  | .block b => .scalar (.string b.value)
  | .hole => .scalar .null
  | .coll true items => .map items.entries
  | .coll false items => .seq items.elems
def Ys.entries : Ys → Entries
  | .nil => .nil
  | .cons _ _ key v rest => .cons key v.val rest.entries
def Ys.elems : Ys → Elems
  | .nil => .nil
  | .cons _ _ _ v rest => .cons v.val rest.elems
end

/-! ### A sample -/

def samplePage : Page where
  lead := b! "# a sample\n\n"
  col := 1
  body := .coll true (.cons [] (.here 0) (b! "a") (.flow (.atom (.plain (b! "-12.5e3"))))
    (.cons (b! "\n # more") (.below (b! " # nested") 1) (b! "list of things") (.coll false
      (.cons [] (.here 1) [] (.coll true (.cons [] (.here 2) (b! "x") (.flow (.atom (.single (b! "it's"))))
        (.cons (b! " # quoted") (.here 0) (b! "y") (.flow (.atom (.plain (b! "NULL")))) .nil)))
      (.cons [] (.here 0) [] (.flow (.coll true (.cons (b! " ") (b! "k") (b! " ") (.coll false (.cons [] [] [] (.atom (.plain (b! "1")))
        (.cons (b! "\n") [] [] (.atom (.double (b! "p\tq"))) .nil))) (.cons (b! " ") (b! "l") [] (.coll false .nil) .nil))))
      (.cons [] (.below [] 1) [] (.coll false (.cons [] (.here 0) [] (.coll false (.cons [] (.here 0) [] (.flow (.atom (.plain (b! "http://x y")))) .nil))
        .nil)) .nil))))
    (.cons [] (.below [] 0) (b! "level") (.coll false (.cons [] (.here 0) [] (.flow (.atom (.plain (b! "~"))))
      (.cons [] (.here 0) [] (.block ⟨false, .keep, b! " # text", 1, b! "one", [(1, b! "- two"), (0, b! "three: 3")], 2⟩)
      (.cons (b! "\n") (.here 0) [] (.block ⟨true, .strip, [], 0, b! "x", [(0, b! "y")], 0⟩) .nil))))
    (.cons (b! "\n # a comment") .none (b! "none") .hole
    (.cons (b! " #") (.here 1) (b! "last") (.block ⟨false, .clip, [], 3, b! "end", [], 1⟩) .nil)))))
  tail := b! "\n"

set_option maxRecDepth 4000 in
example : samplePage.text = b! "# a sample\n\n a: -12.5e3\n # more\n list of things: # nested\n  -  x:   'it''s' # quoted\n     y: NULL\n  - { k: [1,\n\"p\\tq\"], l:[]}\n  -\n   - - http://x y\n level:\n - ~\n - |+ # text\n   one\n\n   - two\n   three: 3\n\n - >-\n  x\n  y\n # a comment\n none: #\n last:  |\n     end\n" := by decide
set_option maxRecDepth 4000 in
example : samplePage.ok false = true := by decide

end Verif
