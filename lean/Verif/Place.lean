import Verif.Grammar
/-
Specification: where the values of a document are in the text it was read from.  Nothing here is part of the Rust code.
-/
namespace Verif

/-- The number of characters between the last line break before the position and the position. -/
def columnAt (inp : Bytes) (n : Nat) : Nat := (chars ((inp.take n).reverse.takeWhile (· != NL)).reverse).length

/-- What a piece of a text in double quotes stands for.  `\\` stands for a double quote: see C52. -/
def Piece.reads (p : Piece) : Bytes := if p = .esc BSL then [DQ] else p.value

/-- The pieces that a text in double quotes can have. -/
def Piece.known (p : Piece) : Bool := p.ok || p == .esc BSL

/-- The text is a string in quotes.  A NUL byte ends it, too. -/
inductive InQuotes : Bytes → Bytes → Prop
  | single (s : Bytes) : InQuotes (quoteSingle s) s
  | double {ps : List Piece} {q : UInt8} : ps.all Piece.known = true → q = DQ ∨ q = 0 →
    InQuotes (DQ :: ps.flatMap Piece.text ++ [q]) (ps.flatMap Piece.reads)

/-- There is only white space up to the end of the line. -/
def lineEnds (rest : Bytes) : Bool := (rest.dropWhile isOtherWs).headD NL == NL

/-- A dash and white space: an item of a block sequence. -/
def dashes (s : Bytes) : Bool := s.headD 0 == DASH && isWs (s.tail.headD 0)

/-- The text `s` without quotes, with `rest` after it.  In an inline collection it goes to the next of `, : ] }` and NUL, else to the end of the line, and there is no
key in it and no dash before it. -/
def plainText (flow : Bool) (rest s : Bytes) : Bool :=
  !isIndicator (s.headD 0) && if flow then !s.any isCtl && isCtl (rest.headD 0) else !s.contains NL && noKeySep s && rest.headD NL == NL && !dashes (s ++ rest)

/-- The text with `rest` after it is read as a scalar (`flow`: in an inline collection).  Block scalars are not among these. -/
inductive Token (flow : Bool) (rest : Bytes) : Bytes → AnyV → Prop
  /-- A number is alone on its line; in an inline collection it only has to be as long as possible. -/
  | number {s : Bytes} : isNumber s = true → (if flow then isNumber (s ++ [rest.headD 0]) = false else lineEnds rest = true) → Token flow rest s (.number s)
  /-- Text does not start with a number that would be read as one. -/
  | plain {s : Bytes} : (∀ k, isNumber (s.take k) = true → flow = false ∧ lineEnds (s.drop k) = false) → plainText flow rest s = true →
    Token flow rest s (plainValue s)
  /-- A text in quotes with a colon after it is a key, except in an inline collection. -/
  | quoted {t s : Bytes} : InQuotes t s → (flow = false → rest.headD 0 ≠ COLON) → (t.headD 0 = SQ → rest.headD 0 ≠ SQ) → Token flow rest t (.string s)

/-- How values can be inspected. -/
structure View (α : Type) where
  scalar : α → AnyV → Prop
  seq : α → List α → Prop
  map : α → List (Bytes × α) → Prop

/-- The values of a document, inspected with the API. -/
def Data.view (d : Data) : View Nat := ⟨fun x a => asAny d x = .ok a, IsSeq d, IsMap d⟩

/-- At `p` there is a colon with white space, a NUL byte or nothing after it. -/
def KeyEnd (inp : Bytes) (p : Nat) : Prop := inp[p]? = some COLON ∧ (isWs (inp.getD (p + 1) 0) = true ∨ inp.getD (p + 1) 0 = 0)

/-- The first key of a block mapping, up to the colon at `q`.  It is in quotes, or text on one line up to the first colon that can end a key. -/
def FirstKey (inp : Bytes) (k : Bytes) (lo q : Nat) : Prop := lo ≤ q ∧ inp[q]? = some COLON ∧
  (InQuotes (slice inp lo q) k ∨
    slice inp lo q = k ∧ isIndicator (inp.getD lo 0) = false ∧ dashes (inp.drop lo) = false ∧ NL ∉ k ∧ KeyEnd inp q ∧ ∀ p, lo ≤ p → p < q → ¬ KeyEnd inp p)

/-- Another key of a block mapping, up to the colon at `q`, which is the next one. -/
def LaterKey (inp : Bytes) (k : Bytes) (lo q : Nat) : Prop := lo < q ∧ inp[q]? = some COLON ∧ slice inp lo q = k ∧ COLON ∉ k ∧ 0 ∉ k

/-- The start of an item of a block collection, from `lo` to `a`: a dash, or a key with a colon.  There is white space after the first dash. -/
def Head (inp : Bytes) (first : Bool) : Option Bytes → Nat → Nat → Prop
  | none, lo, a => inp[lo]? = some DASH ∧ (first = true → isWs (inp.getD (lo + 1) 0) = true) ∧ a = lo + 1
  | some k, lo, a => ∃ q, a = q + 1 ∧ if first then FirstKey inp k lo q else LaterKey inp k lo q

/-- Another item of a block collection (`m`: a mapping) in column `c` starts at `q`. -/
def Goes (inp : Bytes) (m : Bool) (c q : Nat) : Prop :=
  columnAt inp q = c ∧ if m then inp.getD q 0 ≠ COLON ∧ inp.getD q 0 ≠ 0 else inp[q]? = some DASH

/-- The start of an item of an inline collection: nothing, or a key up to the first colon or NUL byte. -/
def CellHead (inp : Bytes) : Option Bytes → Nat → Nat → Prop
  | none, lo, a => a = lo
  | some k, lo, a => ∃ q, lo ≤ q ∧ (inp[q]? = some COLON ∨ inp[q]? = some 0) ∧ a = q + 1 ∧ slice inp lo q = k ∧ COLON ∉ k ∧ 0 ∉ k

/-- The bracket at the end of an inline collection. -/
def close (m : Bool) : UInt8 := if m then RCB else RBR

/-- There is more at `p`: neither the bracket nor a NUL byte nor the end of the text. -/
def Opens (inp : Bytes) (m : Bool) (p : Nat) : Prop := inp.getD p 0 ≠ close m ∧ inp.getD p 0 ≠ 0

/-- From `a` to `b` there are white space and comments only.  A comment goes to the end of its line. -/
def Gap (inp : Bytes) (a b : Nat) : Prop := a ≤ b ∧ b ≤ inp.length ∧ (gap (slice inp a b) = true ∨ b = inp.length ∧ blank (slice inp a b) = true)

/-- Neither white space nor a comment goes on at `b`. -/
def FullGap (inp : Bytes) (a b : Nat) : Prop := Gap inp a b ∧ isWs (inp.getD b 0) = false ∧ inp.getD b 0 ≠ HASH

/-- The number of line breaks from `a` to `b`. -/
def breaksIn (inp : Bytes) (a b : Nat) : Nat := (slice inp a b).count NL

/-- The rest of a line is from `a` to `b`. -/
def LineAt (inp : Bytes) (a b : Nat) : Prop := a ≤ b ∧ NL ∉ slice inp a b ∧ (b = inp.length ∨ inp[b]? = some NL)

/-- The text without the white space around it. -/
def Trimmed (s core : Bytes) : Prop := ∃ l r : List Nat, (∀ w ∈ l ++ r, w ∈ whites) ∧ s = l.flatMap utf8 ++ (core ++ r.flatMap utf8) ∧
  ∀ w ∈ whites, ¬ utf8 w <+: core ∧ ¬ utf8 w <:+ core

/-- What is read between two lines of a block scalar with `n` line breaks between them: a space if it is folded. -/
def between (folded : Bool) (n : Nat) : Bytes := if folded then [SP] else List.replicate n NL

/-- The lines of a block scalar from `p` on.  They go on while there are lines in column `c` or further to the right.  `v` is what is read, `hi` the end of the last
line, `n` the number of line breaks after it.  If the text ends in column `c` or to the right of it, what is read is as if there were an empty line. -/
inductive BlockRows (inp : Bytes) (folded : Bool) (c : Nat) : Nat → Bytes → Nat → Nat → Prop
  | last {p e q : Nat} {t : Bytes} : p < inp.length → LineAt inp p e → Trimmed (slice inp p e) t → FullGap inp e q → columnAt inp q < c →
    BlockRows inp folded c p t e (breaksIn inp e q)
  | final {p e : Nat} {t : Bytes} : p < inp.length → LineAt inp p e → Trimmed (slice inp p e) t → FullGap inp e inp.length → c ≤ columnAt inp inp.length →
    BlockRows inp folded c p (t ++ between folded (breaksIn inp e inp.length)) e (breaksIn inp e inp.length)
  | more {p e q hi n : Nat} {t v : Bytes} : p < inp.length → LineAt inp p e → Trimmed (slice inp p e) t → FullGap inp e q → c ≤ columnAt inp q →
    BlockRows inp folded c q v hi n → BlockRows inp folded c p (t ++ between folded (breaksIn inp e q) ++ v) hi n

/-- The line breaks at the end of a block scalar. -/
def endBreaks (chomp : Chomp) (n : Nat) : Bytes := if chomp = .strip then [] else List.replicate n NL

/-- What follows the header of a block scalar at `h`: lines, of which the first gives the column; or nothing; or text on the line of the header, with or without
lines after it. -/
inductive BlockBody (inp : Bytes) (folded : Bool) (h : Nat) : Bytes → Nat → Nat → Prop
  | below {p hi n : Nat} {v : Bytes} : FullGap inp h p → 0 < breaksIn inp h p → BlockRows inp folded (columnAt inp p) p v hi n → BlockBody inp folded h v hi n
  | nothing : FullGap inp h inp.length → 0 < breaksIn inp h inp.length → BlockBody inp folded h [] h (breaksIn inp h inp.length)
  | beside {q e : Nat} {t : Bytes} : FullGap inp h q → breaksIn inp h q = 0 → LineAt inp h e → Trimmed (slice inp h e) t → FullGap inp e inp.length →
    BlockBody inp folded h t e (breaksIn inp e inp.length)
  | both {q e p hi n : Nat} {t v : Bytes} : FullGap inp h q → breaksIn inp h q = 0 → LineAt inp h e → Trimmed (slice inp h e) t → FullGap inp e p →
    BlockRows inp folded (columnAt inp p) p v hi n → BlockBody inp folded h (t ++ between folded 1 ++ v) hi n

/-- A block scalar that is read as `v` is at `lo` to `hi`. -/
def BlockAt (inp : Bytes) (lo : Nat) (v : Bytes) (hi : Nat) : Prop := ∃ (folded : Bool) (chomp : Chomp) (h n : Nat) (w : Bytes),
  lo < h ∧ h ≤ inp.length ∧ slice inp lo h = [if folded then GT else PIPE] ++ chomp.text ∧ (chomp = .clip → inp.getD h 0 ≠ DASH ∧ inp.getD h 0 ≠ 43) ∧
    BlockBody inp folded h w hi n ∧ v = w ++ endBreaks chomp n

/-- A block scalar starts at `p`. -/
def atBlock (inp : Bytes) (p : Nat) : Bool := inp.getD p 0 == GT || inp.getD p 0 == PIPE

/-- What follows an item of an inline collection that ends at `e` (`blk`: it is a block scalar).  It is a comma, or not, but then the next item is the last (`last`).
White space before the comma is fine in a mapping (`m`) and after a block scalar only.  The next item, or the bracket, is at `n`.  `start` is where the white space before
it starts; it is one byte further to the right after a block scalar in a sequence, and there `n` is directly after the comma. -/
def NextCell (inp : Bytes) (m blk : Bool) (e : Nat) (last : Bool) (start n : Nat) : Prop :=
  ∃ c, (if m || blk then FullGap inp e c else c = e) ∧
    (last = false ∧ inp[c]? = some COMMA ∧ (if blk && !m then start = e + 1 ∧ n = c + 1 else start = c + 1 ∧ FullGap inp (c + 1) n) ∨
      last = true ∧ inp[c]? ≠ some COMMA ∧ start = (if m then c else e) ∧ FullGap inp e n)

/-- Where a value can be: in an inline collection, as the value of a key in column `c` of a block mapping, or elsewhere (at the top or after a dash). -/
inductive Spot
  | flow | under (c : Nat) | block
deriving DecidableEq

def Spot.inline : Spot → Bool
  | .flow => true
  | _ => false

/-- The value of an item of a block collection in column `c` with the key `k`. -/
def Spot.item (c : Nat) (k : Option Bytes) : Spot := if k.isSome then .under c else .block

/-- A block mapping that is the value of a key is further to the right than the key. -/
def Spot.allows (s : Spot) (c : Nat) : Prop := s ≠ .flow ∧ ∀ c', s = .under c' → c' < c

mutual
/-- The value `x` is at `lo` to `hi` in the text. -/
inductive Sits {α : Type} (inp : Bytes) (V : View α) : Spot → α → Nat → Nat → Prop
  | scalar {s : Spot} {x : α} {a : AnyV} {lo hi : Nat} : V.scalar x a → lo ≤ hi → hi ≤ inp.length → Token s.inline (inp.drop hi) (slice inp lo hi) a →
    Sits inp V s x lo hi
  | lines {s : Spot} {x : α} {v : Bytes} {lo hi : Nat} : V.scalar x (.string v) → BlockAt inp lo v hi → Sits inp V s x lo hi
  /-- Double quotes that are not closed end with the text. -/
  | open {s : Spot} {x : α} {ps : List Piece} {lo : Nat} : V.scalar x (.string (ps.flatMap Piece.reads)) → lo ≤ inp.length → ps.all Piece.known = true →
    inp.drop lo = DQ :: ps.flatMap Piece.text → Sits inp V s x lo inp.length
  /-- The value of a key without a value.  Another key that is not further to the right follows. -/
  | empty {x : α} {k : Bytes} {c lo q : Nat} : V.scalar x .null → FirstKey inp k lo q → columnAt inp lo ≤ c → Sits inp V (.under c) x lo lo
  | dashes {s : Spot} {x : α} {l : List α} {lo hi : Nat} : V.seq x l → s ≠ .flow → Rows inp V (columnAt inp lo) true (l.map fun v => (none, v)) lo hi →
    Sits inp V s x lo hi
  | keys {s : Spot} {x : α} {l : List (Bytes × α)} {lo hi : Nat} : V.map x l → s.allows (columnAt inp lo) →
    Rows inp V (columnAt inp lo) true (l.map fun e => (some e.1, e.2)) lo hi → Sits inp V s x lo hi
  | brackets {s : Spot} {x : α} {l : List α} {lo n hi : Nat} : V.seq x l → inp[lo]? = some LBR → FullGap inp (lo + 1) n →
    Cells inp V false false (l.map fun v => (none, v)) n hi → Sits inp V s x lo (hi + 1)
  | braces {s : Spot} {x : α} {l : List (Bytes × α)} {lo n hi : Nat} : V.map x l → inp[lo]? = some LCB → FullGap inp (lo + 1) n →
    Cells inp V true false (l.map fun e => (some e.1, e.2)) n hi → Sits inp V s x lo (hi + 1)
/-- The items of a block collection, at least one, are at `lo` to `hi`; `first`: these are all of them.  They start in column `c`. -/
inductive Rows {α : Type} (inp : Bytes) (V : View α) : Nat → (first : Bool) → List (Option Bytes × α) → Nat → Nat → Prop
  | last {c : Nat} {first : Bool} {k : Option Bytes} {v : α} {lo a b hi q : Nat} : columnAt inp lo = c → Head inp first k lo a → FullGap inp a b →
    Sits inp V (.item c k) v b hi → FullGap inp hi q → ¬ Goes inp k.isSome c q → Rows inp V c first [(k, v)] lo hi
  | more {c : Nat} {first : Bool} {k : Option Bytes} {v : α} {rest : List (Option Bytes × α)} {lo a b e lo' hi : Nat} : columnAt inp lo = c →
    Head inp first k lo a → FullGap inp a b → Sits inp V (.item c k) v b e → FullGap inp e lo' → Rows inp V c false rest lo' hi →
    Rows inp V c first ((k, v) :: rest) lo hi
/-- The items of an inline collection (`m`: a mapping), from `n` up to the bracket at `hi`; `last`: there is at most one. -/
inductive Cells {α : Type} (inp : Bytes) (V : View α) : (m last : Bool) → List (Option Bytes × α) → Nat → Nat → Prop
  | none {m last : Bool} {hi : Nat} : inp[hi]? = some (close m) → Cells inp V m last [] hi hi
  | final {k : Option Bytes} {v : α} {n a b e hi : Nat} : Opens inp k.isSome n → CellHead inp k n a → FullGap inp a b → Sits inp V .flow v b e →
    FullGap inp e hi → inp[hi]? = some (close k.isSome) → Cells inp V k.isSome true [(k, v)] n hi
  | cell {k : Option Bytes} {v : α} {rest : List (Option Bytes × α)} {last : Bool} {n a b e start n' hi : Nat} : Opens inp k.isSome n → CellHead inp k n a →
    FullGap inp a b → Sits inp V .flow v b e → NextCell inp k.isSome (atBlock inp b) e last start n' → Cells inp V k.isSome last rest n' hi →
    Cells inp V k.isSome false ((k, v) :: rest) n hi
end

end Verif
