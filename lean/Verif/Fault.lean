import Verif.Place
/-
Specification: what is wrong with a text that is refused.  Nothing here is part of the Rust code.
-/
namespace Verif

mutual
/-- The list of the entries. -/
def Entries.list : Entries → List (Bytes × Content)
  | .nil => []
  | .cons k v rest => (k, v) :: rest.list
/-- The list of the elements. -/
def Elems.list : Elems → List Content
  | .nil => []
  | .cons v rest => v :: rest.list
end

/-- What is read from a text that is not the text of a document: contents. -/
def contentView : View Content where
  scalar x a := x = .scalar a
  seq x l := ∃ es, x = .seq es ∧ l = es.list
  map x l := ∃ es, x = .map es ∧ l = es.list

/-- At `p` there is the end of the text or a NUL byte. -/
def Nothing (inp : Bytes) (p : Nat) : Prop := p = inp.length ∨ inp[p]? = some 0

/-- What is after the backslash at `start` is not an escape; this is clear before `stop`. -/
inductive BadEscape (inp : Bytes) (start : Nat) : Nat → ErrKind → Prop
  | letter : inp.getD (start + 1) 0 ∉ b! "0abtnvfrexu\\" → BadEscape inp start (min (start + 2) inp.length) .badEscape
  | hex {k : Nat} : inp[start + 1]? = some 120 → k < 2 → (∀ i < k, digit16 (inp.getD (start + 2 + i) 0) ≠ none) → digit16 (inp.getD (start + 2 + k) 0) = none →
    BadEscape inp start (min (start + 3 + k) inp.length) .badHexEscape
  | uni {k : Nat} : inp[start + 1]? = some 117 → k < 4 → (∀ i < k, digit16 (inp.getD (start + 2 + i) 0) ≠ none) → digit16 (inp.getD (start + 2 + k) 0) = none →
    BadEscape inp start (min (start + 3 + k) inp.length) .badUnicodeEscape
  /-- Four digits that do not stand for a character. -/
  | half {v : Nat} : inp[start + 1]? = some 117 → start + 6 ≤ inp.length → number16 (slice inp (start + 2) (start + 6)) = some v → ¬ v.isValidChar →
    BadEscape inp start (start + 6) .badUnicodeEscape

/-- The errors for a missing bracket. -/
def terminator (m : Bool) : ErrKind := if m then .badMappingTerminator else .badSequenceTerminator

mutual
/-- There is no value at `lo`, because of what is at `start` to `stop`.  Up to there the text is as it should be. -/
inductive Broken (inp : Bytes) : Spot → (lo start stop : Nat) → ErrKind → Prop
  | escape {s : Spot} {lo stop : Nat} {k : ErrKind} {ps : List Piece} {rest : Bytes} : ps.all Piece.known = true →
    inp.drop lo = DQ :: ps.flatMap Piece.text ++ BSL :: rest → BadEscape inp (lo + 1 + (ps.flatMap Piece.text).length) stop k →
    Broken inp s lo (lo + 1 + (ps.flatMap Piece.text).length) stop k
  | dashes {s : Spot} {lo start stop : Nat} {k : ErrKind} : s ≠ .flow → BrokenRows inp (columnAt inp lo) true false lo start stop k → Broken inp s lo start stop k
  | keys {s : Spot} {lo start stop : Nat} {k : ErrKind} : s.allows (columnAt inp lo) → BrokenRows inp (columnAt inp lo) true true lo start stop k →
    Broken inp s lo start stop k
  | brackets {s : Spot} {lo n start stop : Nat} {k : ErrKind} : inp[lo]? = some LBR → FullGap inp (lo + 1) n →
    BrokenCells inp false false (lo + 1) n start stop k → Broken inp s lo start stop k
  | braces {s : Spot} {lo n start stop : Nat} {k : ErrKind} : inp[lo]? = some LCB → FullGap inp (lo + 1) n →
    BrokenCells inp true false (lo + 1) n start stop k → Broken inp s lo start stop k
/-- The same for the items of a block collection in column `c`; `m`: a mapping. -/
inductive BrokenRows (inp : Bytes) : Nat → (first m : Bool) → (lo start stop : Nat) → ErrKind → Prop
  | inside {c : Nat} {first : Bool} {key : Option Bytes} {lo a b start stop : Nat} {k : ErrKind} : columnAt inp lo = c → Head inp first key lo a →
    FullGap inp a b → Broken inp (.item c key) b start stop k → BrokenRows inp c first key.isSome lo start stop k
  | later {c : Nat} {first : Bool} {key : Option Bytes} {v : Content} {lo a b e lo' start stop : Nat} {k : ErrKind} : columnAt inp lo = c →
    Head inp first key lo a → FullGap inp a b → Sits inp contentView (.item c key) v b e → FullGap inp e lo' →
    BrokenRows inp c false key.isSome lo' start stop k → BrokenRows inp c first key.isSome lo start stop k
  /-- There is no colon after a key. -/
  | colon {c lo q : Nat} : columnAt inp lo = c → lo < q → q ≤ inp.length → COLON ∉ slice inp lo q → 0 ∉ slice inp lo q → Nothing inp q →
    BrokenRows inp c false true lo lo (min (q + 1) inp.length) .badMappingSeparator
/-- The same for the items of an inline collection at `n`; `last`: there must not be more than one; `from_`: see `NextCell`. -/
inductive BrokenCells (inp : Bytes) : (m last : Bool) → (from_ n start stop : Nat) → ErrKind → Prop
  | inside {last : Bool} {key : Option Bytes} {from_ n a b start stop : Nat} {k : ErrKind} : Opens inp key.isSome n → CellHead inp key n a → FullGap inp a b →
    Broken inp .flow b start stop k → BrokenCells inp key.isSome last from_ n start stop k
  | later {last : Bool} {key : Option Bytes} {v : Content} {from_ n a b e from' n' start stop : Nat} {k : ErrKind} : Opens inp key.isSome n →
    CellHead inp key n a → FullGap inp a b → Sits inp contentView .flow v b e → NextCell inp key.isSome (atBlock inp b) e last from' n' →
    BrokenCells inp key.isSome last from' n' start stop k → BrokenCells inp key.isSome false from_ n start stop k
  /-- There is no colon after a key. -/
  | colon {last : Bool} {from_ n : Nat} : Opens inp true n → COLON ∉ inp.drop n → 0 ∉ inp.drop n →
    BrokenCells inp true last from_ n from_ inp.length .badMappingSeparator
  /-- The text ends. -/
  | none {m last : Bool} {from_ n : Nat} : Nothing inp n → BrokenCells inp m last from_ n from_ n (terminator m)
  /-- Something other than the bracket is after the last item. -/
  | other {key : Option Bytes} {v : Content} {from_ n a b e stop : Nat} : Opens inp key.isSome n → CellHead inp key n a → FullGap inp a b →
    Sits inp contentView .flow v b e → FullGap inp e stop → inp[stop]? ≠ some (close key.isSome) →
    BrokenCells inp key.isSome true from_ n (if key.isSome then from_ else e) stop (terminator key.isSome)
end

/-- At `lo` there is a single quote that is not closed: whatever could be in quotes is followed by another quote. -/
def Unclosed (inp : Bytes) (lo : Nat) : Prop := inp[lo]? = some SQ ∧ ∀ s hi, slice inp lo hi = quoteSingle s → inp[hi]? = some SQ

mutual
/-- The value at `lo` starts with a single quote that is not closed, or has a value inside that does; up to there the text is as it should be. -/
inductive Stuck (inp : Bytes) : Spot → Nat → Prop
  | quote {s : Spot} {lo : Nat} : Unclosed inp lo → Stuck inp s lo
  | dashes {s : Spot} {lo : Nat} : s ≠ .flow → StuckRows inp (columnAt inp lo) true false lo → Stuck inp s lo
  | keys {s : Spot} {lo : Nat} : s.allows (columnAt inp lo) → StuckRows inp (columnAt inp lo) true true lo → Stuck inp s lo
  | brackets {s : Spot} {lo n : Nat} : inp[lo]? = some LBR → FullGap inp (lo + 1) n → StuckCells inp false false n → Stuck inp s lo
  | braces {s : Spot} {lo n : Nat} : inp[lo]? = some LCB → FullGap inp (lo + 1) n → StuckCells inp true false n → Stuck inp s lo
/-- The same for the items of a block collection in column `c`; `m`: a mapping. -/
inductive StuckRows (inp : Bytes) : Nat → (first m : Bool) → Nat → Prop
  | inside {c : Nat} {first : Bool} {key : Option Bytes} {lo a b : Nat} : columnAt inp lo = c → Head inp first key lo a → FullGap inp a b →
    Stuck inp (.item c key) b → StuckRows inp c first key.isSome lo
  | later {c : Nat} {first : Bool} {key : Option Bytes} {v : Content} {lo a b e lo' : Nat} : columnAt inp lo = c → Head inp first key lo a → FullGap inp a b →
    Sits inp contentView (.item c key) v b e → FullGap inp e lo' → StuckRows inp c false key.isSome lo' → StuckRows inp c first key.isSome lo
/-- The same for the items of an inline collection at `n`; `last`: there must not be more than one. -/
inductive StuckCells (inp : Bytes) : (m last : Bool) → Nat → Prop
  | inside {last : Bool} {key : Option Bytes} {n a b : Nat} : Opens inp key.isSome n → CellHead inp key n a → FullGap inp a b → Stuck inp .flow b →
    StuckCells inp key.isSome last n
  | later {last : Bool} {key : Option Bytes} {v : Content} {n a b e from' n' : Nat} : Opens inp key.isSome n → CellHead inp key n a → FullGap inp a b →
    Sits inp contentView .flow v b e → NextCell inp key.isSome (atBlock inp b) e last from' n' → StuckCells inp key.isSome last n' →
    StuckCells inp key.isSome false n
end

/-- The text has the content `c`. -/
def Accepts (inp : Bytes) (c : Content) : Prop := ∃ lo hi, lo ≤ inp.length ∧ inp.drop lo = skipBlank false (body inp) ∧
  Sits inp contentView .block c lo hi ∧ FullGap inp hi inp.length

/-- What is at `start` to `stop` is not as it should be: there is no value, or something follows it. -/
def Refuses (inp : Bytes) (start stop : Nat) (k : ErrKind) : Prop := ∃ lo, lo ≤ inp.length ∧ inp.drop lo = skipBlank false (body inp) ∧
  (Broken inp .block lo start stop k ∨
    ∃ c hi, Sits inp contentView .block c lo hi ∧ FullGap inp hi start ∧ start < inp.length ∧ stop = inp.length ∧ k = .expectedEof)

/-- The text has a value that starts with a single quote that is not closed; up to there it is as it should be. -/
def Hangs (inp : Bytes) : Prop := ∃ lo, lo ≤ inp.length ∧ inp.drop lo = skipBlank false (body inp) ∧ Stuck inp .block lo

end Verif
