import Verif.Place
/-
Specification: what is written for the values of a text that was read and not changed.  Nothing here is part of the Rust code.
-/
namespace Verif

/-- Of the block scalar at `lo` there is only one line: the one of its header. -/
def OneLine (inp : Bytes) (lo : Nat) : Prop := ∃ e, LineAt inp lo e ∧ FullGap inp e inp.length

/-- White space and comments as they are written before an item of a collection (`m`: a mapping).  In a sequence what is not UTF-8 becomes replacement characters. -/
def itemSpace (m : Bool) (s : Bytes) : Bytes := if m then s else lossy s

/-- The key of an item of an inline collection that starts at `n`, with the colon.  The colon is written for a NUL byte, too. -/
def cellKey (inp : Bytes) (m : Bool) (n a : Nat) : Bytes := if m then slice inp n (a - 1) ++ [COLON] else []

/-- The white space and comments that are written after an item of an inline collection and the comma.  After a block scalar in a sequence it is what is before the comma. -/
def cellSpace (inp : Bytes) (m blk last : Bool) (e start n : Nat) : Bytes := if blk && !m && !last then slice inp e (n - 1) else slice inp start n

mutual
/-- For the value that follows the white space and comments at `a`, these are written with it: `out`.  What follows is at `hi`. -/
inductive Writes (inp : Bytes) : Spot → Nat → Bytes → Nat → Prop
  | scalar {s : Spot} {v : AnyV} {a lo hi : Nat} : FullGap inp a lo → lo ≤ hi → hi ≤ inp.length → Token s.inline (inp.drop hi) (slice inp lo hi) v →
    Writes inp s a (slice inp a hi) hi
  | open {s : Spot} {ps : List Piece} {a lo : Nat} : FullGap inp a lo → ps.all Piece.known = true → inp.drop lo = DQ :: ps.flatMap Piece.text →
    Writes inp s a (slice inp a inp.length) inp.length
  | lines {s : Spot} {v : Bytes} {a lo hi : Nat} : FullGap inp a lo → BlockAt inp lo v hi → ¬ OneLine inp lo → Writes inp s a (slice inp a hi) hi
  /-- What follows is written twice. -/
  | line {s : Spot} {v : Bytes} {a lo hi : Nat} : FullGap inp a lo → BlockAt inp lo v hi → OneLine inp lo → Writes inp s a (slice inp a inp.length) hi
  /-- The white space belongs to what follows. -/
  | empty {k : Bytes} {c a lo q : Nat} : FullGap inp a lo → FirstKey inp k lo q → columnAt inp lo ≤ c → Writes inp (.under c) a [] a
  | dashes {s : Spot} {a lo hi : Nat} {out : Bytes} : FullGap inp a lo → s ≠ .flow → WritesRows inp false (columnAt inp lo) true lo out hi →
    Writes inp s a (slice inp a lo ++ out) hi
  | keys {s : Spot} {a lo hi : Nat} {out : Bytes} : FullGap inp a lo → s.allows (columnAt inp lo) → WritesRows inp true (columnAt inp lo) true lo out hi →
    Writes inp s a (slice inp a lo ++ out) hi
  | brackets {s : Spot} {a lo n hi : Nat} {out : Bytes} : FullGap inp a lo → inp[lo]? = some LBR → FullGap inp (lo + 1) n →
    WritesCells inp false false (slice inp (lo + 1) n) n out hi → Writes inp s a (slice inp a lo ++ [LBR] ++ out ++ [RBR]) (hi + 1)
  | braces {s : Spot} {a lo n hi : Nat} {out : Bytes} : FullGap inp a lo → inp[lo]? = some LCB → FullGap inp (lo + 1) n →
    WritesCells inp true false (slice inp (lo + 1) n) n out hi → Writes inp s a (slice inp a lo ++ [LCB] ++ out ++ [RCB]) (hi + 1)
/-- For the items of a block collection at `lo`, without the white space before the first. -/
inductive WritesRows (inp : Bytes) : (m : Bool) → Nat → (first : Bool) → Nat → Bytes → Nat → Prop
  | last {k : Option Bytes} {c : Nat} {first : Bool} {lo a hi q : Nat} {v : Bytes} : columnAt inp lo = c → Head inp first k lo a → Writes inp (.item c k) a v hi →
    FullGap inp hi q → ¬ Goes inp k.isSome c q → WritesRows inp k.isSome c first lo (slice inp lo a ++ v) hi
  | more {k : Option Bytes} {c : Nat} {first : Bool} {lo a e lo' hi : Nat} {v out : Bytes} : columnAt inp lo = c → Head inp first k lo a → Writes inp (.item c k) a v e →
    FullGap inp e lo' → WritesRows inp k.isSome c false lo' out hi →
    WritesRows inp k.isSome c first lo (slice inp lo a ++ v ++ itemSpace k.isSome (slice inp e lo') ++ out) hi
/-- For the items of an inline collection at `n`, and the white space and comments before the bracket.  Before the first item there is `w`. -/
inductive WritesCells (inp : Bytes) : (m last : Bool) → (w : Bytes) → Nat → Bytes → Nat → Prop
  | none {m last : Bool} {w : Bytes} {hi : Nat} : inp[hi]? = some (close m) → WritesCells inp m last w hi w hi
  | final {k : Option Bytes} {w v : Bytes} {n a e hi : Nat} : Opens inp k.isSome n → CellHead inp k n a → Writes inp .flow a v e → FullGap inp e hi →
    inp[hi]? = some (close k.isSome) →
    WritesCells inp k.isSome true w n (itemSpace k.isSome w ++ cellKey inp k.isSome n a ++ v ++ slice inp e hi) hi
  /-- A comma is written between two items even if there is none. -/
  | cell {k : Option Bytes} {last : Bool} {w v out : Bytes} {n a b e start n' hi : Nat} : Opens inp k.isSome n → CellHead inp k n a → FullGap inp a b →
    Writes inp .flow a v e → NextCell inp k.isSome (atBlock inp b) e last start n' →
    WritesCells inp k.isSome last (cellSpace inp k.isSome (atBlock inp b) last e start n') n' out hi →
    WritesCells inp k.isSome false w n
      (itemSpace k.isSome w ++ cellKey inp k.isSome n a ++ v ++ (if last = true ∧ n' = hi then [] else [COMMA]) ++ out) hi
end

/-- If the text is read and then written, the result is `out`.  Its header is not written. -/
def Echoes (inp : Bytes) (out : Bytes) : Prop := ∃ a hi v, a ≤ inp.length ∧ inp.drop a = body inp ∧ Writes inp .block a v hi ∧ FullGap inp hi inp.length ∧
  out = v ++ slice inp hi inp.length

end Verif
