import Verif.Fault
/-
Specification: a part of a text that is white space and comments between the parts of its values.  Nothing here is part of the Rust code.
-/
namespace Verif

/-- A scalar from `lo` to `hi` is after `m` or before `n`.  One that is not in quotes is directly before something else than white space, as in `[a,`, or a line break is between it
and `n`. -/
def ScalarOff (inp : Bytes) (n m : Nat) (s : Spot) (lo hi : Nat) : Prop :=
  m ≤ lo ∨ hi ≤ n ∧ (inp.getD lo 0 = SQ ∨ inp.getD lo 0 = DQ ∨ hi < n ∧ (s.inline = false → NL ∈ slice inp hi n))

/-- A block scalar from `lo` to `hi` that is read as `v` is after `m` or before `n`.  If only white space and comments follow up to `n`, `v` does not end with a line break. -/
def LinesOff (inp : Bytes) (n m : Nat) (v : Bytes) (lo hi : Nat) : Prop :=
  m ≤ lo ∨ hi < n ∧ ∀ q, FullGap inp hi q → n ≤ q → v.getLast? ≠ some NL

/-- A key from `lo` to the colon at `q` is after `m` or before `n`. -/
def KeyOff (n m lo q : Nat) : Prop := m ≤ lo ∨ q < n

/-- As `Head`, with the key before `n` or after `m`. -/
def HeadOff (inp : Bytes) (n m : Nat) (first : Bool) (k : Option Bytes) (lo a : Nat) : Prop := Head inp first k lo a ∧ (k.isSome = true → KeyOff n m lo (a - 1))

/-- As `CellHead`, with the key before `n` or after `m`. -/
def CellOff (inp : Bytes) (n m : Nat) (k : Option Bytes) (lo a : Nat) : Prop := CellHead inp k lo a ∧ (k.isSome = true → KeyOff n m lo (a - 1))

mutual
/-- As `Sits`, with every scalar and every key before `n` or after `m`. -/
inductive Clear {α : Type} (inp : Bytes) (n m : Nat) (V : View α) : Spot → α → Nat → Nat → Prop
  | scalar {s : Spot} {x : α} {a : AnyV} {lo hi : Nat} : V.scalar x a → lo ≤ hi → hi ≤ inp.length → Token s.inline (inp.drop hi) (slice inp lo hi) a →
    ScalarOff inp n m s lo hi → Clear inp n m V s x lo hi
  | lines {s : Spot} {x : α} {v : Bytes} {lo hi : Nat} : V.scalar x (.string v) → BlockAt inp lo v hi → LinesOff inp n m v lo hi → Clear inp n m V s x lo hi
  | open {s : Spot} {x : α} {ps : List Piece} {lo : Nat} : V.scalar x (.string (ps.flatMap Piece.reads)) → lo ≤ inp.length → ps.all Piece.known = true →
    inp.drop lo = DQ :: ps.flatMap Piece.text → m ≤ lo → Clear inp n m V s x lo inp.length
  | empty {x : α} {k : Bytes} {c lo q : Nat} : V.scalar x .null → FirstKey inp k lo q → columnAt inp lo ≤ c → KeyOff n m lo q →
    Clear inp n m V (.under c) x lo lo
  | dashes {s : Spot} {x : α} {l : List α} {lo hi : Nat} : V.seq x l → s ≠ .flow →
    ClearRows inp n m V (columnAt inp lo) true (l.map fun v => (none, v)) lo hi → Clear inp n m V s x lo hi
  | keys {s : Spot} {x : α} {l : List (Bytes × α)} {lo hi : Nat} : V.map x l → s.allows (columnAt inp lo) →
    ClearRows inp n m V (columnAt inp lo) true (l.map fun e => (some e.1, e.2)) lo hi → Clear inp n m V s x lo hi
  | brackets {s : Spot} {x : α} {l : List α} {lo b hi : Nat} : V.seq x l → inp[lo]? = some LBR → FullGap inp (lo + 1) b →
    ClearCells inp n m V false false (l.map fun v => (none, v)) b hi → Clear inp n m V s x lo (hi + 1)
  | braces {s : Spot} {x : α} {l : List (Bytes × α)} {lo b hi : Nat} : V.map x l → inp[lo]? = some LCB → FullGap inp (lo + 1) b →
    ClearCells inp n m V true false (l.map fun e => (some e.1, e.2)) b hi → Clear inp n m V s x lo (hi + 1)
/-- As `Rows`. -/
inductive ClearRows {α : Type} (inp : Bytes) (n m : Nat) (V : View α) : Nat → (first : Bool) → List (Option Bytes × α) → Nat → Nat → Prop
  | last {c : Nat} {first : Bool} {k : Option Bytes} {v : α} {lo a b hi q : Nat} : columnAt inp lo = c → HeadOff inp n m first k lo a → FullGap inp a b →
    Clear inp n m V (.item c k) v b hi → FullGap inp hi q → ¬ Goes inp k.isSome c q → ClearRows inp n m V c first [(k, v)] lo hi
  | more {c : Nat} {first : Bool} {k : Option Bytes} {v : α} {rest : List (Option Bytes × α)} {lo a b e lo' hi : Nat} : columnAt inp lo = c →
    HeadOff inp n m first k lo a → FullGap inp a b → Clear inp n m V (.item c k) v b e → FullGap inp e lo' → ClearRows inp n m V c false rest lo' hi →
    ClearRows inp n m V c first ((k, v) :: rest) lo hi
/-- As `Cells`. -/
inductive ClearCells {α : Type} (inp : Bytes) (n m : Nat) (V : View α) : (map last : Bool) → List (Option Bytes × α) → Nat → Nat → Prop
  | none {map last : Bool} {hi : Nat} : inp[hi]? = some (close map) → ClearCells inp n m V map last [] hi hi
  | final {k : Option Bytes} {v : α} {lo a b e hi : Nat} : Opens inp k.isSome lo → CellOff inp n m k lo a → FullGap inp a b → Clear inp n m V .flow v b e →
    FullGap inp e hi → inp[hi]? = some (close k.isSome) → ClearCells inp n m V k.isSome true [(k, v)] lo hi
  | cell {k : Option Bytes} {v : α} {rest : List (Option Bytes × α)} {last : Bool} {lo a b e start lo' hi : Nat} : Opens inp k.isSome lo → CellOff inp n m k lo a →
    FullGap inp a b → Clear inp n m V .flow v b e → NextCell inp k.isSome (atBlock inp b) e last start lo' → ClearCells inp n m V k.isSome last rest lo' hi →
    ClearCells inp n m V k.isSome false ((k, v) :: rest) lo hi
end

/-- The text has the content `c`, and from `n` to `m` there is nothing of its scalars and keys. -/
def ClearText (inp : Bytes) (n m : Nat) (c : Content) : Prop := ∃ lo hi, lo ≤ inp.length ∧ inp.drop lo = skipBlank false (body inp) ∧
  Clear inp n m contentView .block c lo hi ∧ FullGap inp hi inp.length

/-- `t` between `p` and `q` is exchanged for `t'`.  Both are white space and comments.  They are whole lines (`line`).  Or they are at the end of a line, and there is white
space before a comment. -/
structure Swap (line : Bool) (p t t' q : Bytes) : Prop where
  blank : Verif.blank t = true
  blank' : Verif.blank t' = true
  lines : line = true → (p = [] ∨ p.getLast? = some NL) ∧ (t = [] ∨ t.getLast? = some NL) ∧ (t' = [] ∨ t'.getLast? = some NL)
  ends : line = false → q.head? = some NL ∧ NL ∉ t ∧ NL ∉ t' ∧ (t = [] ∨ isWs (t.headD 0) = true) ∧ (t' = [] ∨ isWs (t'.headD 0) = true)

end Verif
