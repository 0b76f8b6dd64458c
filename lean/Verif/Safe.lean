import Verif.Grammar
import Verif.Props.Quoting
/-
Specification: edits whose result reads back as what was stored.  Nothing here is part of the Rust code.
-/
namespace Verif

/-- Plain text that can be written anywhere. -/
def safePlain (s : Bytes) : Bool := plainBlock s && plainFlow s && s.headD 0 != PCT && !(b! "---").isPrefixOf s

/-- A string that reads back as it is when written like this: plain only if it can be and is not read as something else, in single quotes always, in double
quotes if it contains neither a double quote nor a backslash. -/
def safeStr (s : Bytes) : StringKind → Bool
  | .bare => safePlain s && plainValue s == .string s
  | .single => true
  | .double => !s.contains DQ && !s.contains BSL

/-- A key that can be written anywhere. -/
def safeKey (k : Bytes) : Bool := keyBlock k && keyFlow k && k.headD 0 != PCT

/-- How block scalars are used in a document: not at all; only with `-`, in a document that ends with a line break; or in a document without blank lines and
comments between items and with one line break at its end. -/
inductive Mode
  | none | strip | tight
deriving DecidableEq, Repr

/-- The block scalar may be used: what it says does not depend on the number of line breaks after it, or is as if there is one. -/
def Mode.blk : Mode → Blk → Bool
  | .none, _ => false
  | .strip, b => b.chomp == .strip
  | .tight, b => b.chomp == .strip || b.breaks == 1

/-- Before an item other than the first. -/
def Mode.line : Mode → Bytes → Bool
  | .tight, s => s.isEmpty
  | _, _ => true

/-- At the end of the document. -/
def Mode.tail : Mode → Bytes → Bool
  | .none, _ => true
  | .strip, s => s.getLastD 0 == NL
  | .tight, s => s == [NL]

mutual
def Y.calm (q : Mode) : Y → Bool
  | .block b => q.blk b
  | .coll _ items => items.calm q true
  | _ => true
def Ys.calm (q : Mode) (first : Bool) : Ys → Bool
  | .nil => true
  | .cons before _ _ v rest => (first || q.line before) && v.calm q && rest.calm q false
end

def Page.calm (q : Mode) (p : Page) : Bool := p.body.calm q && q.tail p.tail

/-- The lines of a block scalar to be stored. -/
def Mode.lines : Mode → List Bytes → Block → Bool
  | .none, _, _ => false
  | .strip, l, b => !l.isEmpty && l.all blkLine && b.chomp == .strip
  | .tight, l, _ => !l.isEmpty && l.all blkLine

/-- The default, or some spaces. -/
def Separator.safe : Separator → Bool
  | .auto => true
  | .custom s => !s.isEmpty && s.all (· == SP)

/-- The value is not written as an inline collection. -/
def NotInline (d : Data) (x : Nat) : Prop := ∀ out, valueText d x = .ok out → out.headD 0 ≠ LBR ∧ out.headD 0 ≠ LCB

/-- A value to insert into or push to `x`. -/
def Val.safe (q : Mode) (d : Data) (x : Nat) : Val → Prop
  | .null sep => sep.safe = true
  | .str s => safeStr s (preferred s) = true
  | .block lines b => q.lines lines b = true ∧ NotInline d x
  | .bool _ => True
  | .number s _ => isNumber s = true

/-- The column of a collection. -/
def column (d : Data) (c : Nat) : Nat :=
  match d.raw c with
  | .ok (.mapping k) | .ok (.sequence k) => k.indent
  | _ => 0

/-- The value is not an element of an inline collection, nor the first one of a sequence, other than one at the start of the line. -/
def CanMake (d : Data) (x : Nat) : Prop := ∀ c, Child d c x → NotInline d c ∧ (∀ l, IsSeq d c l → l.head? = some x → column d c = 0)

/-- The white space before a value. -/
def prefixOf (d : Data) (x : Nat) : Bytes :=
  match d.entry x with
  | .ok e => e.pre
  | _ => []

/-- The value is not an inline collection nor an element of one.  If it is a scalar, the new lines, which are put two columns further to the right than there are
spaces before the scalar, are further to the right than the collection it is in. -/
def CanBlock (d : Data) (x : Nat) : Prop := NotInline d x ∧ ∀ c, Child d c x → NotInline d c ∧
  ∀ a, asAny d x = .ok a → a.isScalar = true → column d c < (lastLine (prefixOf d x)).length + 2

/-- An edit of the value `x` by which the document stays tidy. -/
def Op.safe (q : Mode) (d : Data) (x : Nat) : Op → Prop
  | .setNull _ | .setBool _ => True
  | .setString s => safeStr s (preferred s) = true
  | .setStringWith s k => safeStr s k = true
  | .setBlock lines b => q.lines lines b = true ∧ CanBlock d x
  | .setNumber s _ => isNumber s = true
  | .makeMapping | .makeSequence => CanMake d x
  | .insert k v => safeKey k = true ∧ v.safe q d x
  | .push v => v.safe q d x
  | .remove _ | .clearMapping | .removeAt _ | .clearSequence => True

/-- Documents made from a document of the grammar by such edits. -/
inductive Tidy (q : Mode) : Document → Prop
  | parsed {p : Page} {doc : Document} : p.ok true = true → p.calm q = true → Parsed p.text doc → Tidy q doc
  | edited {doc doc' : Document} {x : Nat} {op : Op} : Tidy q doc → Live doc x → op.safe q doc.data x → doc.edit x op = .ok doc' → Tidy q doc'

/-- No value is written as nothing: there are no nulls without a text and no empty block collections. -/
def NoHoles (doc : Document) : Prop := ∀ x, Live doc x → valueText doc.data x ≠ .ok []

/-- `y` is number `n` of the values of `x`; if `x` is a mapping, its key is `k`. -/
def Nth (d : Data) (x : Nat) (n : Nat) (k : Option Bytes) (y : Nat) : Prop :=
  match k with
  | none => ∃ l, IsSeq d x l ∧ l[n]? = some y
  | some k => ∃ l, IsMap d x l ∧ l[n]? = some (k, y)

/-- `y` is found from `x` by these positions and keys. -/
inductive Path (d : Data) : Nat → List (Nat × Option Bytes) → Nat → Prop
  | here {x : Nat} : Path d x [] x
  | step {x y z n : Nat} {k : Option Bytes} {p : List (Nat × Option Bytes)} : Nth d x n k y → Path d y p z → Path d x ((n, k) :: p) z

end Verif
