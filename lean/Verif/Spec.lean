import Verif.Types
/-
Vocabulary about input texts used in the statements of the properties of `from_slice`.  Independent of the model of the
parser.
-/
namespace Verif

/-- White space and comments only; `true`: inside a comment, which ends at the end of its line. -/
def blankGo : Bool → Bytes → Bool
  | _, [] => true
  | true, b :: r => blankGo (b != NL) r
  | false, b :: r => if b == HASH then blankGo true r else isWs b && blankGo false r

/-- White space and comments only. -/
def blank (s : Bytes) : Bool := blankGo false s

/-- Every line with a `|` or `>` in it is the last one and has no line break, or is followed by a line that is not blank. -/
def followed : Bytes → Bool
  | [] => true
  | b :: r =>
    (if b == PIPE || b == GT then
      match r.dropWhile (· != NL) with
      | [] => true
      | _ :: c => !blank c
     else true) && followed r

/-- No comma directly after white space. -/
def noWsComma : Bytes → Bool
  | a :: b :: r => !(isWs a && b == COMMA) && noWsComma (b :: r)
  | _ => true

/-- What is left after leading white space and comments; `true`: inside a comment. -/
def skipBlank : Bool → Bytes → Bytes
  | _, [] => []
  | true, b :: r => skipBlank (b != NL) r
  | false, b :: r => if b == HASH then skipBlank true r else if isWs b then skipBlank false r else b :: r

/-- What follows the directives (lines starting with `%`) and the document marker (`---`) at the start of a text. -/
def bodyGo : Nat → Bytes → Bytes
  | 0, s => s
  | f + 1, s =>
    let t := skipBlank false s
    if t.headD 0 == PCT then bodyGo f (t.dropWhile (· != NL))
    else if t.take 3 == [DASH, DASH, DASH] then t.drop 3
    else s

/-- What follows the header of a text; the whole text if it has none. -/
def body (s : Bytes) : Bytes := bodyGo (s.length + 1) s

/-- Does the text start, after white space and comments, with a directive (`%`) or a document marker (`---`)? -/
def hasHeader (s : Bytes) : Bool := let t := skipBlank false s; t.headD 0 == PCT || t.take 3 == [DASH, DASH, DASH]

theorem body_eq {s : Bytes} (h : hasHeader s = false) : body s = s := by
  simp only [hasHeader, Bool.or_eq_false_iff] at h
  simp only [body, bodyGo, h.1, h.2, Bool.false_eq_true, if_false]

end Verif
