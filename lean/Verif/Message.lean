import Verif.Num
/-
`Display` of errors.
-/
namespace Verif

/-- error.rs:168-181 `Display for ErrorKind`. -/
def ErrKind.message : ErrKind → Bytes
  | .expectedEof => b! "expected end-of-file"
  | .badSequenceTerminator => b! "bad sequence terminator"
  | .badMappingSeparator => b! "bad mapping separator"
  | .badMappingTerminator => b! "bad mapping terminator"
  | .badEscape => b! "bad escape"
  | .badHexEscape => b! "bad hex escape"
  | .badUnicodeEscape => b! "bad unicode escape"

/-- error.rs:35-44 `Display for Error`.  `Display` of `usize` writes the usual decimal text. -/
def errorMessage (start stop : Nat) (kind : ErrKind) : Bytes :=
  kind.message ++ b! " (at " ++ natText start ++ b! "-" ++ natText stop ++ b! ")"

end Verif
