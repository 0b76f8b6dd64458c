import Verif.Write
/-
`Display` of a document compiled with `--cfg nondestructive_write_to_eq` (as the tests of the project are) and with debug assertions.
-/
namespace Verif

/-- document.rs:286-327 `Display for Document` with `cfg!(nondestructive_write_to_eq)` and debug assertions: the text is made, and so are the bytes of `write_to`, and if they
differ `debug_assert_eq!` panics.  Writing to a `Vec` does not fail; formatting options of `string.fmt(f)` are not modelled. -/
def Document.displayChecked (doc : Document) : Except Stop Bytes := do
  let string ← doc.display
  let bytes ← doc.write
  if string = bytes then return string
  else .error .panic

end Verif
