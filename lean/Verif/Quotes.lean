import Verif.Write
/-
Specification: how strings are written in quotes, and which bytes the byte classes used in statements are.  The theorems here say that
the model agrees.
-/
namespace Verif

/-- The text of a string in quotes: every single quote doubled. -/
def quoteSingle (s : Bytes) : Bytes := [SQ] ++ s.flatMap (fun b => if b = SQ then [SQ, SQ] else [b]) ++ [SQ]

/-- Escapes with a letter. -/
def escapeTable : List (UInt8 × Bytes) :=
  [(0, b! "\\0"), (7, b! "\\a"), (8, b! "\\b"), (9, b! "\\t"), (10, b! "\\n"), (11, b! "\\v"), (12, b! "\\f"),
   (13, b! "\\r"), (27, b! "\\e"), (34, b! "\\\"")]

/-- Two hexadecimal digits. -/
def hexOf (b : UInt8) : Bytes := [(b! "0123456789abcdef").getD (b.toNat / 16) 0, (b! "0123456789abcdef").getD (b.toNat % 16) 0]

/-- A byte in double quotes. -/
def escapeOf (b : UInt8) : Bytes :=
  match escapeTable.lookup b with
  | some e => e
  | none => if b < 0x20 || b == 0x7F then b! "\\x" ++ hexOf b else [b]

/-- The text of a string in double quotes. -/
def quoteDouble (s : Bytes) : Bytes := [DQ] ++ s.flatMap escapeOf ++ [DQ]

theorem escapeSingleBody_eq : ∀ s : Bytes, escapeSingleBody s = s.flatMap fun b => if b = SQ then [SQ, SQ] else [b]
  | [] => rfl
  | b :: r => by
    simp only [escapeSingleBody, List.flatMap_cons, escapeSingleBody_eq r]
    by_cases h : b = SQ <;> simp [h]

/-- For statements about all bytes. -/
theorem byte_cases {p : UInt8 → Prop} (h : ∀ k, k < 256 → p (UInt8.ofNat k)) (b : UInt8) : p b := by
  have := h b.toNat b.toNat_lt; rwa [UInt8.ofNat_toNat] at this

theorem escapeByte_eq (b : UInt8) : (escapeByte b).getD [b] = escapeOf b :=
  byte_cases (p := fun b => (escapeByte b).getD [b] = escapeOf b) (by set_option maxRecDepth 100000 in decide) b

theorem escapeDoubleBody_eq : ∀ s : Bytes, escapeDoubleBody s = s.flatMap escapeOf
  | [] => rfl
  | b :: r => by rw [escapeDoubleBody, escapeByte_eq, escapeDoubleBody_eq r, List.flatMap_cons]

/-- White space: tab, newline, form feed, carriage return, space. -/
theorem isWs_bytes (b : UInt8) : isWs b = [9, 10, 12, 13, 32].contains b :=
  byte_cases (p := fun b => isWs b = [9, 10, 12, 13, 32].contains b) (by set_option maxRecDepth 100000 in decide) b
/-- What ends a plain scalar in an inline collection: NUL, comma, colon, closing bracket, closing brace. -/
theorem isCtl_bytes (b : UInt8) : isCtl b = [0, 44, 58, 93, 125].contains b :=
  byte_cases (p := fun b => isCtl b = [0, 44, 58, 93, 125].contains b) (by set_option maxRecDepth 100000 in decide) b
theorem isDigit_bytes (b : UInt8) : isDigit b = (b! "0123456789").contains b :=
  byte_cases (p := fun b => isDigit b = (b! "0123456789").contains b) (by set_option maxRecDepth 100000 in decide) b
theorem lower_bytes (b : UInt8) : lower b =
    (((b! "ABCDEFGHIJKLMNOPQRSTUVWXYZ").zip (b! "abcdefghijklmnopqrstuvwxyz")).lookup b).getD b :=
  byte_cases (p := fun b => lower b = (((b! "ABCDEFGHIJKLMNOPQRSTUVWXYZ").zip (b! "abcdefghijklmnopqrstuvwxyz")).lookup b).getD b)
    (by set_option maxRecDepth 100000 in decide) b

end Verif
