import Verif.Safe
/-
Specification for C61: documents whose text is laid out in lines.
-/
namespace Verif

/-- The white space and comments at the start of a text. -/
def leadBlank (x : Bytes) : Bytes := x.take (x.length - (skipBlank false x).length)

/-- The item `i` of the block collection `c` is not the first. -/
def LaterItem (d : Data) (c i : Nat) : Prop :=
  ∃ k : Coll, (d.raw c = .ok (.sequence k) ∨ d.raw c = .ok (.mapping k)) ∧ k.kind = .block ∧ i ∈ k.items.tail

/-- After the dash or colon of the item `i` there is white space, or nothing is written for its value.  Its key is not in quotes. -/
def Spaced (d : Data) (i : Nat) : Prop := ∀ key v s, d.raw i = .ok (.sequenceItem v) ∨ d.raw i = .ok (.mappingItem key v) → valueText d v = .ok s →
  (prefixOf d v ++ s = [] ∨ isWs ((prefixOf d v ++ s).headD 0) = true) ∧
  (d.raw i = .ok (.mappingItem key v) → key.write.headD 0 ≠ DQ ∧ key.write.headD 0 ≠ SQ)

/-- The document `doc`, which was read from `x`, is laid out in lines. -/
structure Lined (x : Bytes) (doc : Document) : Prop where
  /-- If there is a header, the value is not on its last line. -/
  start : hasHeader x = false ∨ NL ∈ leadBlank (body x)
  /-- There is only one header. -/
  once : hasHeader (body x) = false
  /-- Every item of a block collection but the first is preceded by a line break. -/
  rows : ∀ c i, Live doc c → LaterItem doc.data c i → NL ∈ prefixOf doc.data i
  /-- Every block scalar has a line with something on it. -/
  lines : ∀ v s, Live doc v → valueText doc.data v = .ok s → s.headD 0 = PIPE ∨ s.headD 0 = GT → blank (s.dropWhile (· != NL)) = false
  /-- There are no block scalars in inline collections. -/
  inline : ∀ c v s, Live doc c → ¬ NotInline doc.data c → Below doc.data c v → valueText doc.data v = .ok s → s.headD 0 ≠ PIPE ∧ s.headD 0 ≠ GT
  /-- Every value is written as something, or colons are told apart by the white space after them. -/
  holes : NoHoles doc ∨ (∀ i, x[i]? = some COLON → x[i + 1]? ≠ some HASH) ∧ ∀ c i, Live doc c → LaterItem doc.data c i → Spaced doc.data i

end Verif
