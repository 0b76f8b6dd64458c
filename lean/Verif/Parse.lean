import Verif.Data
import Verif.Scan
/-
The recursive part of `parsing.rs`, on the arena.  Recursive calls of `value` go through the
argument `rec`; collection loops carry their own fuel.
-/
namespace Verif

/-- parsing.rs:35-41 `State`. -/
structure St where
  pre : Bytes
  parent : Option Nat
  inline : Bool
  tabular : Bool
  parentIndent : Option Nat
deriving DecidableEq, Repr

/-- parsing.rs:90-95 `Parser`: the mutable part, position and arena. -/
structure PS where
  n : Nat
  d : Data
deriving DecidableEq, Repr

/-- Result of `value`: id of the value, whitespace already consumed after it, new state. -/
abbrev Res := Except Stop (Nat × Option Bytes × PS)

/-- parsing.rs:311-314 `placeholder`. -/
def placeholder (d : Data) (pre : Bytes) (parent : Option Nat) : Except Stop (Nat × Data) :=
  d.insert (.null .empty) pre parent

/-- `next.unwrap_or_else(|| self.ws())`: the text and the position after it. -/
def wsOr (inp : Bytes) (ws : Option Bytes) (n : Nat) : Bytes × Nat :=
  match ws with
  | some w => (w, n)
  | none => (wsStr inp n, wsEnd inp n)

/-- parsing.rs:504-529, the loop of `inline_sequence`: item ids, `trailing`, `item_prefix`,
state. -/
def flowSeqLoop (rec : St → PS → Res) (inp : Bytes) (id : Nat) :
    Nat → (last trailing : Bool) → (itemPre : Bytes) → PS → Except Stop (List Nat × Bool × Bytes × PS)
  | 0, _, _, _, _ => .error .fuel
  | f + 1, last, trailing, itemPre, p =>
    if peekAt inp p.n == RBR || peekAt inp p.n == 0 then .ok ([], trailing, itemPre, p)
    else do
      let (itemId, d) ← placeholder p.d itemPre (some id)
      let (value, next, p) ← rec ⟨wsStr inp p.n, some itemId, true, false, none⟩ ⟨wsEnd inp p.n, d⟩
      let d ← p.d.replace itemId (.sequenceItem value)
      if last then
        let (w, n) := wsOr inp next p.n
        return ([itemId], false, w, ⟨n, d⟩)
      else
        let comma := peekAt inp p.n == COMMA
        let n := if comma then bump inp p.n 1 else p.n
        let (w, n) := wsOr inp next n
        let (items, tr, w, p) ← flowSeqLoop rec inp id f (!comma) comma w ⟨n, d⟩
        return (itemId :: items, tr, w, p)

/-- parsing.rs:494-553 `inline_sequence`. -/
def flowSeq (rec : St → PS → Res) (inp : Bytes) (fuel : Nat) (s : St) (p : PS) : Res := do
  let (id, d) ← placeholder p.d s.pre s.parent
  let n := bump inp p.n 1
  let (items, tr, w, p) ← flowSeqLoop rec inp id fuel false false (wsStr inp n) ⟨wsEnd inp n, d⟩
  if peekAt inp p.n == RBR then
    let d ← p.d.replace id (.sequence ⟨0, .inline tr w, items⟩)
    return (id, none, ⟨bump inp p.n 1, d⟩)
  else .error (.err (p.n - w.length) p.n .badSequenceTerminator)

/-- parsing.rs:566-597, the loop of `inline_mapping`: item ids, `trailing`, `item_prefix`, `start`,
state. -/
def flowMapLoop (rec : St → PS → Res) (inp : Bytes) (id : Nat) :
    Nat → (last trailing : Bool) → (itemPre : Bytes) → (start : Nat) → PS →
    Except Stop (List Nat × Bool × Bytes × Nat × PS)
  | 0, _, _, _, _, _ => .error .fuel
  | f + 1, last, trailing, itemPre, start, p =>
    if peekAt inp p.n == RCB || peekAt inp p.n == 0 then .ok ([], trailing, itemPre, start, p)
    else
      match untilColon inp p.n with
      | (m, none) => .error (.err start m .badMappingSeparator)
      | (m, some key) => do
        let (itemId, d) ← placeholder p.d itemPre (some id)
        let m := bump inp m 1
        let (value, next, p) ← rec ⟨wsStr inp m, some itemId, true, false, none⟩ ⟨wsEnd inp m, d⟩
        let d ← p.d.replace itemId (.mappingItem key value)
        let (w, n) := wsOr inp next p.n
        if last then return ([itemId], false, w, start, ⟨n, d⟩)
        else
          let comma := peekAt inp n == COMMA
          let n := if comma then bump inp n 1 else n
          let (items, tr, w, st, p) ←
            flowMapLoop rec inp id f (!comma) comma (wsStr inp n) n ⟨wsEnd inp n, d⟩
          return (itemId :: items, tr, w, st, p)

/-- parsing.rs:556-618 `inline_mapping`. -/
def flowMap (rec : St → PS → Res) (inp : Bytes) (fuel : Nat) (s : St) (p : PS) : Res := do
  let (id, d) ← placeholder p.d s.pre s.parent
  let n := bump inp p.n 1
  let (items, tr, w, start, p) ← flowMapLoop rec inp id fuel false false (wsStr inp n) n ⟨wsEnd inp n, d⟩
  if peekAt inp p.n == RCB then
    let d ← p.d.replace id (.mapping ⟨0, .inline tr w, items⟩)
    return (id, none, ⟨bump inp p.n 1, d⟩)
  else .error (.err start p.n .badMappingTerminator)

/-- parsing.rs:629-648, the loop of `sequence`: item ids, last whitespace, state. -/
def seqLoop (rec : St → PS → Res) (inp : Bytes) (id indent : Nat) :
    Nat → (itemPre : Bytes) → PS → Except Stop (List Nat × Bytes × PS)
  | 0, _, _ => .error .fuel
  | f + 1, itemPre, p => do
    let (itemId, d) ← placeholder p.d itemPre (some id)
    let n := bump inp p.n 1
    let (value, ws, p) ← rec ⟨wsStr inp n, some itemId, false, true, none⟩ ⟨wsEnd inp n, d⟩
    let d ← p.d.replace itemId (.sequenceItem value)
    let (w, n) := wsOr inp ws p.n
    if indentFrom inp n != indent || peekAt inp n != DASH then return ([itemId], w, ⟨n, d⟩)
    else
      let (items, w, p) ← seqLoop rec inp id indent f w ⟨n, d⟩
      return (itemId :: items, w, p)

/-- parsing.rs:621-660 `sequence`. -/
def sequence (rec : St → PS → Res) (inp : Bytes) (fuel : Nat) (s : St) (p : PS) : Res := do
  let (id, d) ← placeholder p.d s.pre s.parent
  let indent := indentFrom inp p.n
  let (items, w, p) ← seqLoop rec inp id indent fuel [] ⟨p.n, d⟩
  let d ← p.d.replace id (.sequence ⟨indent, .block, items⟩)
  return (id, some w, ⟨p.n, d⟩)

/-- parsing.rs:689-720, the loop of `mapping_or_nul`: item ids, last whitespace, state. -/
def mapLoop (rec : St → PS → Res) (inp : Bytes) (id indent : Nat) :
    Nat → (start : Nat) → (key : RStr) → (itemPre : Bytes) → PS → Except Stop (List Nat × Bytes × PS)
  | 0, _, _, _, _ => .error .fuel
  | f + 1, start, key, itemPre, p =>
    if peekAt inp p.n != COLON then .error (.err start (bump inp p.n 1) .badMappingSeparator)
    else do
      let (itemId, d) ← placeholder p.d itemPre (some id)
      let n := bump inp p.n 1
      let (value, ws, p) ← rec ⟨wsStr inp n, some itemId, false, true, some indent⟩ ⟨wsEnd inp n, d⟩
      let d ← p.d.replace itemId (.mappingItem key value)
      let (w, n) := wsOr inp ws p.n
      if indentFrom inp n != indent then return ([itemId], w, ⟨n, d⟩)
      else
        match nextMappingKey inp n with
        | (m, none) => return ([itemId], w, ⟨m, d⟩)
        | (m, some key) =>
          let (items, w, p) ← mapLoop rec inp id indent f n key w ⟨m, d⟩
          return (itemId :: items, w, p)

/-- parsing.rs:665-732 `mapping_or_nul`; `start` is where the key began, `p.n` is after it. -/
def mappingOrNul (rec : St → PS → Res) (inp : Bytes) (fuel : Nat) (s : St) (start : Nat) (key : RStr) (p : PS) :
    Res := do
  let (id, d) ← placeholder p.d s.pre s.parent
  let indent := indentFrom inp start
  match s.parentIndent with
  | some i =>
    if i ≥ indent then
      let d ← d.replaceWith id [] (.null .empty)
      return (id, some s.pre, ⟨start, d⟩)
    else go id d indent
  | none => go id d indent
where
  go (id : Nat) (d : Data) (indent : Nat) : Res := do
    let (items, w, p) ← mapLoop rec inp id indent fuel start key [] ⟨p.n, d⟩
    let d ← p.d.replace id (.mapping ⟨indent, .block, items⟩)
    return (id, some w, ⟨p.n, d⟩)

/-- parsing.rs:853-930 `value`, with fuel for the nesting depth and the loops. -/
def value (inp : Bytes) : Nat → St → PS → Res
  | 0, _, _ => .error .fuel
  | f + 1, s, p => do
    match ← lead f inp s.inline s.tabular p.n with
    | .seq => sequence (value inp f) inp f s p
    | .flowSeq => flowSeq (value inp f) inp f s p
    | .flowMap => flowMap (value inp f) inp f s p
    | .key key n => mappingOrNul (value inp f) inp f s p.n key ⟨n, p.d⟩
    | .scalar sc ws n =>
      let (id, d) ← p.d.insert sc.toRaw s.pre s.parent
      return (id, ws, ⟨n, d⟩)

/-- parsing.rs:109-124 `parse`, with explicit fuel. -/
def parseF (fuel : Nat) (inp : Bytes) : Except Stop Document := do
  let (pre, n) ← startOfDocument fuel inp
  let (root, ws, p) ← value inp fuel ⟨pre, none, false, true, none⟩ ⟨n, Data.empty⟩
  let (suffix, n) := wsOr inp ws p.n
  if n = inp.length then return ⟨suffix, root, p.d⟩
  else .error (.err n inp.length .expectedEof)

/-- mod.rs:179-185 `from_slice`, run with fuel that is enough whenever any is (see
`C05_fuel` of `Verif.Props.Parser`). -/
def fromSlice (inp : Bytes) : Except Stop Document := parseF (inp.length + 6) inp

end Verif
