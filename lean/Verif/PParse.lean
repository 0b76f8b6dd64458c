import Verif.Tree
import Verif.Parse
/-
A copy of the recursive part of the parser that builds a tree instead of writing into the arena:
a proof device.  `Verif.Refine` proves that the arena parser of `Verif.Parse` computes the
numbering of this tree, with the same errors.
-/
namespace Verif

/-- `St` without the parent id. -/
structure PSt where
  pre : Bytes
  inline : Bool
  tabular : Bool
  parentIndent : Option Nat
deriving DecidableEq, Repr

abbrev PRes := Except Stop (Tree Unit × Option Bytes × Nat)

/-- Tree version of `flowSeqLoop`. -/
def pflowSeqLoop (rec : PSt → Nat → PRes) (inp : Bytes) :
    Nat → (last trailing : Bool) → (itemPre : Bytes) → Nat → Except Stop (Items Unit × Bool × Bytes × Nat)
  | 0, _, _, _, _ => .error .fuel
  | f + 1, last, trailing, itemPre, n =>
    if peekAt inp n == RBR || peekAt inp n == 0 then .ok (.nil, trailing, itemPre, n)
    else do
      let (v, next, n) ← rec ⟨wsStr inp n, true, false, none⟩ (wsEnd inp n)
      if last then
        let (w, n) := wsOr inp next n
        return (.cons () itemPre noKey v .nil, false, w, n)
      else
        let comma := peekAt inp n == COMMA
        let n := if comma then bump inp n 1 else n
        let (w, n) := wsOr inp next n
        let (items, tr, w, n) ← pflowSeqLoop rec inp f (!comma) comma w n
        return (.cons () itemPre noKey v items, tr, w, n)

/-- Tree version of `flowSeq`. -/
def pflowSeq (rec : PSt → Nat → PRes) (inp : Bytes) (fuel : Nat) (s : PSt) (n : Nat) : PRes := do
  let n := bump inp n 1
  let (items, tr, w, n) ← pflowSeqLoop rec inp fuel false false (wsStr inp n) (wsEnd inp n)
  if peekAt inp n == RBR then
    return (.node () s.pre false 0 (.inline tr w) items, none, bump inp n 1)
  else .error (.err (n - w.length) n .badSequenceTerminator)

/-- Tree version of `flowMapLoop`. -/
def pflowMapLoop (rec : PSt → Nat → PRes) (inp : Bytes) :
    Nat → (last trailing : Bool) → (itemPre : Bytes) → (start : Nat) → Nat →
    Except Stop (Items Unit × Bool × Bytes × Nat × Nat)
  | 0, _, _, _, _, _ => .error .fuel
  | f + 1, last, trailing, itemPre, start, n =>
    if peekAt inp n == RCB || peekAt inp n == 0 then .ok (.nil, trailing, itemPre, start, n)
    else
      match untilColon inp n with
      | (m, none) => .error (.err start m .badMappingSeparator)
      | (m, some key) => do
        let m := bump inp m 1
        let (v, next, n) ← rec ⟨wsStr inp m, true, false, none⟩ (wsEnd inp m)
        let (w, n) := wsOr inp next n
        if last then return (.cons () itemPre key v .nil, false, w, start, n)
        else
          let comma := peekAt inp n == COMMA
          let n := if comma then bump inp n 1 else n
          let (items, tr, w, st, n) ← pflowMapLoop rec inp f (!comma) comma (wsStr inp n) n (wsEnd inp n)
          return (.cons () itemPre key v items, tr, w, st, n)

/-- Tree version of `flowMap`. -/
def pflowMap (rec : PSt → Nat → PRes) (inp : Bytes) (fuel : Nat) (s : PSt) (n : Nat) : PRes := do
  let n := bump inp n 1
  let (items, tr, w, start, n) ← pflowMapLoop rec inp fuel false false (wsStr inp n) n (wsEnd inp n)
  if peekAt inp n == RCB then
    return (.node () s.pre true 0 (.inline tr w) items, none, bump inp n 1)
  else .error (.err start n .badMappingTerminator)

/-- Tree version of `seqLoop`. -/
def pseqLoop (rec : PSt → Nat → PRes) (inp : Bytes) (indent : Nat) :
    Nat → (itemPre : Bytes) → Nat → Except Stop (Items Unit × Bytes × Nat)
  | 0, _, _ => .error .fuel
  | f + 1, itemPre, n => do
    let n := bump inp n 1
    let (v, ws, n) ← rec ⟨wsStr inp n, false, true, none⟩ (wsEnd inp n)
    let (w, n) := wsOr inp ws n
    if indentFrom inp n != indent || peekAt inp n != DASH then return (.cons () itemPre noKey v .nil, w, n)
    else
      let (items, w, n) ← pseqLoop rec inp indent f w n
      return (.cons () itemPre noKey v items, w, n)

/-- Tree version of `sequence`. -/
def psequence (rec : PSt → Nat → PRes) (inp : Bytes) (fuel : Nat) (s : PSt) (n : Nat) : PRes := do
  let indent := indentFrom inp n
  let (items, w, n) ← pseqLoop rec inp indent fuel [] n
  return (.node () s.pre false indent .block items, some w, n)

/-- Tree version of `mapLoop`. -/
def pmapLoop (rec : PSt → Nat → PRes) (inp : Bytes) (indent : Nat) :
    Nat → (start : Nat) → (key : RStr) → (itemPre : Bytes) → Nat → Except Stop (Items Unit × Bytes × Nat)
  | 0, _, _, _, _ => .error .fuel
  | f + 1, start, key, itemPre, n =>
    if peekAt inp n != COLON then .error (.err start (bump inp n 1) .badMappingSeparator)
    else do
      let n := bump inp n 1
      let (v, ws, n) ← rec ⟨wsStr inp n, false, true, some indent⟩ (wsEnd inp n)
      let (w, n) := wsOr inp ws n
      if indentFrom inp n != indent then return (.cons () itemPre key v .nil, w, n)
      else
        match nextMappingKey inp n with
        | (m, none) => return (.cons () itemPre key v .nil, w, m)
        | (m, some key') =>
          let (items, w, n) ← pmapLoop rec inp indent f n key' w m
          return (.cons () itemPre key v items, w, n)

/-- Tree version of `mappingOrNul`: `start` is where the key began, `n` is after it. -/
def pmappingOrNul (rec : PSt → Nat → PRes) (inp : Bytes) (fuel : Nat) (s : PSt) (start : Nat) (key : RStr)
    (n : Nat) : PRes :=
  let indent := indentFrom inp start
  match s.parentIndent with
  | some i =>
    if i ≥ indent then .ok (.leaf () [] (.null .empty), some s.pre, start)
    else go indent
  | none => go indent
where
  go (indent : Nat) : PRes := do
    let (items, w, n) ← pmapLoop rec inp indent fuel start key [] n
    return (.node () s.pre true indent .block items, some w, n)

/-- Tree version of `value`. -/
def pvalue (inp : Bytes) : Nat → PSt → Nat → PRes
  | 0, _, _ => .error .fuel
  | f + 1, s, n => do
    match ← lead f inp s.inline s.tabular n with
    | .seq => psequence (pvalue inp f) inp f s n
    | .flowSeq => pflowSeq (pvalue inp f) inp f s n
    | .flowMap => pflowMap (pvalue inp f) inp f s n
    | .key key m => pmappingOrNul (pvalue inp f) inp f s n key m
    | .scalar sc ws m => return (.leaf () s.pre sc, ws, m)

/-- Tree version of `parseF`: the root and the suffix. -/
def pparseF (fuel : Nat) (inp : Bytes) : Except Stop (Tree Unit × Bytes) := do
  let (pre, n) ← startOfDocument fuel inp
  let (t, ws, n) ← pvalue inp fuel ⟨pre, false, true, none⟩ n
  let (suffix, n) := wsOr inp ws n
  if n = inp.length then return (t, suffix)
  else .error (.err n inp.length .expectedEof)

/-- The arena holding exactly the entries of the numbering of `t`. -/
def arenaOf (l : List Entry) : Data := ⟨⟨l.map .occupied, l.length⟩⟩

/-- The document for a parsed tree. -/
def docOf (t : Tree Unit) (suffix : Bytes) : Document :=
  ⟨suffix, 0, arenaOf (((t.label 0).entries none).map (·.2))⟩

end Verif
