import Verif.LiveLemmas
import Verif.Props.Shape
import Verif.Props.Quoting
import Verif.Quotes
/-
C10, C11, C34, C41: the `set_*` methods.
-/
namespace Verif

/-- Two documents that no reading method can tell apart: the same things are stored under the same
ids, and they are written and displayed the same. -/
structure SameDoc (doc doc' : Document) : Prop where
  root : doc.root = doc'.root
  entries : ∀ y, doc.data.entry y = doc'.data.entry y
  write : doc.write = doc'.write
  display : doc.display = doc'.display

theorem Holds.same {doc doc' : Document} {t : Tree Nat} (h : Holds doc t) (h' : Holds doc' t)
    (hs : doc.suffix = doc'.suffix) : SameDoc doc doc' where
  root := by rw [h.root, h'.root]
  entries y := by
    have : doc.data.slab.get y = doc'.data.slab.get y := by
      cases hg : doc.data.slab.get y with
      | some e => exact (h'.rep y e (h.entry_mem hg)).symm
      | none =>
        cases hg' : doc'.data.slab.get y with
        | none => rfl
        | some e =>
          have := h.rep y e (h'.entry_mem hg')
          rw [hg] at this; cases this
    simp only [Data.entry, this]
  write := by rw [h.write, h'.write, hs]
  display := by rw [h.display, h'.display, hs]

/-- The document after a `set_*`. -/
theorem Holds.editSet {doc doc' : Document} {t u : Tree Nat} {x : Nat} (h : Holds doc t) (hf : t.find x = some u) {op : Op}
    (hs : op.isSet = true) (he : doc.edit x op = .ok doc') : ∃ s, op.scalar u = some s ∧ doc'.suffix = doc.suffix ∧
      doc'.root = doc.root ∧ Holds doc' (Tree.upd x (.leaf x u.pre s) t) := by
  obtain ⟨d', i, v, mk, h1, _, _, h2⟩ := h.editTree hf op
  have : doc' = ⟨doc.suffix, doc.root, d'⟩ := by
    simp [Document.edit, h1, bind, Except.bind, pure, Except.pure] at he; exact he.symm
  subst this
  cases hsc : op.scalar u with
  | none => cases op <;> simp only [Op.isSet, Op.scalar, Bool.false_eq_true, reduceCtorEq] at hs hsc
  | some s =>
    refine ⟨s, rfl, rfl, rfl, ?_⟩
    simp only [Op.tree, hsc, Tree.find_id hf] at h2
    exact h2

/-! ### C10 -/

/-- C10: whatever is set, the output changes only where the text of the value was. -/
theorem C10_set_local {doc : Document} (h : Reachable doc) {x : Nat} (hx : Live doc x) :
    ∃ before old after, valueText doc.data x = .ok old ∧ doc.write = .ok (before ++ old ++ after) ∧
      ∀ op doc', op.isSet = true → doc.edit x op = .ok doc' →
        ∃ new, valueText doc'.data x = .ok new ∧ doc'.write = .ok (before ++ new ++ after) := by
  obtain ⟨t, ht⟩ := h.holds
  obtain ⟨u, hu⟩ := (ht.live_iff x).1 hx
  obtain ⟨p, ha⟩ := ht.at hu
  obtain ⟨a, b, h1, h2⟩ := ht.context hu
  refine ⟨a ++ u.pre, u.render, b, ha.text, by simpa [Tree.text] using h1, fun op doc' hs he => ?_⟩
  obtain ⟨s, _, hsuf, _, h3⟩ := ht.editSet hu hs he
  obtain ⟨_, ha'⟩ := h3.at (Tree.find_upd hu rfl)
  exact ⟨_, ha'.text, by simpa [Tree.text] using h2 doc' _ rfl hsuf h3⟩

example : ∃ before old after, valueText sample.data 8 = .ok old ∧ sample.write = .ok (before ++ old ++ after) ∧
    ∀ op doc', op.isSet = true → sample.edit 8 op = .ok doc' →
      ∃ new, valueText doc'.data 8 = .ok new ∧ doc'.write = .ok (before ++ new ++ after) :=
  C10_set_local sample_reachable sample_live_inner

example : (sample.after 8 (.setBool true)).write = .ok (b! "a: 1\nlist:\n  - x # c\n  - true\nb: [p, q]\n") := by decide

/-- The text of a string in the given style. -/
def quoted : StringKind → Bytes → Bytes
  | .bare, s => s
  | .single, s => quoteSingle s
  | .double, s => quoteDouble s

theorem strWithScalar_write (s : Bytes) (k : StringKind) : (strWithScalar s k).write = quoted k s := by
  cases k
  · rfl
  · rw [quoted, quoteSingle, ← escapeSingleBody_eq]; rfl
  · rw [quoted, quoteDouble, ← escapeDoubleBody_eq]; rfl

theorem strScalar_eq (s : Bytes) : strScalar s = strWithScalar s (preferred s) := by
  unfold strScalar strWithScalar
  rw [detect_eq]
  cases preferred s <;> rfl

/-- What the setters write. -/
def Op.newText : Op → Option Bytes
  | .setBool true => some (b! "true")
  | .setBool false => some (b! "false")
  | .setNumber text _ => some text
  | .setNull .keyword => some (b! "null")
  | .setNull .tilde => some (b! "~")
  | .setNull .empty => some []
  | .setStringWith s k => some (quoted k s)
  | .setString s => some (quoted (preferred s) s)
  | _ => none

/-- C10, the new text (for `set_block` see C34). -/
theorem C10_set_text {doc doc' : Document} (h : Reachable doc) {x : Nat} (hx : Live doc x) {op : Op} {new : Bytes}
    (hn : op.newText = some new) (he : doc.edit x op = .ok doc') : valueText doc'.data x = .ok new := by
  obtain ⟨t, ht⟩ := h.holds
  obtain ⟨u, hu⟩ := (ht.live_iff x).1 hx
  have hs : op.isSet = true := by cases op <;> simp [Op.newText, Op.isSet] at hn ⊢
  obtain ⟨s, h1, _, _, h3⟩ := ht.editSet hu hs he
  obtain ⟨_, ha'⟩ := h3.at (Tree.find_upd hu rfl)
  rw [ha'.text]
  unfold Op.newText at hn
  split at hn <;> simp only [Op.scalar, Option.some.injEq, reduceCtorEq] at h1 hn <;> subst h1 <;> subst hn <;> try rfl
  · exact congrArg _ (strWithScalar_write ..)
  · rw [strScalar_eq]; exact congrArg _ (strWithScalar_write ..)

example {doc'} (h : sample.edit 10 (.setStringWith (b! "it's") .single) = .ok doc') :
    valueText doc'.data 10 = .ok (b! "'it''s'") := C10_set_text sample_reachable sample_live_k rfl h

/-! ### C11, C34 -/

/-- Lines joined and chomped: `join` between lines, and one line break at the end unless stripped. -/
def joinLines (b : Block) (lines : List Bytes) : Bytes :=
  match b with
  | .literal c => List.intercalate [NL] lines ++ (if c = .strip then [] else [NL])
  | .folded c => List.intercalate [SP] lines ++ (if c = .strip then [] else [NL])

theorem blockContent_eq (j : UInt8) (c : Chomp) : ∀ lines, blockContent j c lines =
    List.intercalate [j] lines ++ (if c = .strip then [] else [NL])
  | [] => by cases c <;> rfl
  | [l] => by cases c <;> simp [blockContent, List.intercalate]
  | l :: l' :: ls => by
    rw [blockContent, blockContent_eq j c (l' :: ls)]
    · simp [List.intercalate, List.intersperse]
    · simp

/-- How a value reads after it was set. -/
def Op.reads : Op → Option AnyV
  | .setNull _ => some .null
  | .setString s => some (.string s)
  | .setStringWith s _ => some (.string s)
  | .setBlock lines b => some (.string (joinLines b lines))
  | .setBool v => some (.bool v)
  | .setNumber text _ => some (.number text)
  | _ => none

/-- What a typed accessor returns for a value that reads so. -/
def AnyV.bytes : AnyV → Option Bytes
  | .string s => some s
  | _ => none

/-- See `AnyV.bytes`. -/
def AnyV.text : AnyV → Option Bytes
  | .string s => if validUtf8 s then some s else none
  | _ => none

/-- See `AnyV.bytes`. -/
def AnyV.truth : AnyV → Option Bool
  | .bool b => some b
  | _ => none

/-- See `AnyV.bytes`. -/
def AnyV.digits : AnyV → Option Bytes
  | .number s => some s
  | _ => none

/-- C11: a value that was set reads back as the value set, through `as_any` and each typed
accessor; the others return nothing. -/
theorem C11_set_reads {doc doc' : Document} (h : Reachable doc) {x : Nat} (hx : Live doc x) {op : Op} {a : AnyV}
    (hr : op.reads = some a) (he : doc.edit x op = .ok doc') :
    Live doc' x ∧ asAny doc'.data x = .ok a ∧
    asBstr doc'.data x = .ok a.bytes ∧ asStr doc'.data x = .ok a.text ∧
    asBool doc'.data x = .ok a.truth ∧ asNumber doc'.data x = .ok a.digits ∧
    asMapping doc'.data x = .ok none ∧ asSequence doc'.data x = .ok none := by
  obtain ⟨t, ht⟩ := h.holds
  obtain ⟨u, hu⟩ := (ht.live_iff x).1 hx
  have hs : op.isSet = true := by cases op <;> simp [Op.reads, Op.isSet] at hr ⊢
  obtain ⟨s, h1, _, _, h3⟩ := ht.editSet hu hs he
  obtain ⟨_, ha⟩ := h3.at (Tree.find_upd hu rfl)
  have hg := raw_of ha.get
  refine ⟨(h3.live_iff x).2 ⟨_, Tree.find_upd hu rfl⟩, ?_⟩
  cases op <;> simp only [Op.scalar, Op.reads, Option.some.injEq, reduceCtorEq] at h1 hr <;> subst h1 <;> subst hr
  case setBlock lines b =>
    have : blockContent b.join b.chomp lines = joinLines b lines := by
      rw [blockContent_eq]; cases b <;> rfl
    simp [asAny, asBool, asNumber, asBstr, asStr, asMapping, asSequence, hg, bind, Except.bind, pure,
 Except.pure, Tree.raw, Scalar.toRaw, AnyV.bytes, AnyV.text, AnyV.truth,
      AnyV.digits, blockScalar, this]
  all_goals
    simp [asAny, asBool, asNumber, asBstr, asStr, asMapping, asSequence, hg, bind, Except.bind, pure,
 Except.pure, Tree.raw, Scalar.toRaw, AnyV.bytes, AnyV.text, AnyV.truth,
      AnyV.digits, nullScalar, strScalar, strWithScalar, boolScalar]

example {doc'} (h : sample.edit 4 (.setString (b! "x")) = .ok doc') : asStr doc'.data 4 = .ok (some (b! "x")) :=
  (C11_set_reads (a := .string (b! "x")) sample_reachable sample_live_list rfl h).2.2.2.1

example {doc'} (h : sample.edit 2 (.setBlock [b! "one", b! "two"] (.folded .clip)) = .ok doc') :
    asStr doc'.data 2 = .ok (some (b! "one two\n")) :=
  (C11_set_reads (a := .string (b! "one two\n")) sample_reachable sample_live_a rfl h).2.2.2.1

/-- The line of `pre` that a value after it starts on. -/
def IsLastLine (pre line : Bytes) : Prop :=
  NL ∉ line ∧ (pre = line ∨ ∃ before, pre = before ++ [NL] ++ line)

theorem isLastLine_lastLine (s : Bytes) : IsLastLine s (lastLine s) := by
  refine ⟨?_, ?_⟩
  · simp only [lastLine, List.mem_reverse]
    intro h
    have := List.all_takeWhile (p := (· != NL)) (l := s.reverse)
    rw [List.all_eq_true] at this
    simpa using this _ h
  · have h := List.takeWhile_append_dropWhile (p := (· != NL)) (l := s.reverse)
    have h' := congrArg List.reverse h
    simp only [List.reverse_append, List.reverse_reverse] at h'
    cases hd : s.reverse.dropWhile (· != NL) with
    | nil => left; rw [hd] at h'; simpa [lastLine] using h'.symm
    | cons b r =>
      right
      have hb : b = NL := by
        have h1 := List.head?_dropWhile_not (· != NL) s.reverse
        rw [hd] at h1
        simpa using h1
      refine ⟨r.reverse, ?_⟩
      rw [hd, hb] at h'
      simp only [List.reverse_cons] at h'
      exact h'.symm

/-- The text of a block: indicator, chomping indicator, and each line on a line of its own. -/
def blockLayout (b : Block) (indent : Bytes) (lines : List Bytes) : Bytes :=
  (match b with | .literal _ => b! "|" | .folded _ => b! ">") ++
  (match b with
    | .literal .strip | .folded .strip => b! "-"
    | .literal .keep | .folded .keep => b! "+"
    | _ => []) ++
  lines.flatMap fun l => [NL] ++ indent ++ l

theorem blockText_eq (b : Block) (pre : Bytes) (n : Nat) (lines : List Bytes) :
    blockText b.mark b.chomp pre n lines = blockLayout b (pre ++ List.replicate n SP) lines := by
  cases b with
  | literal c => cases c <;> simp [blockText, blockLayout, Block.mark, Block.chomp, Chomp.asByte]
  | folded c => cases c <;> simp [blockText, blockLayout, Block.mark, Block.chomp, Chomp.asByte]

/-- C34: the text `set_block` leaves.  On a collection the lines are indented two columns deeper
than it was; on a scalar two columns deeper than the text on the line it starts on. -/
theorem C34_set_block_text {doc doc' : Document} (h : Reachable doc) {x : Nat} (hx : Live doc x) {lines : List Bytes}
    {b : Block} (he : doc.edit x (.setBlock lines b) = .ok doc') :
    ∃ indent, valueText doc'.data x = .ok (blockLayout b indent lines) ∧
      (∀ c, doc.data.mapping x = .ok c ∨ doc.data.sequence x = .ok c → indent = List.replicate (c.indent + 2) SP) ∧
      (asMapping doc.data x = .ok none → asSequence doc.data x = .ok none →
        ∃ pre line, doc.data.pre x = .ok pre ∧ IsLastLine pre line ∧ indent = line ++ b! "  ") := by
  obtain ⟨t, ht⟩ := h.holds
  obtain ⟨u, hu⟩ := (ht.live_iff x).1 hx
  obtain ⟨p, ha⟩ := ht.at hu
  obtain ⟨s, h1, _, _, h3⟩ := ht.editSet hu rfl he
  obtain ⟨_, ha'⟩ := h3.at (Tree.find_upd hu rfl)
  simp only [Op.scalar, Option.some.injEq] at h1
  subst h1
  refine ⟨(blockIndent u).2 ++ List.replicate (blockIndent u).1 SP, ?_, ?_, ?_⟩
  · rw [← blockText_eq]; exact ha'.text
  · intro c hc
    have hg := ha.get
    cases u with
    | leaf i q s => cases s <;> simp [Data.mapping, Data.sequence, hg, Tree.raw, Scalar.toRaw] at hc
    | node i q m ind k items =>
      cases m <;> simp [Data.mapping, Data.sequence, hg, Tree.raw, collRaw] at hc <;> subst hc <;> rfl
  · intro hm hsq
    have hg := ha.get
    cases u with
    | leaf i q s => exact ⟨q, _, pre_of hg, isLastLine_lastLine q, rfl⟩
    | node i q m ind k items =>
      cases m <;> simp [asMapping, asSequence, raw_of hg, Tree.raw, collRaw, bind, Except.bind, pure, Except.pure] at hm hsq

example {doc'} (h : sample.edit 4 (.setBlock [b! "one", b! "two"] (.literal .keep)) = .ok doc') :
    valueText doc'.data 4 = .ok (b! "|+\n    one\n    two") := by
  obtain ⟨indent, h1, h2, _⟩ := C34_set_block_text sample_reachable sample_live_list h
  rw [h1, h2 ⟨2, .block, [5, 7]⟩ (.inr (by decide))]
  rfl

/-! ### Values that are inserted or pushed -/

/-- How an inserted value reads. -/
def Val.reads : Val → AnyV
  | .null _ => .null
  | .str s => .string s
  | .block lines b => .string (joinLines b lines)
  | .bool v => .bool v
  | .number text _ => .number text

/-- The text of a value inserted into a collection with this indentation. -/
def Val.newText (indent : Nat) : Val → Bytes
  | .null _ => []
  | .str s => quoted (preferred s) s
  | .block lines b => blockLayout b (List.replicate (indent + 2) SP) lines
  | .bool true => b! "true"
  | .bool false => b! "false"
  | .number text _ => text

theorem Val.scalar_reads {d : Data} {i pre par} {v : Val} {u : Tree Nat} (h : d.slab.get i = some ⟨(v.scalar u).toRaw, pre, par⟩) :
    asAny d i = .ok v.reads := by
  simp only [asAny, raw_of h, bind, Except.bind, pure, Except.pure]
  cases v with
  | block lines b =>
    have : blockContent b.join b.chomp lines = joinLines b lines := by
      rw [blockContent_eq]; cases b <;> rfl
    simp [Val.scalar, Scalar.toRaw, blockScalar, Val.reads, this]
  | _ => rfl

theorem Val.scalar_write {v : Val} {x p m n k items} : (v.scalar (.node x p m n k items)).write = v.newText n := by
  cases v with
  | null => rfl
  | str s => rw [Val.scalar, strScalar_eq]; exact strWithScalar_write ..
  | block lines b =>
    have := blockText_eq b [] (n + 2) lines
    simp only [List.nil_append] at this
    exact this
  | bool b => cases b <;> rfl
  | number => rfl

end Verif
