import Verif.Shown
import Verif.Utf8Spec
import Verif.Leaves
import Verif.Keys
import Verif.Props.Handles
import Verif.Props.Quoting
import Verif.Props.Check
/-
C80: what `Display` gives for texts that are not UTF-8.
-/
namespace Verif

mutual
theorem Tree.shown_find {x : Nat} {u : Tree Nat} : ∀ {t : Tree Nat}, t.shown → t.find x = some u → u.shown
  | .leaf i p s, h, hf => by
    simp only [Tree.find] at hf
    split at hf
    · cases hf; exact h
    · cases hf
  | .node i p m n k items, h, hf => by
    simp only [Tree.find] at hf
    split at hf
    · cases hf; exact h
    · exact Items.shown_find h.1 hf
theorem Items.shown_find {x : Nat} {u : Tree Nat} {m : Bool} : ∀ {is : Items Nat}, is.shown m → is.find x = some u → u.shown
  | .nil, _, hf => by simp [Items.find] at hf
  | .cons i p key v rest, h, hf => by
    simp only [Items.find] at hf
    cases hv : v.find x with
    | some w => rw [hv] at hf; cases hf; exact Tree.shown_find h.2.1 hv
    | none => rw [hv] at hf; exact Items.shown_find h.2.2 hf
end

theorem Items.erase_isNil' {α} (is : Items α) : is.erase.isNil = is.isNil := by cases is <;> rfl
theorem Tree.erase_pre' {α} (t : Tree α) : t.erase.pre = t.pre := by cases t <;> rfl
theorem Tree.erase_showsPre {α} (t : Tree α) : t.erase.showsPre = t.showsPre := by
  cases t <;> simp only [Tree.erase, Tree.showsPre, Items.erase_isNil']

mutual
theorem Tree.erase_disp {α} : ∀ t : Tree α, t.erase.disp = t.disp
  | .leaf _ _ _ => rfl
  | .node _ _ _ _ _ items => by simp only [Tree.erase, Tree.disp, Items.erase_disp items]
theorem Items.erase_disp {α} {m : Bool} {k : CollKind} : ∀ is : Items α, is.erase.disp m k = is.disp m k
  | .nil => rfl
  | .cons _ _ _ v rest => by simp only [Items.erase, Items.disp, Tree.erase_disp v, Tree.erase_pre', Tree.erase_showsPre, Items.erase_disp rest, Items.erase_isNil']
end

mutual
theorem Tree.erase_shown {α} : ∀ t : Tree α, t.erase.shown ↔ t.shown
  | .leaf _ _ _ => Iff.rfl
  | .node _ _ m _ _ items => by simp only [Tree.erase, Tree.shown, Items.erase_shown (m := m) items, Items.erase_isNil']
theorem Items.erase_shown {α} {m : Bool} : ∀ is : Items α, is.erase.shown m ↔ is.shown m
  | .nil => Iff.rfl
  | .cons _ p key v rest => by simp only [Items.erase, Items.shown, Tree.erase_shown v, Items.erase_shown rest]
end

theorem allows_all (inp : Bytes) : Allows inp fun _ _ => True :=
  ⟨fun _ => trivial, fun _ _ => trivial, fun _ => trivial, fun _ _ _ _ => trivial, fun _ _ => trivial, fun _ _ _ _ => trivial, fun _ _ _ => trivial, fun _ _ _ _ _ _ _ => trivial⟩

/-- A document that was read from any bytes: what is shown of it and of every value in it. -/
theorem parsed_shown {inp : Bytes} {doc : Document} (h : Parsed inp doc) :
    (∃ out, doc.write = .ok out ∧ doc.display = .ok (lossy out)) ∧
    ∀ x, Live doc x → ∃ out, valueText doc.data x = .ok out ∧ valueDisplay doc.data x = .ok (lossy out) := by
  obtain ⟨f, h⟩ := h
  rw [parseF_refine] at h
  cases hp : pparseF f inp with
  | error e => rw [hp] at h; cases h
  | ok r =>
    obtain ⟨t, suffix⟩ := r
    rw [hp] at h
    cases h
    have hsh := parse_shown hp
    obtain ⟨k, e, h1, h2, h3, h4, rfl⟩ := pparsed_lies hp
    obtain ⟨g1, g2, g3⟩ := Lies.shows h3 hsh
    have hd := docOf_holds t (slice inp e inp.length)
    have e1 : (t.label 0).text = t.text := by rw [← Tree.erase_text, erase_label]
    have e2 : (t.label 0).pre = t.pre := Tree.label_pre 0 t
    have e3 : (t.label 0).disp = t.disp := by rw [← Tree.erase_disp, erase_label]
    refine ⟨⟨_, hd.write, ?_⟩, fun x hx => ?_⟩
    · rw [hd.display, e2, e3, g1, e1]
      show Except.ok (lossy t.text ++ lossy (slice inp e inp.length)) = .ok (lossy (t.text ++ slice inp e inp.length))
      rw [lossy_split]
      by_cases hlt : e < inp.length
      · refine .inr (.inr (.inl ?_))
        rw [show Verif.hd (slice inp e inp.length) = _ from slice_headD hlt]
        exact ascii_notCont (h4.head hlt)
      · exact .inr (.inl (slice_none (by omega)))
    · obtain ⟨u, hu⟩ := (hd.live_iff x).1 hx
      obtain ⟨p, ha⟩ := hd.at hu
      refine ⟨_, ha.text, ?_⟩
      rw [ha.shown]
      obtain ⟨_, q, F, k1, -⟩ := Tree.find_part hu
      rw [← erase_label 0 t] at h3
      obtain ⟨s, b, d, r, lo, -, -, k3, -⟩ := h3.part (allows_all inp) hd.rep k1
      have := (Lies.shows k3 ((Tree.erase_shown u).2 (Tree.shown_find ((Tree.label_shown 0 t).2 hsh) hu))).2.2
      rw [← Tree.erase_disp, this, Tree.erase_render]

/-! ### Strings in quotes -/

theorem escapeDoubleDisplay_lossy : ∀ (s cur : Bytes), escapeDoubleDisplayGo cur s = lossy (cur ++ escapeDoubleBody s)
  | [], cur => by simp [escapeDoubleDisplayGo, escapeDoubleBody]
  | b :: r, cur => by
    rw [escapeDoubleDisplayGo, escapeDoubleBody]
    cases h : escapeByte b with
    | none =>
      simp only [Option.getD_none]
      rw [escapeDoubleDisplay_lossy r, List.append_assoc]
    | some e =>
      simp only [Option.getD_some]
      have := byte_cases (p := fun b => ∀ c ∈ (escapeByte b).getD [], c < 0x80) (by set_option maxRecDepth 100000 in decide) b
      rw [h] at this
      have ha : ∀ e : Bytes, (∀ c ∈ e, c < 0x80) → ∀ y, lossy (e ++ y) = e ++ lossy y := by
        intro e
        induction e with
        | nil => intro _ _; rfl
        | cons c e ih =>
          intro he y
          rw [List.cons_append, lossy_ascii (he c (List.mem_cons_self ..)), ih (fun d hd => he d (List.mem_cons_of_mem _ hd))]; rfl
      rw [escapeDoubleDisplay_lossy r, List.nil_append, List.append_assoc, ← ha e this, ← lossy_split (a := cur)]
      cases e with
      | nil => exact absurd h (byte_cases (p := fun b => escapeByte b ≠ some []) (by set_option maxRecDepth 100000 in decide) b)
      | cons c e => exact .inr (.inr (.inl (ascii_notCont (this c (List.mem_cons_self ..)))))

theorem escapeSingleDisplay_lossy : ∀ (s cur : Bytes), escapeSingleDisplayGo cur s = lossy (cur ++ escapeSingleBody s)
  | [], cur => by simp [escapeSingleDisplayGo, escapeSingleBody]
  | b :: r, cur => by
    rw [escapeSingleDisplayGo, escapeSingleBody]
    by_cases h : (b == SQ) = true
    · rw [if_pos h, if_pos h, escapeSingleDisplay_lossy r, lossy_mid (by decide), lossy_ascii (by decide)]
      simp
    · rw [if_neg h, if_neg h, escapeSingleDisplay_lossy r, List.append_assoc]; rfl

/-- What is shown of a string is what is written of it. -/
theorem RStr.display_lossy {s : RStr} (h : ∀ p, s.kind ≠ .multiline p) : s.display = lossy s.write := by
  unfold RStr.display RStr.write
  cases hk : s.kind with
  | bare => rfl
  | double =>
    simp only [escapeDouble]
    rw [escapeDoubleDisplay_lossy, List.nil_append, show [DQ] ++ escapeDoubleBody s.id ++ [DQ] = DQ :: (escapeDoubleBody s.id ++ DQ :: []) from rfl, lossy_ascii (by decide), lossy_mid (by decide)]; rfl
  | single =>
    simp only [escapeSingle]
    rw [escapeSingleDisplay_lossy, List.nil_append, show [SQ] ++ escapeSingleBody s.id ++ [SQ] = SQ :: (escapeSingleBody s.id ++ SQ :: []) from rfl, lossy_ascii (by decide), lossy_mid (by decide)]; rfl
  | original => rfl
  | multiline p => exact absurd hk (h p)

theorem strScalar_lossy (s : Bytes) : (strScalar s).disp = lossy (strScalar s).write :=
  RStr.display_lossy fun p hp => by
    have hk : detect s = .multiline p := hp
    rcases detect_kind s with h | h | h <;> rw [h] at hk <;> cases hk

theorem Op.scalar_lossy {op : Op} {u : Tree Nat} {s : Scalar} (hs : op.scalar u = some s) : s.disp = lossy s.write := by
  cases op <;> simp only [Op.scalar, Option.some.injEq, reduceCtorEq] at hs <;> subst hs
  case setNull k => cases k <;> rfl
  case setString s => exact strScalar_lossy s
  case setStringWith s k => exact RStr.display_lossy (fun p hp => by cases k <;> cases hp)
  case setBlock l b => rfl
  case setBool v => cases v <;> rfl
  case setNumber s h => rfl

theorem Val.scalar_lossy {v : Val} {u : Tree Nat} : (v.scalar u).disp = lossy (v.scalar u).write := by
  cases v
  case null sep => rfl
  case str s => exact strScalar_lossy s
  case block l b => rfl
  case bool v => cases v <;> rfl
  case number s h => rfl

mutual
theorem Tree.shown_all {α} : ∀ {t : Tree α}, t.shown → t.all fun s => s.disp = lossy s.write
  | .leaf _ _ _, h => h.1
  | .node _ _ _ _ _ items, h => Items.shown_all (is := items) h.1
theorem Items.shown_all {α} {m : Bool} : ∀ {is : Items α}, is.shown m → is.all fun s => s.disp = lossy s.write
  | .nil, _ => trivial
  | .cons _ _ _ _ _, h => ⟨Tree.shown_all h.2.1, Items.shown_all h.2.2⟩
end

theorem Reachable.scalars_lossy {doc : Document} (h : Reachable doc) : ∃ t, Holds doc t ∧ t.all fun s => s.disp = lossy s.write := by
  induction h with
  | @parsed inp doc h =>
    obtain ⟨f, hf⟩ := h
    rw [parseF_refine] at hf
    cases hp : pparseF f inp with
    | error e => rw [hp] at hf; cases hf
    | ok r =>
      obtain ⟨t, suffix⟩ := r
      rw [hp] at hf
      cases hf
      exact ⟨_, docOf_holds t suffix, Tree.shown_all ((Tree.label_shown 0 t).2 (parse_shown hp))⟩
  | @edited doc doc' x op _ hl he ih =>
    obtain ⟨t, ht, hs⟩ := ih
    obtain ⟨u, hu⟩ := (ht.live_iff x).1 hl
    obtain ⟨d', i, v, mk, h1, _, h3, h4⟩ := ht.editTree hu op
    simp only [Document.edit, h1, bind, Except.bind, pure, Except.pure, Except.ok.injEq] at he
    subst he
    exact ⟨_, h4, Tree.all_upd (Op.tree_all (Tree.all_find hs hu) (fun s h => Op.scalar_lossy h) (fun _ _ => Val.scalar_lossy)) hs⟩

/-! ### C80 -/

/-- C80: a document read from any bytes is shown as it is written, with U+FFFD for every maximal part that is not UTF-8. -/
theorem C80_document {inp : Bytes} {doc : Document} (h : Parsed inp doc) :
    ∃ out cs, doc.write = .ok out ∧ Replaced out cs ∧ doc.display = .ok (encode cs) := by
  obtain ⟨⟨out, h1, h2⟩, -⟩ := parsed_shown h
  obtain ⟨cs, hc⟩ := Replaced.total out
  exact ⟨out, cs, h1, hc, by rw [h2, hc.lossy]⟩

/-- C80: so is every value in it. -/
theorem C80_value {inp : Bytes} {doc : Document} (h : Parsed inp doc) {x : Nat} (hx : Live doc x) :
    ∃ out cs, valueText doc.data x = .ok out ∧ Replaced out cs ∧ valueDisplay doc.data x = .ok (encode cs) := by
  obtain ⟨out, h1, h2⟩ := (parsed_shown h).2 x hx
  obtain ⟨cs, hc⟩ := Replaced.total out
  exact ⟨out, cs, h1, hc, by rw [h2, hc.lossy]⟩

/-- C80: so is every value that is not a collection, in a document with any history of edits: bytes given to the edits need not be UTF-8 either. -/
theorem C80_scalar {doc : Document} (h : Reachable doc) {x : Nat} (hx : Live doc x) {a : AnyV} (ha : asAny doc.data x = .ok a) (hs : a.isScalar = true) :
    ∃ out cs, valueText doc.data x = .ok out ∧ Replaced out cs ∧ valueDisplay doc.data x = .ok (encode cs) := by
  obtain ⟨t, ht, hall⟩ := h.scalars_lossy
  obtain ⟨u, hu⟩ := (ht.live_iff x).1 hx
  obtain ⟨p, hat⟩ := ht.at hu
  obtain ⟨cs, hc⟩ := Replaced.total u.render
  refine ⟨_, cs, hat.text, hc, ?_⟩
  rw [hat.shown]
  cases u with
  | leaf i q s =>
    have : s.disp = lossy s.write := Tree.all_find hall hu
    show Except.ok s.disp = _
    rw [this]
    exact congrArg _ hc.lossy
  | node i q m n k items =>
    exfalso
    have hr := raw_of hat.rep.head
    rw [show (Tree.node i q m n k items).id = x from hat.id] at hr
    cases m <;> simp [asAny, hr, collRaw, Tree.raw, bind, Except.bind, pure, Except.pure] at ha <;> subst ha <;> cases hs

/-- The text `set_string` and `set_string_with` write for a string. -/
def textAs (s : Bytes) : StringKind → Bytes
  | .bare => s
  | .single => quoteSingle s
  | .double => quoteDouble s

/-- C80: any bytes set as a string are shown in the quotes they are written in, with U+FFFD for what is not UTF-8. -/
theorem C80_string {doc doc' : Document} (h : Reachable doc) {x : Nat} (hx : Live doc x) {s : Bytes} {k : StringKind}
    (he : doc.edit x (.setStringWith s k) = .ok doc' ∨ k = preferred s ∧ doc.edit x (.setString s) = .ok doc') :
    ∃ cs, valueText doc'.data x = .ok (textAs s k) ∧ Replaced (textAs s k) cs ∧ valueDisplay doc'.data x = .ok (encode cs) := by
  obtain ⟨t, ht⟩ := h.holds
  obtain ⟨u, hu⟩ := (ht.live_iff x).1 hx
  obtain ⟨cs, hc⟩ := Replaced.total (textAs s k)
  have key : ∃ sc : Scalar, sc = strWithScalar s k ∧ Holds doc' (Tree.upd x (.leaf x u.pre sc) t) := by
    rcases he with he | ⟨rfl, he⟩
    · obtain ⟨sc, hsc, -, -, hh⟩ := ht.editSet hu rfl he
      exact ⟨sc, (Option.some.inj hsc).symm, hh⟩
    · obtain ⟨sc, hsc, -, -, hh⟩ := ht.editSet hu rfl he
      refine ⟨sc, ?_, hh⟩
      rw [← Option.some.inj hsc]
      simp only [strScalar, strWithScalar, detect_eq]
      cases preferred s <;> rfl
  obtain ⟨sc, rfl, hh⟩ := key
  obtain ⟨_, hat⟩ := hh.at (Tree.find_upd hu rfl)
  have e : (strWithScalar s k).write = textAs s k := by
    cases k with
    | bare => rfl
    | single => exact (quoteSingle_eq s).symm
    | double => exact (quoteDouble_eq s).symm
  refine ⟨cs, ?_, hc, ?_⟩
  · rw [hat.text]; exact congrArg _ e
  · rw [hat.shown]
    show Except.ok (strWithScalar s k).disp = _
    rw [show (strWithScalar s k).disp = lossy (strWithScalar s k).write from RStr.display_lossy (fun p hp => by cases k <;> cases hp), e, hc.lossy]

/-- C80: whatever is shown is UTF-8: of a document, of a value and of a collection, in any state. -/
theorem C80_utf8 {d : Data} {x : Nat} {out : Bytes} (h : valueDisplay d x = .ok out ∨ mappingDisplay d x = .ok out ∨ sequenceDisplay d x = .ok out ∨
    ∃ doc : Document, doc.display = .ok out) : ∃ cs, out = encode cs := by
  refine valid_iff.1 ?_
  rcases h with h | h | h | ⟨doc, h⟩
  · unfold valueDisplay at h
    cases hr : d.raw x with
    | error e => simp only [hr, bind, Except.bind] at h; cases h
    | ok r => simp only [hr, bind, Except.bind] at h; exact dispRawF_utf8 _ _ _ _ h
  · unfold mappingDisplay at h
    cases hr : d.mapping x with
    | error e => simp only [hr, bind, Except.bind] at h; cases h
    | ok r => simp only [hr, bind, Except.bind] at h; exact dispRawF_utf8 _ _ _ _ h
  · unfold sequenceDisplay at h
    cases hr : d.sequence x with
    | error e => simp only [hr, bind, Except.bind] at h; cases h
    | ok r => simp only [hr, bind, Except.bind] at h; exact dispRawF_utf8 _ _ _ _ h
  · unfold Document.display at h
    cases hp : doc.data.pre doc.root with
    | error e => simp only [hp, bind, Except.bind] at h; cases h
    | ok p =>
      cases hr : doc.data.raw doc.root with
      | error e => simp only [hp, hr, bind, Except.bind] at h; cases h
      | ok r =>
        simp only [hp, hr, bind, Except.bind] at h
        cases hd : dispRawF doc.data.fuel doc.data r none with
        | error e => rw [hd] at h; cases h
        | ok b =>
          rw [hd] at h
          cases h
          exact valid_append' (valid_append' (lossy_utf8 _) (dispRawF_utf8 _ _ _ _ hd)) (lossy_utf8 _)

/-- C02, C76, exactly: a document that is parsed from any bytes is displayed as it is written, and the check of `Display` does not fail, just if what is written is UTF-8. -/
theorem C76_exact {inp : Bytes} {doc : Document} (h : Parsed inp doc) : ∃ out, doc.write = .ok out ∧ (doc.display = .ok out ↔ ∃ cs, out = encode cs) ∧
    (doc.displayChecked = .ok out ↔ ∃ cs, out = encode cs) ∧ (doc.displayChecked = .error .panic ↔ ¬ ∃ cs, out = encode cs) := by
  obtain ⟨⟨out, h1, h2⟩, -⟩ := parsed_shown h
  have hv : lossy out = out ↔ ∃ cs, out = encode cs := by
    rw [← valid_iff]
    exact ⟨valid_of_lossy, lossy_valid⟩
  have hc : doc.displayChecked = if lossy out = out then .ok (lossy out) else .error .panic := by
    simp only [Document.displayChecked, h1, h2, bind, Except.bind, pure, Except.pure]
  refine ⟨out, h1, ?_, ?_, ?_⟩
  · rw [h2, Except.ok.injEq, hv]
  · rw [hc, ← hv]
    split
    · next he => simp [he]
    · next he => simp [he]
  · rw [hc, ← hv]
    split
    · next he => simp [he]
    · next he => simp [he]

/-! Examples. -/

/-- `- <E2 82>x` and `- '<FF>' # <C3>`. -/
def badText : Bytes := b! "- " ++ [0xE2, 0x82] ++ b! "x\n- '" ++ [0xFF] ++ b! "' # " ++ [0xC3] ++ b! "\n"

/-- A text with parts that are not UTF-8 in a plain string, in a comment and in a string in quotes: it is written as it is, and shown with three U+FFFD. -/
example : Parsed badText (docOfText badText) ∧ (docOfText badText).write = .ok badText ∧
    (docOfText badText).display = .ok (encode "- \uFFFDx\n- '\uFFFD' # \uFFFD\n".toList) ∧ valueDisplay (docOfText badText).data 2 = .ok (encode "\uFFFDx".toList) :=
  ⟨⟨40, by decide +kernel⟩, by decide +kernel, by decide +kernel, by decide +kernel⟩

/-- The hypotheses of `C80_value`, of `C80_scalar` and of `C80_string` with a string that is not UTF-8. -/
example : Live (docOfText badText) 2 ∧ Live (docOfText badText) 4 ∧ asAny (docOfText badText).data 4 = .ok (.string [0xFF]) :=
  ⟨.viaSeq [2, 4] .self (by decide +kernel) (by decide +kernel) (by decide), .viaSeq [2, 4] .self (by decide +kernel) (by decide +kernel) (by decide), by decide +kernel⟩

example : ∃ doc', (docOfText badText).edit 2 (.setStringWith [0xC3, SQ, 0xA9] .single) = .ok doc' ∧ valueText doc'.data 2 = .ok [SQ, 0xC3, SQ, SQ, 0xA9, SQ] ∧
    valueDisplay doc'.data 2 = .ok (encode "'\uFFFD''\uFFFD'".toList) := by
  refine ⟨(docOfText badText).after 2 (.setStringWith [0xC3, SQ, 0xA9] .single), ?_, ?_, ?_⟩ <;> decide +kernel

/-- One U+FFFD stands for the start of a character that is cut off, and for a byte that no character starts with. -/
example : lossy [0xE2, 0x82] = encode ['\uFFFD'] ∧ lossy [0xF0, 0x9F, 0x98] = encode ['\uFFFD'] ∧ lossy [0xC0, 0xAF] = encode ['\uFFFD', '\uFFFD'] ∧
    lossy [0xED, 0xA0, 0x80] = encode ['\uFFFD', '\uFFFD', '\uFFFD'] := by decide

end Verif
