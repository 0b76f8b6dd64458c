import Verif.LaidDocs
import Verif.Keys
/-
Setting a value and reading what is written: the values are those of the edited document (C79).
-/
namespace Verif

/-- C79: `old`, the text of a value of a text that is written as it was read, is replaced by any `set_*` with `new`.  If `new` fits in its place (see `FitsIn`), then what is written is
accepted, and all that is read from it is what is in the edited document.
(The text must be without header, without block scalars without a body, without commas after white space if there are lists in brackets, and UTF-8 or without comments.) -/
theorem C79_set_read {inp : Bytes} {doc : Document} (h : Parsed inp doc) (hw : doc.write = .ok inp) (hh : hasHeader inp = false) (hf : followed inp = true)
    (hc : noWsComma inp = true ∨ LBR ∉ inp) (hu : validUtf8 inp = true ∨ HASH ∉ inp) {x : Nat} (hx : Live doc x) {old : Bytes} (ho : valueText doc.data x = .ok old) (hn : old.headD 0 ≠ 0) :
    ∃ r s b d E, inp.drop r = skipBlank false inp ∧ b < d ∧ d ≤ inp.length ∧ old = slice inp b d ∧ ReadFrom inp doc x b d ∧ Within inp doc.data.view .block doc.root r s x b ∧
      Outer inp doc.data.view .block doc.root r s x b d E ∧
      ∀ op doc' new a, op.isSet = true → doc.edit x op = .ok doc' → valueText doc'.data x = .ok new → asAny doc'.data x = .ok a → FitsIn inp s.inline b d E new a →
        hasHeader (inp.take b ++ new ++ inp.drop d) = false →
        doc'.write = .ok (inp.take b ++ new ++ inp.drop d) ∧ ∃ doc'' v, Parsed (inp.take b ++ new ++ inp.drop d) doc'' ∧ Reads doc''.data doc''.root v ∧ Reads doc'.data doc'.root v := by
  obtain ⟨r, s, b, d, E, h1, h2, h3, _, h4⟩ := set_read h hw hh hf hc hu hx ho hn
  exact ⟨r, s, b, d, E, h1, h2, h3, h4⟩

/-! ### Texts without brackets -/

/-- There is nothing else on the line but white space and a comment. -/
def endsLine (rest : Bytes) : Bool := let b := (rest.dropWhile isOtherWs).headD NL; b == NL || b == HASH

theorem wsGo_hash : ∀ s : Bytes, NL ∈ s.take (wsGo true s).1 ∨ (wsGo true s).1 = s.length
  | [] => .inr rfl
  | b :: s => by
    by_cases hb : b = NL
    · subst hb
      left
      simp [wsGo]
    · have hb' : (b == NL) = false := by simpa using hb
      simp only [wsGo, hb', Bool.false_eq_true, if_false, List.take_succ_cons, List.mem_cons, List.length_cons]
      exact (wsGo_hash s).imp .inr (fun h => by rw [h])

theorem wsGo_ends : ∀ s : Bytes, endsLine s = true → NL ∈ s.take (wsGo false s).1 ∨ (wsGo false s).1 = s.length
  | [], _ => .inr rfl
  | b :: s, h => by
    by_cases hh : b = HASH
    · subst hh
      simp only [wsGo, beq_self_eq_true, if_true, List.take_succ_cons, List.mem_cons, List.length_cons]
      exact (wsGo_hash s).imp .inr (fun h => by rw [h])
    · by_cases hb : b = NL
      · subst hb
        left
        simp [wsGo, NL, HASH]
      · have hb' : (b == NL) = false := by simpa using hb
        have hh' : (b == HASH) = false := by simpa using hh
        by_cases ho : isOtherWs b = true
        · simp only [wsGo, hb', hh', ho, Bool.false_eq_true, if_false, if_true, List.take_succ_cons, List.mem_cons, List.length_cons]
          exact (wsGo_ends s (by simpa only [endsLine, List.dropWhile_cons, ho, if_true] using h)).imp .inr (fun h => by rw [h])
        · simp [endsLine, ho, hb, hh] at h

theorem endsLine_full {inp : Bytes} {d g : Nat} (hd : d ≤ inp.length) (he : endsLine (inp.drop d) = true) (h : FullGap inp d g) : NL ∈ slice inp d g ∨ g = inp.length := by
  have := wsGo_ends _ he
  rw [← h.eq]
  unfold wsEnd
  rw [slice, Nat.add_sub_cancel_left]
  rw [List.length_drop] at this
  exact this.imp id (by omega)

/-- What comes first after the text is none of the characters that a text in quotes must not have after it. -/
theorem endsLine_head {rest : Bytes} (h : endsLine rest = true) : rest.headD 0 ≠ COLON ∧ rest.headD 0 ≠ SQ := by
  cases rest with
  | nil => decide
  | cons b s =>
    simp only [List.headD_cons]
    constructor <;> rintro rfl <;> simp [endsLine, COLON, SQ, isOtherWs, NL, HASH, SP] at h

/-- There is no colon before the place, or no text in quotes after a colon goes on after it, what is replaced has no key in it, and `new` is on one line. -/
def KeysKept (inp : Bytes) (b d : Nat) (new : Bytes) : Prop := COLON ∉ inp.take b ∨
  (∀ c lo q k, inp[c]? = some COLON → FullGap inp (c + 1) lo → lo < b → inp[q]? = some COLON → InQuotes (slice inp lo q) k → q < b) ∧
    (∀ p, b ≤ p → p < d → ¬ KeyEnd inp p) ∧ NL ∉ new

instance (inp : Bytes) (p : Nat) : Decidable (KeyEnd inp p) := by unfold KeyEnd; infer_instance

theorem least {P : Nat → Prop} [DecidablePred P] {lo q : Nat} (h : lo ≤ q) (hq : P q) : ∃ p, lo ≤ p ∧ p ≤ q ∧ P p ∧ ∀ j, lo ≤ j → j < p → ¬ P j := by
  obtain ⟨n, rfl⟩ : ∃ n, q = lo + n := ⟨q - lo, by omega⟩
  clear h
  induction n generalizing lo with
  | zero => exact ⟨lo, Nat.le_refl _, Nat.le_refl _, hq, fun j h1 h2 => by omega⟩
  | succ n ih =>
    by_cases hp : P lo
    · exact ⟨lo, Nat.le_refl _, by omega, hp, fun j h1 h2 => by omega⟩
    · obtain ⟨p, h1, h2, h3, h4⟩ := ih (lo := lo + 1) (by rw [show lo + 1 + n = lo + (n + 1) by omega]; exact hq)
      refine ⟨p, by omega, by omega, h3, fun j g1 g2 => ?_⟩
      by_cases hj : j = lo
      · rw [hj]; exact hp
      · exact h4 j (by omega) g2

theorem dashes_ahead {x y : Bytes} (hy : isWs (y.headD 0) = false) (h : x ≠ []) : dashes (x ++ y) = dashes x := by
  cases x with
  | nil => exact absurd rfl h
  | cons c x =>
    cases x with
    | nil => simp only [dashes, List.cons_append, List.nil_append, List.headD_cons, List.tail_cons, hy]; simp [isWs, isOtherWs, SP, NL]
    | cons e x => rfl

/-- What is a key before is one after. -/
theorem keys_ahead {x y z : Bytes} {new : Bytes} (hy : isWs (y.headD 0) = false) (hy0 : y.headD 0 ≠ 0) (hn : isWs (new.headD 0) = false) (hn0 : new.headD 0 ≠ 0)
    (h : KeysKept (x ++ y ++ z) x.length (x ++ y).length new) :
    ∀ c k lo q, (x ++ y ++ z)[c]? = some COLON → FullGap (x ++ y ++ z) (c + 1) lo → lo < x.length → FirstKey (x ++ y ++ z) k lo q → ∃ k' q', FirstKey (x ++ new ++ z) k' lo q' := by
  intro c k lo q h1 h2 h3 ⟨g1, g2, g3⟩
  have hne : ∀ {s : Bytes}, s.headD 0 ≠ 0 → s ≠ [] := fun h e => by rw [e] at h; exact h rfl
  have hhd : ∀ {s : Bytes}, s.headD 0 ≠ 0 → (s ++ z).headD 0 = s.headD 0 := fun {s} h => by
    cases s with
    | nil => exact absurd rfl h
    | cons _ _ => rfl
  have hYw : isWs ((y ++ z).headD 0) = false := by rw [hhd hy0]; exact hy
  have hY0 : (y ++ z).headD 0 ≠ 0 := by rw [hhd hy0]; exact hy0
  have hNw : isWs ((new ++ z).headD 0) = false := by rw [hhd hn0]; exact hn
  have hN0 : (new ++ z).headD 0 ≠ 0 := by rw [hhd hn0]; exact hn0
  rcases h with h | ⟨a1, a2, a3⟩
  · exfalso
    have hc := h2.le.1
    rw [List.append_assoc, append_get (by omega)] at h1
    rw [List.append_assoc, List.take_left] at h
    exact h (List.mem_of_getElem? h1)
  have hdash : dashes ((x ++ (y ++ z)).drop lo) = dashes ((x ++ (new ++ z)).drop lo) := by
    have hx : x.drop lo ≠ [] := fun e => by
      have := congrArg List.length e
      simp at this
      omega
    rw [List.drop_append_of_le_length (Nat.le_of_lt h3), List.drop_append_of_le_length (Nat.le_of_lt h3), dashes_ahead hYw hx, dashes_ahead hNw hx]
  rcases Nat.lt_or_ge q x.length with hq | hq
  · rw [List.append_assoc] at g2 g3 ⊢
    refine ⟨k, q, g1, by rw [Joint.get (t := y ++ z) hq]; exact g2, ?_⟩
    rw [Joint.slice (t := y ++ z) (Nat.le_of_lt hq), Joint.getD (t := y ++ z) h3]
    rcases g3 with g3 | ⟨e1, e2, e3, e4, ⟨e5, e6⟩, e7⟩
    · exact .inl g3
    · refine .inr ⟨e1, e2, by rw [← hdash]; exact e3, e4, ⟨by rw [Joint.get (t := y ++ z) hq]; exact g2, ?_⟩, fun p p1 p2 p3 => e7 p p1 p2 ?_⟩
      · rcases Nat.lt_or_ge (q + 1) x.length with hl | hl
        · rw [Joint.getD (t := y ++ z) hl]; exact e6
        · rw [show q + 1 = x.length by omega, Joint.at0, hYw] at e6
          rcases e6 with e6 | e6
          · cases e6
          · exact absurd e6 hY0
      · unfold KeyEnd at p3 ⊢
        rw [Joint.get (t := y ++ z) (by omega), Joint.getD (t := y ++ z) (by omega)] at p3
        exact p3
  · rcases g3 with g3 | ⟨e1, e2, e3, e4, e5, e7⟩
    · exact absurd (a1 c lo q k h1 h2 h3 g2 g3) (by omega)
    · have hqd : (x ++ y).length ≤ q := by
        rcases Nat.lt_or_ge q (x ++ y).length with h | h
        · exact absurd e5 (a2 q hq h)
        · exact h
      obtain ⟨j, rfl⟩ : ∃ j, q = (x ++ y).length + j := ⟨q - (x ++ y).length, by omega⟩
      have hK : KeyEnd (x ++ new ++ z) ((x ++ new).length + j) := by
        unfold KeyEnd at e5 ⊢
        rw [sh_get, Nat.add_assoc, sh_getD] at e5 ⊢
        exact e5
      obtain ⟨p, p1, p2, p3, p4⟩ := least (P := KeyEnd (x ++ new ++ z)) (lo := lo) (q := (x ++ new).length + j) (by rw [List.length_append]; omega) hK
      refine ⟨slice (x ++ new ++ z) lo p, p, p1, p3.1, .inr ⟨rfl, ?_, ?_, ?_, p3, p4⟩⟩
      · rw [List.append_assoc] at e2 ⊢
        rw [Joint.getD (t := y ++ z) h3]; exact e2
      · rw [List.append_assoc] at e3 ⊢
        rw [← hdash]; exact e3
      · intro hm
        apply e4
        rw [← e1]
        have hm : NL ∈ slice (x ++ new ++ z) lo ((x ++ new).length + j) := by
          rw [← slice_append p1 p2]; exact List.mem_append_left _ hm
        rw [← slice_append (b := x.length) (by omega) (by rw [List.length_append]; omega), ← slice_append (a := x.length) (b := (x ++ new).length) (by simp) (by omega)] at hm
        rw [← slice_append (b := x.length) (by omega) (by rw [List.length_append]; omega), ← slice_append (a := x.length) (b := (x ++ y).length) (by simp) (by omega)]
        rw [List.mem_append, List.mem_append] at hm ⊢
        rcases hm with hm | hm | hm
        · rw [List.append_assoc, append_slice (Nat.le_refl _)] at hm ⊢
          exact .inl hm
        · rw [append_slice (Nat.le_refl _)] at hm
          simp [slice] at hm
          exact absurd hm a3
        · have hh := fun u : Bytes => sh_slice u z 0 j
          simp only [Nat.add_zero] at hh
          rw [hh] at hm ⊢
          exact .inr (.inr hm)

/-- Without quotes and colons. -/
theorem KeysKept.plain {inp : Bytes} {b d : Nat} {new : Bytes} (hb : b ≤ inp.length) (h1 : DQ ∉ inp.take b) (h2 : SQ ∉ inp.take b) (h3 : COLON ∉ slice inp b d) (h4 : NL ∉ new) : KeysKept inp b d new := by
  refine .inr ⟨fun c lo q k _ _ h5 h6 h7 => ?_, fun p p1 p2 ⟨p3, _⟩ => h3 ?_, h4⟩
  · exfalso
    have := inQuotes_hd h7
    have hlt : lo < q := by
      rcases Nat.lt_or_ge lo q with h | h
      · exact h
      · rw [slice_none h] at this; rcases this with h | h <;> cases h
    rw [show hd (slice inp lo q) = _ from slice_headD hlt] at this
    have hm : inp.getD lo 0 ∈ inp.take b := by
      rw [List.getD_eq_getElem?_getD, List.getElem?_eq_getElem (by omega : lo < inp.length), Option.getD_some, List.mem_take_iff_getElem]
      exact ⟨lo, by omega, rfl⟩
    rcases this with h | h <;> rw [h] at hm
    · exact h1 hm
    · exact h2 hm
  · rw [slice, List.mem_take_iff_getElem]
    have hl := (List.getElem?_eq_some_iff.1 p3).1
    refine ⟨p - b, by rw [List.length_drop]; omega, ?_⟩
    rw [List.getElem_drop]
    have := (List.getElem?_eq_some_iff.1 p3).2
    rw [← this]
    congr 1
    omega

theorem outer_block {α : Type} {inp : Bytes} {V : View α} {s : Spot} {x : α} {lo : Nat} {s' : Spot} {y : α} {lo' d E : Nat} (h : Outer inp V s x lo s' y lo' d E) (h1 : LBR ∉ inp)
    (h2 : LCB ∉ inp) : s'.inline = false ∧ E = d := by
  rcases h with ⟨h, rfl⟩ | ⟨_, _, _, _, _, h, _⟩
  · cases s' with
    | flow => exact absurd rfl h
    | _ => exact ⟨rfl, rfl⟩
  · rcases h with h | h
    · exact absurd (List.mem_of_getElem? h) h1
    · exact absurd (List.mem_of_getElem? h) h2

/-- In texts without brackets. -/
theorem fits_block {inp : Bytes} (hs : LBR ∉ inp) (hm : LCB ∉ inp) {V : View Nat} {r0 r b d E x : Nat} {s : Spot} (h7 : Outer inp V .block r0 r s x b d E) (h2 : b < d) (h3 : d ≤ inp.length)
    (hn : inp.getD b 0 ≠ 0) (h0 : isWs (inp.getD b 0) = false) {new : Bytes} {a : AnyV} (a5 : Token false (inp.drop d) new a) (a6 : new.headD 0 ≠ 0) (a7 : endsLine (inp.drop d) = true)
    (a8 : KeysKept inp b d new) : FitsIn inp s.inline b d E new a := by
  obtain ⟨e1, rfl⟩ := outer_block h7 hs hm
  rw [e1]
  refine ⟨a5, a6, fun g hg => endsLine_full h3 a7 hg, (fun h => nomatch h), ?_⟩
  have hcut := cut3 (inp := inp) (Nat.le_of_lt h2)
  have hlb : (inp.take b).length = b := by rw [List.length_take]; omega
  have hld : (inp.take b ++ slice inp b E).length = E := by rw [List.length_append, slice_length h3, hlb]; omega
  have hst := (a5.starts a6).1
  have hws : isWs ((slice inp b E).headD 0) = false := by rw [slice_headD h2]; exact h0
  have := keys_ahead (x := inp.take b) (y := slice inp b E) (z := inp.drop E) (new := new) hws (by rw [slice_headD h2]; exact hn) hst a6 (by rw [hcut, hlb, hld]; exact a8)
  rw [hcut, hlb] at this
  exact this

/-- C79 for texts without brackets, with conditions that are easier to check: nothing else is on the line after the value but a comment, and with what follows, the new text is
read as the new value. -/
theorem C79_block {inp : Bytes} {doc : Document} (h : Parsed inp doc) (hh : hasHeader inp = false) (hf : followed inp = true) (hu : validUtf8 inp = true ∨ HASH ∉ inp)
    (hs : LBR ∉ inp) (hm : LCB ∉ inp) {x : Nat} (hx : Live doc x) {old : Bytes} (ho : valueText doc.data x = .ok old) (hn : old.headD 0 ≠ 0) :
    ∃ b d, b < d ∧ d ≤ inp.length ∧ old = slice inp b d ∧ ReadFrom inp doc x b d ∧
      ∀ op doc' new a, op.isSet = true → doc.edit x op = .ok doc' → valueText doc'.data x = .ok new → asAny doc'.data x = .ok a → Token false (inp.drop d) new a → new.headD 0 ≠ 0 →
        endsLine (inp.drop d) = true → KeysKept inp b d new → hasHeader (inp.take b ++ new ++ inp.drop d) = false →
        doc'.write = .ok (inp.take b ++ new ++ inp.drop d) ∧ ∃ doc'' v, Parsed (inp.take b ++ new ++ inp.drop d) doc'' ∧ Reads doc''.data doc''.root v ∧ Reads doc'.data doc'.root v := by
  obtain ⟨r, s, b, d, E, h1, h2, h3, h0, h4, h5, h6, h7, h8⟩ := set_read h (C01_block_partial inp doc h hh hf hu hs hm) hh hf (.inr hs) hu hx ho hn
  refine ⟨b, d, h2, h3, h4, h5, fun op doc' new a a1 a2 a3 a4 a5 a6 a7 a8 a9 => h8 op doc' new a a1 a2 a3 a4 ?_ a9⟩
  exact fits_block hs hm h7 h2 h3 (by rw [h4, slice_headD h2] at hn; exact hn) h0 a5 a6 a7 a8

/-! ### Single methods -/

/-- The way a byte is written in double quotes. -/
def pieceOf (b : UInt8) : Piece :=
  match letters.find? (·.2 == b) with
  | some (c, _) => .esc c
  | none => if b < 0x20 || b == 0x7F then .hex ((hexOf b).getD 0 0) ((hexOf b).getD 1 0) else .byte b

theorem pieceOf_eq (b : UInt8) : b ≠ DQ → b ≠ BSL → (pieceOf b).text = escapeOf b ∧ (pieceOf b).reads = [b] ∧ (pieceOf b).known = true :=
  byte_cases (p := fun b => b ≠ DQ → b ≠ BSL → (pieceOf b).text = escapeOf b ∧ (pieceOf b).reads = [b] ∧ (pieceOf b).known = true) (by set_option maxRecDepth 100000 in decide +kernel) b

theorem inQuotes_double {s : Bytes} (h1 : DQ ∉ s) (h2 : BSL ∉ s) : InQuotes (quoteDouble s) s := by
  have key : ∀ s : Bytes, DQ ∉ s → BSL ∉ s → (s.map pieceOf).flatMap Piece.text = s.flatMap escapeOf ∧ (s.map pieceOf).flatMap Piece.reads = s ∧ (s.map pieceOf).all Piece.known = true := by
    intro s h1 h2
    induction s with
    | nil => exact ⟨rfl, rfl, rfl⟩
    | cons b s ih =>
      obtain ⟨e1, e2, e3⟩ := ih (fun h => h1 (List.mem_cons_of_mem _ h)) (fun h => h2 (List.mem_cons_of_mem _ h))
      obtain ⟨f1, f2, f3⟩ := pieceOf_eq b (fun h => h1 (by rw [h]; exact List.mem_cons_self ..)) (fun h => h2 (by rw [h]; exact List.mem_cons_self ..))
      simp only [List.map_cons, List.flatMap_cons, List.all_cons, e1, e2, e3, f1, f2, f3]
      exact ⟨trivial, rfl, rfl⟩
  obtain ⟨e1, e2, e3⟩ := key s h1 h2
  have := InQuotes.double (q := DQ) e3 (.inl rfl)
  rw [e1, e2] at this
  exact this

/-- What is set, and what may be after it on the line: after a string in quotes a comment, after a number white space, after other text nothing.  (In double quotes without quotes and
backslashes, which are not read as written.) -/
def Puts (rest : Bytes) : Op → Prop
  | .setBool _ => rest.headD NL = NL
  | .setNull k => k ≠ .empty ∧ rest.headD NL = NL
  | .setNumber s _ => isNumber s = true ∧ lineEnds rest = true
  | .setStringWith s k => k = .single ∨ k = .double ∧ DQ ∉ s ∧ BSL ∉ s
  | _ => False

theorem lineEnds_endsLine {rest : Bytes} (h : lineEnds rest = true) : endsLine rest = true := by
  unfold endsLine
  unfold lineEnds at h
  simp only [h, Bool.true_or]

theorem head_lineEnds {rest : Bytes} (h : rest.headD NL = NL) : lineEnds rest = true := by
  cases rest with
  | nil => rfl
  | cons b s =>
    obtain rfl : b = NL := h
    rfl

theorem plain_token {rest s : Bytes} (hr : rest.headD NL = NL) (h1 : isNumber s = false) (h2 : (List.range (s.length + 1)).all (fun k => !isNumber (s.take k)) = true)
    (h3 : isIndicator (s.headD 0) = false ∧ s.contains NL = false ∧ noKeySep s = true ∧ s.headD 0 ≠ DASH ∧ s ≠ []) : Token false rest s (plainValue s) := by
  obtain ⟨a1, a2, a3, a4, a5⟩ := h3
  refine .plain (fun k hk => ?_) ?_
  · exfalso
    rw [List.all_eq_true] at h2
    rcases Nat.lt_or_ge k (s.length + 1) with h | h
    · have := h2 k (List.mem_range.2 h)
      simp [hk] at this
    · rw [List.take_of_length_le (by omega), h1] at hk; cases hk
  · have : (s ++ rest).headD 0 ≠ DASH := by
      cases s with
      | nil => exact absurd rfl a5
      | cons b s => exact a4
    have a6 : dashes (s ++ rest) = false := by
      unfold dashes
      rw [show ((s ++ rest).headD 0 == DASH) = false by simpa using this]
      rfl
    unfold plainText
    simp only [a1, a2, a3, hr, a6, Bool.not_false, Bool.false_eq_true, beq_self_eq_true, if_false, Bool.and_true]

/-- What these methods write is read as what was set. -/
theorem puts_token {doc doc' : Document} (hp : ∃ t, Holds doc t) {x : Nat} {op : Op} (hx : Live doc x) {rest : Bytes} (h : Puts rest op) (he : endsLine rest = true)
    (h' : doc.edit x op = .ok doc') : op.isSet = true ∧ ∃ new a, valueText doc'.data x = .ok new ∧ asAny doc'.data x = .ok a ∧ Token false rest new a ∧ new.headD 0 ≠ 0 := by
  have hset : op.isSet = true := by cases op <;> first | rfl | exact absurd h id
  refine ⟨hset, ?_⟩
  obtain ⟨t, ht⟩ := hp
  obtain ⟨u, hu⟩ := (ht.live_iff x).1 hx
  obtain ⟨sc, hsc, -, -, hh⟩ := ht.editSet hu hset h'
  obtain ⟨_, hat⟩ := hh.at (Tree.find_upd hu rfl)
  refine ⟨_, _, hat.text, asAny_leaf hat.rep, ?_⟩
  obtain ⟨q1, q2⟩ := endsLine_head he
  cases op with
  | setBool v =>
    obtain rfl : boolScalar v = sc := Option.some.inj hsc
    cases v
    · exact ⟨plain_token (s := b! "false") h (by decide) (by decide) (by decide), (by decide : (102 : UInt8) ≠ 0)⟩
    · exact ⟨plain_token (s := b! "true") h (by decide) (by decide) (by decide), (by decide : (116 : UInt8) ≠ 0)⟩
  | setNull k =>
    obtain rfl : nullScalar k = sc := Option.some.inj hsc
    cases k with
    | keyword => exact ⟨plain_token (s := b! "null") h.2 (by decide) (by decide) (by decide), (by decide : (110 : UInt8) ≠ 0)⟩
    | tilde => exact ⟨plain_token (s := b! "~") h.2 (by decide) (by decide) (by decide), (by decide : (126 : UInt8) ≠ 0)⟩
    | empty => exact absurd rfl h.1
  | setNumber s hint =>
    obtain rfl : Scalar.number s hint = sc := Option.some.inj hsc
    refine ⟨.number h.1 h.2, ?_⟩
    show s.headD 0 ≠ 0
    have := h.1
    cases s with
    | nil => exact absurd this (by decide)
    | cons b s => exact (numChar_ws (isNumber_chars this b (List.mem_cons_self ..))).2
  | setStringWith s k =>
    obtain rfl : strWithScalar s k = sc := Option.some.inj hsc
    rcases h with rfl | ⟨rfl, h1, h2⟩
    · have : (Tree.leaf x u.pre (strWithScalar s .single)).render = quoteSingle s := (quoteSingle_eq s).symm
      rw [this]
      exact ⟨.quoted (.single s) (fun _ => q1) (fun _ => q2), by simp [quoteSingle, SQ]⟩
    · have : (Tree.leaf x u.pre (strWithScalar s .double)).render = quoteDouble s := (quoteDouble_eq s).symm
      rw [this]
      exact ⟨.quoted (inQuotes_double h1 h2) (fun _ => q1) (fun _ => q2), by simp [quoteDouble, DQ]⟩
  | _ => exact absurd h id

/-- C79 for the methods that set booleans, nulls, numbers and strings in quotes: no condition on the new text is needed (except that it does not start a header). -/
theorem C79_methods {inp : Bytes} {doc : Document} (h : Parsed inp doc) (hh : hasHeader inp = false) (hf : followed inp = true) (hu : validUtf8 inp = true ∨ HASH ∉ inp)
    (hs : LBR ∉ inp) (hm : LCB ∉ inp) {x : Nat} (hx : Live doc x) {old : Bytes} (ho : valueText doc.data x = .ok old) (hn : old.headD 0 ≠ 0) :
    ∃ b d, b < d ∧ d ≤ inp.length ∧ old = slice inp b d ∧ ReadFrom inp doc x b d ∧
      ∀ op doc' new, Puts (inp.drop d) op → endsLine (inp.drop d) = true → doc.edit x op = .ok doc' → valueText doc'.data x = .ok new → KeysKept inp b d new →
        hasHeader (inp.take b ++ new ++ inp.drop d) = false →
        doc'.write = .ok (inp.take b ++ new ++ inp.drop d) ∧ ∃ doc'' v, Parsed (inp.take b ++ new ++ inp.drop d) doc'' ∧ Reads doc''.data doc''.root v ∧ Reads doc'.data doc'.root v := by
  obtain ⟨b, d, g1, g2, g3, g4, g5⟩ := C79_block h hh hf hu hs hm hx ho hn
  refine ⟨b, d, g1, g2, g3, g4, fun op doc' new a1 a2 a3 a4 a5 a6 => ?_⟩
  obtain ⟨k1, new', a, k2, k3, k4, k5⟩ := puts_token h.holds hx a1 a2 a3
  obtain rfl := Except.ok.inj (a4.symm.trans k2)
  exact g5 op doc' new a k1 a3 k2 k3 k4 k5 a2 a5 a6

/-! ### What the conditions are for -/

/-- What is read from what is written after an edit. -/
def reread (s : Bytes) (x : Nat) (op : Op) (y : Nat) : Except Stop AnyV := do
  let doc ← fromSlice (← ((docOfText s).after x op).write)
  asAny doc.data y

/-- With a comment after it, a boolean is not read as one: the comment belongs to the text. -/
theorem C79_comment_needed : ((docOfText (b! "a: 'x' # c\n")).after 2 (.setBool true)).write = .ok (b! "a: true # c\n") ∧
    asAny ((docOfText (b! "a: 'x' # c\n")).after 2 (.setBool true)).data 2 = .ok (.bool true) ∧
    reread (b! "a: 'x' # c\n") 2 (.setBool true) 2 = .ok (.string (b! "true # c")) := by decide +kernel

/-- After a string in quotes on two lines another key may follow on the same line.  After another string, it is not accepted there. -/
theorem C79_line_needed : (docOfText (b! "- a: 'x\ny'b: 2\n")).write = .ok (b! "- a: 'x\ny'b: 2\n") ∧
    ((docOfText (b! "- a: 'x\ny'b: 2\n")).after 4 (.setStringWith (b! "z") .single)).write = .ok (b! "- a: 'z'b: 2\n") ∧
    reread (b! "- a: 'x\ny'b: 2\n") 4 (.setStringWith (b! "z") .single) 4 = .error (.err 8 13 .expectedEof) := by decide +kernel

/-- A text without quotes may have a key in it. -/
theorem C79_token_needed : ((docOfText (b! "- x\n")).after 2 (.setStringWith (b! "y: 1") .bare)).write = .ok (b! "- y: 1\n") ∧
    asAny ((docOfText (b! "- x\n")).after 2 (.setStringWith (b! "y: 1") .bare)).data 2 = .ok (.string (b! "y: 1")) ∧
    reread (b! "- x\n") 2 (.setStringWith (b! "y: 1") .bare) 2 = .ok (.mapping 2) := by decide +kernel

/-! Examples. -/

/-- A string in quotes with a comment after it, set to another: the hypotheses of `C79_methods`, and what it gives. -/
example : ∃ doc doc' doc'' v, Parsed (b! "- 1\n- 'x' # c\n") doc ∧ doc.edit 4 (.setStringWith (b! "y\n# z") .double) = .ok doc' ∧
    doc'.write = .ok (b! "- 1\n- \"y\\n# z\" # c\n") ∧ Parsed (b! "- 1\n- \"y\\n# z\" # c\n") doc'' ∧
    Reads doc''.data doc''.root v ∧ Reads doc'.data doc'.root v := by
  have hp : Parsed (b! "- 1\n- 'x' # c\n") (docOfText (b! "- 1\n- 'x' # c\n")) := ⟨30, by decide +kernel⟩
  have hx : Live (docOfText (b! "- 1\n- 'x' # c\n")) 4 := .viaSeq [2, 4] .self (by decide) (by decide) (by decide)
  obtain ⟨b, d, h1, h2, h3, -, h4⟩ := C79_methods hp (by decide) (by decide) (.inl (by decide)) (by decide) (by decide) hx (old := b! "'x'") (by decide +kernel) (by decide)
  have key : ∀ b, b < 14 → ∀ d, d < 15 → b! "'x'" = slice (b! "- 1\n- 'x' # c\n") b d → b = 6 ∧ (d = 9 ∨ d < b) := by decide +kernel
  have h2' : d ≤ 14 := h2
  obtain ⟨rfl, hd⟩ := key b (by omega) d (by omega) h3
  obtain rfl : d = 9 := by omega
  obtain ⟨w, doc'', v, k1, k2, k3⟩ := h4 (.setStringWith (b! "y\n# z") .double) ((docOfText (b! "- 1\n- 'x' # c\n")).after 4 (.setStringWith (b! "y\n# z") .double)) (b! "\"y\\n# z\"")
    (.inr ⟨rfl, by decide, by decide⟩) (by decide) (by decide +kernel) (by decide +kernel) (.inl (by decide)) (by decide)
  exact ⟨_, _, doc'', v, hp, by decide +kernel, w, k1, k2, k3⟩

/-- A place in an inline collection. -/
example : FitsIn (b! "k: [1, 'x'] # c\n") true 7 10 11 (b! "true") (.bool true) where
  token := .plain (s := b! "true") (fun k hk => by
    exfalso
    rcases Nat.lt_or_ge k 5 with h | h
    · have : ∀ k, k < 5 → isNumber ((b! "true").take k) = false := by decide
      rw [this k h] at hk; cases hk
    · rw [List.take_of_length_le (by simp; omega)] at hk
      exact absurd hk (by decide)) (by decide)
  nul := by decide
  line g hg := by
    have := hg.eq
    have h : wsEnd (b! "k: [1, 'x'] # c\n") 11 = 16 := by decide
    obtain rfl : g = 16 := by rw [← this, h]
    decide
  apart _ := ⟨⟨by decide, by decide⟩, by decide⟩
  keys c k lo q h1 h2 h3 h4 := by
    have hc : c = 1 := by
      have := (List.getElem?_eq_some_iff.1 h1).1
      have key : ∀ c, c < 16 → (b! "k: [1, 'x'] # c\n")[c]? = some COLON → c = 1 := by decide
      exact key c this h1
    subst hc
    have := h2.eq
    have h : wsEnd (b! "k: [1, 'x'] # c\n") (1 + 1) = 3 := by decide
    obtain rfl : lo = 3 := by rw [← this, h]
    obtain ⟨g1, g2, g3⟩ := h4
    rcases g3 with g3 | g3
    · have := inQuotes_hd g3
      have hlt : 3 < q := by
        rcases Nat.lt_or_ge 3 q with h | h
        · exact h
        · rw [slice_none h] at this; rcases this with h | h <;> cases h
      rw [show hd _ = _ from slice_headD hlt] at this
      exact absurd this (by decide)
    · exact absurd g3.2.1 (by decide)

end Verif
