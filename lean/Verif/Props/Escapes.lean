import Verif.Props.Grammar
/-
Escapes in double quotes (C26, C52).
-/
namespace Verif

/-- C52 is false: `\\` is read as a double quote, and the escapes `\"`, `\/`, `\_` and `\U` are not known. -/
theorem C52_escapes_false :
    (∃ doc, fromSlice (b! "\"\\\\\"") = .ok doc ∧ asAny doc.data doc.root = .ok (.string (b! "\""))) ∧
    fromSlice (b! "\"\\\"\"") = .error (.err 1 3 .badEscape) ∧ fromSlice (b! "\"\\/\"") = .error (.err 1 3 .badEscape) ∧
    fromSlice (b! "\"\\_\"") = .error (.err 1 3 .badEscape) ∧ fromSlice (b! "\"\\U0001F600\"") = .error (.err 1 3 .badEscape) :=
  ⟨⟨_, rfl, by decide⟩, by decide, by decide, by decide, by decide⟩

/-- C52, the escapes of `letters`, `\x` and `\u`: a string in double quotes is read as its bytes and the characters its escapes stand for, and is written back
with the escapes it had.  `C47_documents` has them anywhere in a document.  What is missing are the other escapes of YAML, see above and below. -/
theorem C52_escapes_partial {ps : List Piece} (h : ∀ p ∈ ps, p.ok = true) :
    ∃ doc, fromSlice (DQ :: ps.flatMap Piece.text ++ [DQ]) = .ok doc ∧ asAny doc.data doc.root = .ok (.string (ps.flatMap Piece.value)) ∧
      doc.write = .ok (DQ :: ps.flatMap Piece.text ++ [DQ]) := by
  have hok : Page.ok false ⟨[], 0, .flow (.atom (.pieces ps)), []⟩ = true := by
    simp only [Page.ok, Bool.and_eq_true, bne_iff_ne, ne_eq, Bool.not_eq_true']
    refine ⟨⟨⟨⟨rfl, ?_⟩, rfl, rfl⟩, ?_⟩, ?_⟩
    · rw [Y.ok, F.ok]; exact List.all_eq_true.2 h
    · rw [Y.text]; show ¬ DQ = PCT; decide
    · rw [Y.text, F.text]; rfl
  obtain ⟨doc, h1, h2, h3⟩ := C47_documents hok
  have ht : Page.text ⟨[], 0, .flow (.atom (.pieces ps)), []⟩ = DQ :: ps.flatMap Piece.text ++ [DQ] := by
    simp [Page.text, Y.text, F.text, Atom.text]
  rw [ht] at h1 h3
  exact ⟨doc, h1, ((h2 _).2 rfl).1, h3⟩

/-- `"a\tb\u00e9\x41\u20aC\0"`. -/
example : ∃ doc, fromSlice (b! "\"a\\tb\\u00e9\\x41\\u20aC\\0\"") = .ok doc ∧ asAny doc.data doc.root = .ok (.string (b! "a\tbéA€\x00")) := by
  obtain ⟨doc, h1, h2, _⟩ := C52_escapes_partial (ps := [.byte 97, .esc 116, .byte 98, .uni 48 48 101 57, .hex 52 49, .uni 50 48 97 67, .esc 48]) (by decide)
  exact ⟨doc, h1, h2.trans (by decide)⟩

/-- An escape that is not known, up to the byte at which this is clear: a letter that is none of those above, a digit that is not hexadecimal, or the number of
half a surrogate pair. -/
inductive Unknown : Bytes → ErrKind → Prop
  | letter {c : UInt8} : c ∉ b! "0abtnvfrexu\\" → Unknown [BSL, c] .badEscape
  | hex {ds : Bytes} {c : UInt8} : ds.length < 2 → (∀ b ∈ ds, digit16 b ≠ none) → digit16 c = none → Unknown (BSL :: b! "x" ++ ds ++ [c]) .badHexEscape
  | uni {ds : Bytes} {c : UInt8} : ds.length < 4 → (∀ b ∈ ds, digit16 b ≠ none) → digit16 c = none → Unknown (BSL :: b! "u" ++ ds ++ [c]) .badUnicodeEscape
  | half {ds : Bytes} {v : Nat} : ds.length = 4 → number16 ds = some v → ¬ v.isValidChar → Unknown (BSL :: b! "u" ++ ds) .badUnicodeEscape

theorem unescapeUnicode_bad {inp rest : Bytes} {start : Nat} {err : ErrKind} {c : UInt8} (hc : digit16 c = none) : ∀ {ds : Bytes} {n v k : Nat},
    (∀ b ∈ ds, digit16 b ≠ none) → ds.length < k → inp.drop n = ds ++ c :: rest →
    unescapeUnicode inp start err k n v = .error (.err start (n + ds.length + 1) err)
  | [], n, v, k, _, hk, h => by
    obtain ⟨k, rfl⟩ : ∃ g, k = g + 1 := ⟨k - 1, by simp at hk; omega⟩
    have h : inp.drop n = c :: rest := h
    rw [digit16_eq] at hc
    simp [unescapeUnicode, peek_cons h, hc, bump_cons h]
  | b :: ds, n, v, k, hb, hk, h => by
    obtain ⟨k, rfl⟩ : ∃ g, k = g + 1 := ⟨k - 1, by simp at hk; omega⟩
    have h : inp.drop n = b :: (ds ++ c :: rest) := h
    have hx := hb b (by simp)
    rw [digit16_eq] at hx
    cases he : hexVal b with
    | none => exact absurd he hx
    | some x =>
      simp only [unescapeUnicode, peek_cons h, he, bump_cons h]
      rw [unescapeUnicode_bad hc (fun b hb' => hb b (by simp [hb'])) (by simp at hk; omega) (drop_cons h)]
      simp only [List.length_cons]
      congr 2; omega

theorem simpleEscape_none_all : ∀ b : Fin 256, UInt8.ofNat b ∉ b! "0abtnvfrexu\\" → simpleEscape (UInt8.ofNat b) = none := by decide +kernel

theorem unescape_unknown {inp rest e : Bytes} {k : ErrKind} {n : Nat} (h : Unknown (BSL :: e) k) (hd : inp.drop (n + 1) = e ++ rest) :
    unescape inp n (n + 1) = .error (.err n (n + 1 + e.length) k) := by
  generalize he : BSL :: e = e' at h
  cases h with
  | letter hc =>
    rename_i c
    injection he with _ he
    subst he
    have hd : inp.drop (n + 1) = c :: rest := hd
    have hs := simpleEscape_none_all ⟨c.toNat, c.toNat_lt⟩
    simp only [UInt8.ofNat_toNat] at hs
    have h1 : (c == 120) = false := by rw [beq_eq_false_iff_ne]; rintro rfl; exact hc (by decide)
    have h2 : (c == 117) = false := by rw [beq_eq_false_iff_ne]; rintro rfl; exact hc (by decide)
    simp only [unescape, peek_cons hd, hs hc, h1, h2, bump_cons hd, Bool.false_eq_true, if_false]
    rfl
  | hex hl hb hc =>
    rename_i ds c
    injection he with _ he
    subst he
    have hd : inp.drop (n + 1) = 120 :: (ds ++ c :: rest) := by rw [hd]; simp
    have hs : simpleEscape 120 = none := by decide
    simp only [unescape, peek_cons hd, hs, bump_cons hd, beq_self_eq_true, if_true, unescapeUnicode_bad hc hb hl (drop_cons hd)]
    congr 2; simp; omega
  | uni hl hb hc =>
    rename_i ds c
    injection he with _ he
    subst he
    have hd : inp.drop (n + 1) = 117 :: (ds ++ c :: rest) := by rw [hd]; simp
    have hs : simpleEscape 117 = none := by decide
    have hn : ((117 : UInt8) == 120) = false := by decide
    simp only [unescape, peek_cons hd, hs, bump_cons hd, hn, Bool.false_eq_true, if_false, beq_self_eq_true, if_true, unescapeUnicode_bad hc hb hl (drop_cons hd)]
    congr 2; simp; omega
  | half hl hv hn' =>
    rename_i ds v
    injection he with _ he
    subst he
    have hd : inp.drop (n + 1) = 117 :: (ds ++ rest) := by rw [hd]; simp
    have hs : simpleEscape 117 = none := by decide
    have hn : ((117 : UInt8) == 120) = false := by decide
    have hlt := number16_lt hv
    rw [hl] at hlt
    have := unescapeUnicode_digits (start := n) (err := .badUnicodeEscape) (c := 0) hv (drop_cons hd)
    rw [hl, unescapeUnicode, Nat.zero_mul, Nat.zero_add, if_pos (by unfold Nat.isValidChar at hn'; omega)] at this
    simp only [unescape, peek_cons hd, hs, bump_cons hd, hn, Bool.false_eq_true, if_false, beq_self_eq_true, if_true, this]
    congr 2; simp; omega

theorem Unknown.bsl {e : Bytes} {k : ErrKind} (h : Unknown e k) : ∃ e', e = BSL :: e' := by
  cases h <;> exact ⟨_, rfl⟩

theorem dqEsc_unknown {inp rest e : Bytes} {k : ErrKind} (hu : Unknown (BSL :: e) k) : ∀ {ps : List Piece} {scratch : Bytes} {n f : Nat}, ps.all Piece.ok = true →
    ps.length < f → inp.drop n = ps.flatMap Piece.text ++ BSL :: e ++ rest →
    dqEsc inp f n scratch = .error (.err (n + (ps.flatMap Piece.text).length) (n + (ps.flatMap Piece.text).length + 1 + e.length) k)
  | [], scratch, n, f, _, hf, h => by
    obtain ⟨f, rfl⟩ : ∃ g, f = g + 1 := ⟨f - 1, by omega⟩
    have h : inp.drop n = BSL :: (e ++ rest) := h
    have hc : (BSL == DQ || BSL == 0) = false := by decide
    simp only [dqEsc, peek_cons h, hc, Bool.false_eq_true, if_false, beq_self_eq_true, if_true, bump_cons h, unescape_unknown hu (drop_cons h), bind, Except.bind]
    rfl
  | p :: ps, scratch, n, f, hk, hf, h => by
    obtain ⟨f, rfl⟩ : ∃ g, f = g + 1 := ⟨f - 1, by omega⟩
    rw [List.all_cons, Bool.and_eq_true] at hk
    have ih := fun sc n => dqEsc_unknown (inp := inp) (rest := rest) hu (ps := ps) (scratch := sc) (n := n) (f := f) hk.2 (by simp at hf; omega)
    rcases p.cases_text with ⟨b, rfl⟩ | ⟨e1, he⟩
    · have h : inp.drop n = b :: (ps.flatMap Piece.text ++ BSL :: e ++ rest) := by rw [h]; simp [Piece.text]
      obtain ⟨h1, h2⟩ := Piece.byte_ok hk.1
      simp only [dqEsc, peek_cons h, h1, h2, bump_cons h, ih _ _ (drop_cons h), Bool.false_eq_true, if_false]
      congr 2 <;> (simp [Piece.text]; omega)
    · have h : inp.drop n = BSL :: (e1 ++ (ps.flatMap Piece.text ++ BSL :: e ++ rest)) := by rw [h]; simp [he]
      have h1 := drop_cons h
      have hc : (BSL == DQ || BSL == 0) = false := by decide
      simp only [dqEsc, peek_cons h, hc, Bool.false_eq_true, if_false, beq_self_eq_true, if_true, bump_cons h, unescape_piece he hk.1 h1,
        bind, Except.bind, ih _ _ (drop_add h1)]
      congr 2 <;> (simp [he]; omega)

theorem dqScan_unknown {rest : Bytes} : ∀ {ps : List Piece}, ps.all Piece.ok = true →
    ∃ (a : Bytes) (qs : List Piece), ps = a.map Piece.byte ++ qs ∧ dqScan (ps.flatMap Piece.text ++ BSL :: rest) = (a.length, true)
  | [], _ => ⟨[], [], rfl, by simp only [List.flatMap_nil, List.nil_append, dqScan]; rfl⟩
  | p :: ps, hk => by
    rw [List.all_cons, Bool.and_eq_true] at hk
    rcases p.cases_text with ⟨b, rfl⟩ | ⟨e, he⟩
    · obtain ⟨a, qs, h1, h3⟩ := dqScan_unknown (rest := rest) hk.2
      obtain ⟨h4, h5⟩ := Piece.byte_ok hk.1
      refine ⟨b :: a, qs, by rw [h1]; rfl, ?_⟩
      have : (Piece.byte b :: ps).flatMap Piece.text ++ BSL :: rest = b :: (ps.flatMap Piece.text ++ BSL :: rest) := by simp [Piece.text]
      rw [this, dqScan, h4, h5, h3]; simp
    · refine ⟨[], p :: ps, rfl, ?_⟩
      have : (p :: ps).flatMap Piece.text ++ BSL :: rest = BSL :: (e ++ ps.flatMap Piece.text ++ BSL :: rest) := by simp [he]
      rw [this, dqScan]; rfl

/-- C52, what else there is after a backslash: any other escape is refused, with an error of its kind from the backslash to the byte at which this is clear. -/
theorem C52_refused {ps : List Piece} {e rest : Bytes} {k : ErrKind} (h : ∀ p ∈ ps, p.ok = true) (he : Unknown e k) :
    fromSlice (DQ :: ps.flatMap Piece.text ++ e ++ rest) =
      .error (.err (DQ :: ps.flatMap Piece.text).length (DQ :: ps.flatMap Piece.text ++ e).length k) := by
  obtain ⟨e, rfl⟩ := he.bsl
  have hk : ps.all Piece.ok = true := List.all_eq_true.2 h
  generalize hinp : DQ :: ps.flatMap Piece.text ++ BSL :: e ++ rest = inp
  have h0 : inp.drop 0 = DQ :: (ps.flatMap Piece.text ++ BSL :: (e ++ rest)) := by rw [← hinp]; simp
  have h1 := drop_cons h0
  obtain ⟨a, qs, e1, e4⟩ := dqScan_unknown (rest := e ++ rest) hk
  have e2 : ps.flatMap Piece.text = a ++ qs.flatMap Piece.text := by rw [e1, List.flatMap_append, flatMap_byte_text]
  have h2 : inp.drop (0 + 1 + a.length) = qs.flatMap Piece.text ++ BSL :: e ++ rest := by
    apply drop_add (x := a); rw [h1, e2]; simp
  have hq : qs.all Piece.ok = true := by rw [e1, List.all_append, Bool.and_eq_true] at hk; exact hk.2
  have hlen : qs.length < inp.length + 5 := by
    have : inp.length = 1 + a.length + (qs.flatMap Piece.text).length + 1 + e.length + rest.length := by rw [← hinp, e2]; simp; omega
    have : ∀ l : List Piece, l.length ≤ (l.flatMap Piece.text).length := by
      intro l
      induction l with
      | nil => simp
      | cons p l ih =>
        have : 1 ≤ p.text.length := by cases p <;> simp [Piece.text]
        rw [List.flatMap_cons, List.length_append, List.length_cons]; omega
    have := this qs
    omega
  have hl : lead (inp.length + 5) inp false true 0 = .error (.err (DQ :: ps.flatMap Piece.text).length (DQ :: ps.flatMap Piece.text ++ BSL :: e).length k) := by
    have hd' : (DQ == DASH) = false := by decide
    have hdq : doubleQuoted (inp.length + 5) inp 0 = .error (.err (DQ :: ps.flatMap Piece.text).length (DQ :: ps.flatMap Piece.text ++ BSL :: e).length k) := by
      rw [doubleQuoted, bump_cons h0]
      simp only [h1, e4, if_true, bind, Except.bind]
      rw [dqEsc_unknown he hq hlen h2]
      simp only [e2]
      congr 2 <;> (simp; omega)
    simp only [lead, peek_cons h0, hd', Bool.false_and, Bool.false_eq_true, if_false, beq_self_eq_true, if_true, hdq, bind, Except.bind]
  have hs : startOfDocument (inp.length + 6) inp = .ok ([], 0) := by
    have hw : wsEnd inp 0 = 0 ∧ wsStr inp 0 = [] := ws_none h0 ⟨rfl, by show DQ ≠ HASH; decide⟩
    have e1 : (DQ == PCT) = false := by decide
    have e2 : (DQ == DASH) = false := by decide
    simp only [startOfDocument, startLoop, hw.1, hw.2, peek_cons h0, e1, e2, Bool.false_and, Bool.false_eq_true, if_false]
  simp only [fromSlice, parseF, hs, bind, Except.bind, value, hl]

example : fromSlice (b! "\"a\\n\\ud8Ab...") = .error (.err 4 10 .badUnicodeEscape) :=
  C52_refused (ps := [.byte 97, .esc 110]) (e := b! "\\ud8Ab") (rest := b! "...") (by decide) (.half (ds := b! "d8Ab") rfl rfl (by decide))

example : fromSlice (b! "\"a\\x4g\"") = .error (.err 2 6 .badHexEscape) :=
  C52_refused (ps := [.byte 97]) (e := b! "\\x4g") (rest := b! "\"") (by decide) (.hex (ds := b! "4") (by decide) (by decide) (by decide))

/-! ### C26 -/

theorem dqScan_general {rest : Bytes} : ∀ {s : Bytes}, ∃ a b esc, s = a ++ b ∧ DQ ∉ a ∧ BSL ∉ a ∧ escapeDoubleBody s = a ++ escapeDoubleBody b ∧
    (esc = false → b = []) ∧ dqScan (escapeDoubleBody s ++ DQ :: rest) = (a.length, esc)
  | [] => ⟨[], [], false, rfl, by simp, by simp, rfl, fun _ => rfl, by simp [escapeDoubleBody, dqScan]⟩
  | b :: s => by
    cases he : escapeByte b with
    | none =>
      have hz := escapeByte_none he
      by_cases hb : b = BSL
      · subst hb
        refine ⟨[], BSL :: s, true, rfl, by simp, by simp, rfl, (fun h => by cases h), ?_⟩
        have : escapeDoubleBody (BSL :: s) ++ DQ :: rest = BSL :: (escapeDoubleBody s ++ DQ :: rest) := by simp [escapeDoubleBody, he]
        rw [this, dqScan]; rfl
      · obtain ⟨a, c, esc, h1, h5, h6, h2, h3, h4⟩ := dqScan_general (rest := rest) (s := s)
        have hbq : b ≠ DQ := by rintro rfl; revert he; decide
        refine ⟨b :: a, c, esc, by rw [h1]; rfl, by simp [h5, Ne.symm hbq], by simp [h6, Ne.symm hb], by simp [escapeDoubleBody, he, h2], h3, ?_⟩
        have : escapeDoubleBody (b :: s) ++ DQ :: rest = b :: (escapeDoubleBody s ++ DQ :: rest) := by simp [escapeDoubleBody, he]
        rw [this, dqScan, hz, beq_eq_false_iff_ne.2 hb, h4]; simp
    | some e =>
      obtain ⟨e', rfl⟩ := escapeByte_bsl he
      refine ⟨[], b :: s, true, rfl, by simp, by simp, rfl, (fun h => by cases h), ?_⟩
      have : escapeDoubleBody (b :: s) ++ DQ :: rest = BSL :: (e' ++ escapeDoubleBody s ++ DQ :: rest) := by simp [escapeDoubleBody, he]
      rw [this, dqScan]; rfl

/-- What has been decoded stays. -/
theorem dqEsc_prefix {inp : Bytes} : ∀ {f n : Nat} {scratch v : Bytes} {m : Nat}, dqEsc inp f n scratch = .ok (v, m) → scratch <+: v
  | 0, _, _, _, _, h => by cases h
  | f + 1, n, scratch, v, m, h => by
    simp only [dqEsc] at h
    split at h
    · cases h; exact List.prefix_refl _
    · split at h
      · simp only [bind, Except.bind] at h
        split at h
        · cases h
        · exact (List.prefix_append _ _).trans (dqEsc_prefix h)
      · exact (List.prefix_append _ _).trans (dqEsc_prefix h)

theorem encodeCp_length (c : Nat) : (encodeCp c).length ≤ 3 := by
  unfold encodeCp; repeat' split
  all_goals simp

/-- The digits of an escape are digits of the text. -/
theorem unescapeUnicode_inv {inp rest : Bytes} {start : Nat} {err : ErrKind} : ∀ {k n c : Nat} {t x : Bytes} {m : Nat}, inp.drop n = escapeDoubleBody t ++ DQ :: rest →
    unescapeUnicode inp start err k n c = .ok (x, m) →
    ∃ ds t', t = ds ++ t' ∧ ds.length = k ∧ DQ ∉ ds ∧ x.length ≤ 3 ∧ m = n + k ∧ inp.drop m = escapeDoubleBody t' ++ DQ :: rest
  | 0, n, c, t, x, m, h, hu => by
    rw [unescapeUnicode] at hu
    split at hu
    · cases hu
    · cases hu
      exact ⟨[], t, rfl, rfl, by simp, encodeCp_length _, rfl, h⟩
  | k + 1, n, c, t, x, m, h, hu => by
    rw [unescapeUnicode] at hu
    cases t with
    | nil =>
      have h : inp.drop n = DQ :: rest := h
      have hx : hexVal DQ = none := by decide
      rw [peek_cons h, hx] at hu
      cases hu
    | cons b t =>
      cases he : escapeByte b with
      | some e =>
        obtain ⟨e', rfl⟩ := escapeByte_bsl he
        have h : inp.drop n = BSL :: (e' ++ escapeDoubleBody t ++ DQ :: rest) := by rw [h]; simp [escapeDoubleBody, he]
        have hx : hexVal BSL = none := by decide
        rw [peek_cons h, hx] at hu
        cases hu
      | none =>
        have h : inp.drop n = b :: (escapeDoubleBody t ++ DQ :: rest) := by rw [h]; simp [escapeDoubleBody, he]
        rw [peek_cons h] at hu
        cases hv : hexVal b with
        | none => rw [hv] at hu; cases hu
        | some v =>
          rw [hv, bump_cons h] at hu
          obtain ⟨ds, t', h1, h2, h3, h4, h5, h6⟩ := unescapeUnicode_inv (drop_cons h) hu
          have hbq : b ≠ DQ := by rintro rfl; revert he; decide
          exact ⟨b :: ds, t', by rw [h1]; rfl, by rw [List.length_cons, h2], by simp [h3, Ne.symm hbq], h4, by omega, h6⟩

/-- Reading the rest `t` of `s = a ++ t`: less has been decoded than read once there was a backslash. -/
theorem dqEsc_differs {inp rest : Bytes} : ∀ {f n m : Nat} {a t scratch : Bytes}, inp.drop n = escapeDoubleBody t ++ DQ :: rest → DQ ∉ a → scratch.length ≤ a.length →
    (BSL ∈ a → scratch.length < a.length) → dqEsc inp f n scratch = .ok (a ++ t, m) → DQ ∉ a ++ t ∧ BSL ∉ a ++ t
  | 0, _, _, _, _, _, _, _, _, _, h => by cases h
  | f + 1, n, m, a, [], scratch, h, hq, hl, hb, hd => by
    have h : inp.drop n = DQ :: rest := h
    simp only [dqEsc, peek_cons h, beq_self_eq_true, Bool.true_or, if_true, List.append_nil] at hd
    cases hd
    exact ⟨by simpa using hq, fun hm => by have := hb (by simpa using hm); omega⟩
  | f + 1, n, m, a, b :: t, scratch, h, hq, hl, hb, hd => by
    have hc : (BSL == DQ || BSL == 0) = false := by decide
    have hassoc : a ++ b :: t = (a ++ [b]) ++ t := by simp
    cases he : escapeByte b with
    | some e =>
      obtain ⟨e', rfl⟩ := escapeByte_bsl he
      have h : inp.drop n = BSL :: (e' ++ (escapeDoubleBody t ++ DQ :: rest)) := by rw [h]; simp [escapeDoubleBody, he]
      simp only [dqEsc, peek_cons h, hc, Bool.false_eq_true, if_false, beq_self_eq_true, if_true, bump_cons h, bind, Except.bind] at hd
      have h1 := drop_cons h
      by_cases hbq : b = DQ
      · subst hbq
        have : e' = [DQ] := by
          have : escapeByte DQ = some [BSL, DQ] := by decide
          rw [this] at he; injection he with he; injection he with _ he; exact he.symm
        subst this
        have h1 : inp.drop (n + 1) = DQ :: (escapeDoubleBody t ++ DQ :: rest) := h1
        have e1 : simpleEscape DQ = none := by decide
        have e2 : (DQ == (120 : UInt8)) = false := by decide
        have e3 : (DQ == (117 : UInt8)) = false := by decide
        simp only [unescape, peek_cons h1, e1, e2, e3, Bool.false_eq_true, if_false] at hd
        cases hd
      · simp only [unescape_escape he hbq h1] at hd
        rw [hassoc] at hd ⊢
        have hbb : b ≠ BSL := by
          rintro rfl
          have : escapeByte BSL = none := by decide
          rw [this] at he; cases he
        exact dqEsc_differs (drop_add h1) (by simp [hq, Ne.symm hbq]) (by simp; omega) (fun hm => by
          have : BSL ∈ a := by simpa [Ne.symm hbb] using hm
          have := hb this
          simp; omega) hd
    | none =>
      have h : inp.drop n = b :: (escapeDoubleBody t ++ DQ :: rest) := by rw [h]; simp [escapeDoubleBody, he]
      have hbq : b ≠ DQ := by rintro rfl; revert he; decide
      by_cases hbb : b = BSL
      · subst hbb
        simp only [dqEsc, peek_cons h, hc, Bool.false_eq_true, if_false, beq_self_eq_true, if_true, bump_cons h, bind, Except.bind] at hd
        have h1 := drop_cons h
        have pair : ∀ r, inp.drop (n + 1) = BSL :: r → False := by
          intro r hr
          have e1 : simpleEscape BSL = some DQ := by decide
          simp only [unescape, peek_cons hr, e1] at hd
          obtain ⟨w, hw⟩ := dqEsc_prefix hd
          have hg : (a ++ BSL :: t)[scratch.length]? = some DQ := by rw [← hw]; simp
          by_cases hlt : scratch.length < a.length
          · rw [List.getElem?_append_left hlt] at hg
            exact hq (List.mem_of_getElem? hg)
          · have : scratch.length = a.length := by omega
            rw [this, List.getElem?_append_right (Nat.le_refl _), Nat.sub_self] at hg
            injection hg with hg
            revert hg; decide
        cases t with
        | nil =>
          have h1 : inp.drop (n + 1) = DQ :: rest := h1
          have e1 : simpleEscape DQ = none := by decide
          have e2 : (DQ == (120 : UInt8)) = false := by decide
          have e3 : (DQ == (117 : UInt8)) = false := by decide
          simp only [unescape, peek_cons h1, e1, e2, e3, Bool.false_eq_true, if_false] at hd
          cases hd
        | cons c t =>
          cases hec : escapeByte c with
          | some e =>
            obtain ⟨e', rfl⟩ := escapeByte_bsl hec
            exact (pair (e' ++ escapeDoubleBody t ++ DQ :: rest) (by rw [h1]; simp [escapeDoubleBody, hec])).elim
          | none =>
            have h1 : inp.drop (n + 1) = c :: (escapeDoubleBody t ++ DQ :: rest) := by rw [h1]; simp [escapeDoubleBody, hec]
            by_cases hcb : c = BSL
            · subst hcb; exact (pair _ h1).elim
            have hcq : c ≠ DQ := by rintro rfl; revert hec; decide
            simp only [unescape, peek_cons h1, bump_cons h1] at hd
            have fin : ∀ {ds t' x : Bytes}, t = ds ++ t' → DQ ∉ ds → x.length ≤ ds.length + 1 → inp.drop (n + 1 + 1 + ds.length) = escapeDoubleBody t' ++ DQ :: rest →
                dqEsc inp f (n + 1 + 1 + ds.length) (scratch ++ x) = .ok (a ++ BSL :: c :: t, m) → DQ ∉ a ++ BSL :: c :: t ∧ BSL ∉ a ++ BSL :: c :: t := by
              intro ds t' x ht hdq hx hdr hd
              subst ht
              have hassoc : a ++ BSL :: c :: (ds ++ t') = (a ++ BSL :: c :: ds) ++ t' := by simp
              have hbd : (DQ : UInt8) ≠ BSL := by decide
              rw [hassoc] at hd ⊢
              exact dqEsc_differs hdr (by simp [hq, Ne.symm hcq, hdq, hbd]) (by simp; omega) (fun _ => by simp; omega) hd
            cases hs : simpleEscape c with
            | some x =>
              simp only [hs] at hd
              exact fin (ds := []) (x := [x]) rfl (by simp) (by simp) (drop_cons h1) hd
            | none =>
              simp only [hs] at hd
              split at hd
              · cases hd
              · rename_i r hr
                obtain ⟨x, m2⟩ := r
                split at hr
                · obtain ⟨ds, t', g1, g2, g3, g4, g5, g6⟩ := unescapeUnicode_inv (drop_cons h1) hr
                  subst g5
                  exact fin (ds := ds) (x := x) g1 g3 (by omega) (by rw [g2]; exact g6) (by rw [g2]; exact hd)
                · split at hr
                  · obtain ⟨ds, t', g1, g2, g3, g4, g5, g6⟩ := unescapeUnicode_inv (drop_cons h1) hr
                    subst g5
                    exact fin (ds := ds) (x := x) g1 g3 (by omega) (by rw [g2]; exact g6) (by rw [g2]; exact hd)
                  · cases hr
      · have hz := escapeByte_none he
        simp only [dqEsc, peek_cons h, hz, beq_eq_false_iff_ne.2 hbb, bump_cons h, Bool.false_eq_true, if_false] at hd
        rw [hassoc] at hd ⊢
        exact dqEsc_differs (drop_cons h) (by simp [hq, Ne.symm hbq]) (by simp; omega) (fun hm => by
          have : BSL ∈ a := by simpa [Ne.symm hbb] using hm
          have := hb this
          simp; omega) hd

theorem doubleQuoted_differs {inp rest s : Bytes} {n f e : Nat} {r : RStr} (h : inp.drop n = escapeDouble s ++ rest) (hd : doubleQuoted f inp n = .ok (r, e))
    (hr : r.id = s) : DQ ∉ s ∧ BSL ∉ s := by
  have h0 : inp.drop n = DQ :: (escapeDoubleBody s ++ DQ :: rest) := by rw [h]; simp [escapeDouble]
  have h1 := drop_cons h0
  obtain ⟨a, b, esc, e1, e5, e6, e2, e3, e4⟩ := dqScan_general (rest := rest) (s := s)
  have h2 : inp.drop (n + 1 + a.length) = escapeDoubleBody b ++ DQ :: rest := by
    apply drop_add (x := a); rw [h1, e2]; simp
  have hsa : slice inp (n + 1) (n + 1 + a.length) = a := slice_of (x := a) (s := escapeDoubleBody b ++ DQ :: rest) (by rw [h1, e2]; simp)
  rw [doubleQuoted, bump_cons h0] at hd
  simp only [h1, e4, bind, Except.bind, hsa] at hd
  cases esc with
  | true =>
    simp only [if_true] at hd
    split at hd
    · cases hd
    · rename_i v hv
      obtain ⟨v, m⟩ := v
      cases hd
      have hr : v = s := hr
      subst hr
      rw [e1] at hv ⊢
      exact dqEsc_differs h2 e5 (Nat.le_refl _) (fun hm => absurd hm e6) hv
  | false =>
    have hb := e3 rfl
    subst hb
    rw [List.append_nil] at e1
    subst e1
    exact ⟨e5, e6⟩

/-- C26, which strings these are: a string in double quotes is read back as itself exactly if there is no double quote and no backslash in it. -/
theorem C26_exact (s : Bytes) : (∃ doc, fromSlice (quoteDouble s) = .ok doc ∧ asAny doc.data doc.root = .ok (.string s)) ↔ DQ ∉ s ∧ BSL ∉ s := by
  constructor
  · rintro ⟨doc, hp, ha⟩
    have h0 : (quoteDouble s).drop 0 = escapeDouble s ++ [] := by rw [← Atom.text_double]; simp [Atom.text]
    generalize quoteDouble s = inp at hp h0
    have h0' : inp.drop 0 = DQ :: (escapeDoubleBody s ++ [DQ]) := by rw [h0]; simp [escapeDouble]
    have hs : startOfDocument (inp.length + 6) inp = .ok ([], 0) := by
      have hw : wsEnd inp 0 = 0 ∧ wsStr inp 0 = [] := ws_none h0' ⟨rfl, by show DQ ≠ HASH; decide⟩
      have e1 : (DQ == PCT) = false := by decide
      have e2 : (DQ == DASH) = false := by decide
      simp only [startOfDocument, startLoop, hw.1, hw.2, peek_cons h0', e1, e2, Bool.false_and, Bool.false_eq_true, if_false]
    have hd' : (DQ == DASH) = false := by decide
    rw [fromSlice, parseF_refine] at hp
    cases hpp : pparseF (inp.length + 6) inp with
    | error e => rw [hpp] at hp; cases hp
    | ok r =>
      obtain ⟨t, suffix⟩ := r
      rw [hpp] at hp
      cases hp
      have hh := (docOf_holds t suffix)
      simp only [pparseF, hs, bind, Except.bind, pvalue, lead, peek_cons h0', hd', Bool.false_and, Bool.false_eq_true, if_false, beq_self_eq_true, if_true] at hpp
      cases hdq : doubleQuoted (inp.length + 5) inp 0 with
      | error e => rw [hdq] at hpp; cases hpp
      | ok r =>
        obtain ⟨r, e⟩ := r
        refine doubleQuoted_differs h0 hdq ?_
        rw [hdq] at hpp
        simp only at hpp
        cases hc : (!false && peekAt inp e == COLON) with
        | true =>
          simp only [hc, if_true, pure, Except.pure, pmappingOrNul, pmappingOrNul.go, bind, Except.bind] at hpp
          split at hpp
          · cases hpp
          · rename_i q hq
            split at hq
            · cases hq
            · cases hq
              simp only at hpp
              split at hpp
              · cases hpp
                have := raw_of hh.rep.head
                rw [← hh.root] at this
                simp [asAny, this, Tree.label, Tree.raw, collRaw, bind, Except.bind, pure, Except.pure] at ha
              · cases hpp
        | false =>
          simp only [hc, Bool.false_eq_true, if_false, pure, Except.pure] at hpp
          split at hpp
          · cases hpp
            have := asAny_leaf hh.rep
            rw [hh.root] at ha
            have := this.symm.trans ha
            simpa [Scalar.value] using this
          · cases hpp
  · intro h
    have := parse_atom (a := .double s) (by
      simp only [Atom.ok, Bool.and_eq_true, Bool.not_eq_true']
      exact ⟨by simpa using h.1, by simpa using h.2⟩) (by show DQ ≠ PCT; decide) rfl
    exact this

example : ¬ ∃ doc, fromSlice (quoteDouble (b! "\x5cx")) = .ok doc ∧ asAny doc.data doc.root = .ok (.string (b! "\x5cx")) := by
  rw [C26_exact]; decide

end Verif
