import Verif.PlaceRules
import Verif.Eval
import Verif.Fault
/-
The scanners, forwards: they accept every text that fits the specification of `Verif.Place`.
-/
namespace Verif

/-! ### Quotes -/

theorem Piece.known_cases {p : Piece} (h : p.known = true) : p.ok = true ∧ p.reads = p.value ∨ p = .esc BSL := by
  by_cases hp : p = .esc BSL
  · exact .inr hp
  · refine .inl ⟨?_, by simp [Piece.reads, hp]⟩
    simpa [Piece.known, hp] using h

theorem unescape_known {inp rest e : Bytes} {start n : Nat} {p : Piece} (ht : p.text = BSL :: e) (hk : p.known = true) (h : inp.drop n = e ++ rest) :
    unescape inp start n = .ok (p.reads, n + e.length) := by
  rcases Piece.known_cases hk with ⟨h1, h2⟩ | rfl
  · rw [h2]; exact unescape_piece ht h1 h
  · injection ht with _ ht
    subst ht
    have h : inp.drop n = BSL :: rest := h
    have hs : simpleEscape BSL = some DQ := by decide
    simp only [unescape, peek_cons h, hs, bump_cons h]; rfl

theorem Piece.byte_known {b : UInt8} (h : (Piece.byte b).known = true) : (b == DQ || b == 0) = false ∧ (b == BSL) = false := by
  rcases Piece.known_cases h with h | h
  · exact Piece.byte_ok h.1
  · cases h

/-- The pieces are read one after another. -/
theorem dqEsc_step {inp rest : Bytes} {f : Nat} : ∀ {ps : List Piece} {scratch : Bytes} {n : Nat}, ps.all Piece.known = true →
    inp.drop n = ps.flatMap Piece.text ++ rest →
    dqEsc inp (f + ps.length) n scratch = dqEsc inp f (n + (ps.flatMap Piece.text).length) (scratch ++ ps.flatMap Piece.reads)
  | [], scratch, n, _, h => by simp
  | p :: ps, scratch, n, hk, h => by
    rw [List.all_cons, Bool.and_eq_true] at hk
    have ih := fun sc n => dqEsc_step (inp := inp) (rest := rest) (f := f) (ps := ps) (scratch := sc) (n := n) hk.2
    have hl : f + (p :: ps).length = f + ps.length + 1 := rfl
    rw [hl]
    rcases p.cases_text with ⟨b, rfl⟩ | ⟨e, he⟩
    · have h : inp.drop n = b :: (ps.flatMap Piece.text ++ rest) := by rw [h]; simp [Piece.text]
      obtain ⟨h1, h2⟩ := Piece.byte_known hk.1
      have hr : (Piece.byte b).reads = [b] := rfl
      simp only [dqEsc, peek_cons h, h1, h2, bump_cons h, ih _ _ (drop_cons h), Bool.false_eq_true, if_false]
      simp [Piece.text, hr, Nat.add_assoc, Nat.add_comm 1]
    · have h : inp.drop n = BSL :: (e ++ (ps.flatMap Piece.text ++ rest)) := by rw [h]; simp [he]
      have h1 := drop_cons h
      have hc : (BSL == DQ || BSL == 0) = false := by decide
      simp only [dqEsc, peek_cons h, hc, Bool.false_eq_true, if_false, beq_self_eq_true, if_true, bump_cons h, unescape_known he hk.1 h1,
        bind, Except.bind, ih _ _ (drop_add h1)]
      simp [he]
      congr 1; omega

/-- Where the pieces end: at a quote, a NUL byte or the end, or before something that is not an escape. -/
theorem dqScan_known {rest : Bytes} (hr : hd rest = DQ ∨ hd rest = 0 ∨ hd rest = BSL) : ∀ {ps : List Piece}, ps.all Piece.known = true →
    ∃ (a : Bytes) (qs : List Piece) (esc : Bool), ps = a.map Piece.byte ++ qs ∧ (esc = false → qs = [] ∧ hd rest ≠ BSL) ∧
      dqScan (ps.flatMap Piece.text ++ rest) = (a.length, esc)
  | [], _ => by
    cases rest with
    | nil => exact ⟨[], [], false, rfl, fun _ => ⟨rfl, by decide⟩, by simp [dqScan]⟩
    | cons b rest =>
      have hr : b = DQ ∨ b = 0 ∨ b = BSL := hr
      rcases hr with rfl | rfl | rfl
      · exact ⟨[], [], false, rfl, fun _ => ⟨rfl, by show DQ ≠ BSL; decide⟩, by simp [dqScan]⟩
      · exact ⟨[], [], false, rfl, fun _ => ⟨rfl, by show (0 : UInt8) ≠ BSL; decide⟩, by simp [dqScan]⟩
      · exact ⟨[], [], true, rfl, (fun h => by cases h), by simp only [List.flatMap_nil, List.nil_append, dqScan]; rfl⟩
  | p :: ps, hk => by
    rw [List.all_cons, Bool.and_eq_true] at hk
    rcases p.cases_text with ⟨b, rfl⟩ | ⟨e, he⟩
    · obtain ⟨a, qs, esc, h1, h2, h3⟩ := dqScan_known hr hk.2
      obtain ⟨h4, h5⟩ := Piece.byte_known hk.1
      refine ⟨b :: a, qs, esc, by rw [h1]; rfl, h2, ?_⟩
      have : (Piece.byte b :: ps).flatMap Piece.text ++ rest = b :: (ps.flatMap Piece.text ++ rest) := by simp [Piece.text]
      rw [this, dqScan, h4, h5, h3]; simp
    · refine ⟨[], p :: ps, true, rfl, (fun h => by cases h), ?_⟩
      have : (p :: ps).flatMap Piece.text ++ rest = BSL :: (e ++ ps.flatMap Piece.text ++ rest) := by simp [he]
      rw [this, dqScan]; rfl

section
variable {inp : Bytes} {n f : Nat} {ps : List Piece} {rest : Bytes}

/-- Double quotes with a quote or a NUL byte after them, or the end of the text. -/
theorem doubleQuoted_known (h : inp.drop n = DQ :: (ps.flatMap Piece.text ++ rest)) (hk : ps.all Piece.known = true) (hr : hd rest = DQ ∨ hd rest = 0)
    (hf : ps.length < f) : ∃ s : RStr, s.id = ps.flatMap Piece.reads ∧ doubleQuoted f inp n = .ok (s, bump inp (n + 1 + (ps.flatMap Piece.text).length) 1) := by
  have h1 := drop_cons h
  obtain ⟨a, qs, esc, e1, e3, e4⟩ := dqScan_known (rest := rest) (hr.imp id .inl) hk
  have e2 : ps.flatMap Piece.text = a ++ qs.flatMap Piece.text := by rw [e1, List.flatMap_append, flatMap_byte_text]
  have e2' : ps.flatMap Piece.reads = a ++ qs.flatMap Piece.reads := by rw [e1, List.flatMap_append, bytes_reads]
  have h2 : inp.drop (n + 1 + a.length) = qs.flatMap Piece.text ++ rest := by
    apply drop_add (x := a); rw [h1, e2]; simp
  have hsa : slice inp (n + 1) (n + 1 + a.length) = a := slice_of (x := a) (s := qs.flatMap Piece.text ++ rest) (by rw [h1, e2]; simp)
  have hlen : n + 1 + (ps.flatMap Piece.text).length = n + 1 + a.length + (qs.flatMap Piece.text).length := by rw [e2]; simp; omega
  have hb : bump inp n 1 = n + 1 := bump_cons h
  simp only [doubleQuoted, hb, h1, e4]
  cases esc with
  | true =>
    have hql : qs.length ≤ ps.length := by rw [e1]; simp
    obtain ⟨g, rfl⟩ : ∃ g, f = g + 1 + qs.length := ⟨f - 1 - qs.length, by omega⟩
    have hkq : qs.all Piece.known = true := by
      rw [e1, List.all_append, Bool.and_eq_true] at hk; exact hk.2
    have h3 := drop_add h2
    have hs : dqEsc inp (g + 1) (n + 1 + a.length + (qs.flatMap Piece.text).length) (a ++ qs.flatMap Piece.reads) =
        .ok (a ++ qs.flatMap Piece.reads, n + 1 + a.length + (qs.flatMap Piece.text).length) := by
      have : (peekAt inp (n + 1 + a.length + (qs.flatMap Piece.text).length) == DQ || peekAt inp (n + 1 + a.length + (qs.flatMap Piece.text).length) == 0) = true := by
        rw [peek_of h3]; simpa using hr
      simp only [dqEsc, this, if_true]
    simp only [bind, Except.bind, if_true, hsa, dqEsc_step hkq h2, hs, hlen]
    exact ⟨_, e2'.symm, rfl⟩
  | false =>
    obtain ⟨rfl, -⟩ := e3 rfl
    simp only [List.flatMap_nil, List.length_nil, Nat.add_zero, List.append_nil] at *
    simp only [Bool.false_eq_true, if_false, hsa, hlen]
    refine ⟨⟨.original, a, slice inp n (bump inp (n + 1 + a.length) 1)⟩, e2'.symm, ?_⟩
    have : bump inp (n + 1 + a.length) (if n + 1 + a.length = inp.length then 0 else 1) = bump inp (n + 1 + a.length) 1 := by
      split
      · next he => unfold bump; omega
      · rfl
    rw [this]; rfl

/-- Double quotes with something in them that is not an escape. -/
theorem doubleQuoted_bad {e : Stop} (h : inp.drop n = DQ :: (ps.flatMap Piece.text ++ BSL :: rest)) (hk : ps.all Piece.known = true)
    (he : unescape inp (n + 1 + (ps.flatMap Piece.text).length) (n + 1 + (ps.flatMap Piece.text).length + 1) = .error e)
    (hf : ps.length < f) : doubleQuoted f inp n = .error e := by
  have h1 := drop_cons h
  obtain ⟨a, qs, esc, e1, e3, e4⟩ := dqScan_known (rest := BSL :: rest) (.inr (.inr rfl)) hk
  have e2 : ps.flatMap Piece.text = a ++ qs.flatMap Piece.text := by rw [e1, List.flatMap_append, flatMap_byte_text]
  have h2 : inp.drop (n + 1 + a.length) = qs.flatMap Piece.text ++ BSL :: rest := by
    apply drop_add (x := a); rw [h1, e2]; simp
  have hlen : n + 1 + (ps.flatMap Piece.text).length = n + 1 + a.length + (qs.flatMap Piece.text).length := by rw [e2]; simp; omega
  have hb : bump inp n 1 = n + 1 := bump_cons h
  rw [hlen] at he
  simp only [doubleQuoted, hb, h1, e4]
  cases esc with
  | true =>
    have hql : qs.length ≤ ps.length := by rw [e1]; simp
    obtain ⟨g, rfl⟩ : ∃ g, f = g + 1 + qs.length := ⟨f - 1 - qs.length, by omega⟩
    have hkq : qs.all Piece.known = true := by
      rw [e1, List.all_append, Bool.and_eq_true] at hk; exact hk.2
    have h3 := drop_add h2
    have hc : (BSL == DQ || BSL == 0) = false := by decide
    simp only [bind, Except.bind, if_true, dqEsc_step hkq h2, dqEsc, peek_cons h3, hc, Bool.false_eq_true, if_false, beq_self_eq_true, bump_cons h3, he]
  | false => exact absurd rfl (e3 rfl).2

theorem single_eq (s : Bytes) : quoteSingle s = escapeSingle s := Atom.text_single s

end

/-- What comes after the backslash is refused. -/
theorem unescapeUnicode_short {inp : Bytes} {start : Nat} {err : ErrKind} : ∀ {k j n c : Nat}, j < k → (∀ i < j, digit16 (inp.getD (n + i) 0) ≠ none) →
    digit16 (inp.getD (n + j) 0) = none → unescapeUnicode inp start err k n c = .error (.err start (min (n + j + 1) inp.length) err)
  | 0, _, _, _, h, _, _ => absurd h (Nat.not_lt_zero _)
  | k + 1, 0, n, c, _, _, h => by
    rw [Nat.add_zero, getD_peek, digit16_eq] at h
    unfold unescapeUnicode
    rw [h]; rfl
  | k + 1, j + 1, n, c, hj, h1, h2 => by
    have h0 := h1 0 (by omega)
    rw [Nat.add_zero, getD_peek, digit16_eq] at h0
    cases hv : hexVal (peekAt inp n) with
    | none => exact absurd hv h0
    | some v =>
      unfold unescapeUnicode
      rw [hv]
      simp only [bump_peek (hexVal_ne hv)]
      rw [unescapeUnicode_short (j := j) (by omega) (fun i hi => by rw [Nat.add_assoc, Nat.add_comm 1]; exact h1 (i + 1) (by omega))
        (by rw [Nat.add_assoc, Nat.add_comm 1]; exact h2), show n + 1 + j + 1 = n + (j + 1) + 1 by omega]

theorem simpleEscape_none_of : ∀ b : Fin 256, UInt8.ofNat b ∉ b! "0abtnvfrexu\\" → simpleEscape (UInt8.ofNat b) = none ∧ UInt8.ofNat b ≠ 120 ∧ UInt8.ofNat b ≠ 117 := by
  decide +kernel

theorem BadEscape.unescape {inp : Bytes} {start stop : Nat} {k : ErrKind} (h : BadEscape inp start stop k) :
    unescape inp start (start + 1) = .error (.err start stop k) := by
  cases h with
  | letter h =>
    rw [getD_peek] at h
    have := simpleEscape_none_of ⟨(peekAt inp (start + 1)).toNat, UInt8.toNat_lt _⟩
    simp only [UInt8.ofNat_toNat] at this
    obtain ⟨h1, h2, h3⟩ := this h
    simp only [Verif.unescape, h1, beq_false_of_ne h2, beq_false_of_ne h3, Bool.false_eq_true, if_false]; rfl
  | @hex k h1 h2 h3 h4 =>
    have hp := some_peek h1
    have hs : simpleEscape 120 = none := by decide
    have hl := bump_peek (inp := inp) (n := start + 1) (by rw [hp]; decide)
    simp only [Verif.unescape, hp, hs, beq_self_eq_true, if_true, hl]
    rw [unescapeUnicode_short h2 h3 h4, show start + 2 + k + 1 = start + 3 + k by omega]
  | @uni k h1 h2 h3 h4 =>
    have hp := some_peek h1
    have hs : simpleEscape 117 = none := by decide
    have hn : ((117 : UInt8) == 120) = false := by decide
    have hl := bump_peek (inp := inp) (n := start + 1) (by rw [hp]; decide)
    simp only [Verif.unescape, hp, hs, hn, Bool.false_eq_true, if_false, beq_self_eq_true, if_true, hl]
    rw [unescapeUnicode_short h2 h3 h4, show start + 2 + k + 1 = start + 3 + k by omega]
  | @half v h1 h2 h3 h4 =>
    have hp := some_peek h1
    have hs : simpleEscape 117 = none := by decide
    have hn : ((117 : UInt8) == 120) = false := by decide
    have hl := bump_peek (inp := inp) (n := start + 1) (by rw [hp]; decide)
    have h5 : (slice inp (start + 2) (start + 6)).length = 4 := by rw [slice_length (by omega)]; omega
    have h6 := number16_lt h3
    rw [h5] at h6
    have h7 : inp.drop (start + 1 + 1) = slice inp (start + 2) (start + 6) ++ inp.drop (start + 6) := by
      unfold slice
      rw [show start + 6 = start + 2 + 4 by omega, Nat.add_sub_cancel_left, ← List.drop_drop (j := start + 2)]; exact (List.take_append_drop 4 _).symm
    have h8 := unescapeUnicode_digits (start := start) (err := .badUnicodeEscape) (c := 0) h3 h7
    rw [h5] at h8
    simp only [Verif.unescape, hp, hs, hn, Bool.false_eq_true, if_false, beq_self_eq_true, if_true, hl]
    rw [h8, unescapeUnicode]
    unfold Nat.isValidChar at h4
    rw [if_pos (by simp at h6; omega)]

/-! ### Numbers -/

theorem drop_slice {inp : Bytes} {n m : Nat} (h : n ≤ m) : inp.drop n = slice inp n m ++ inp.drop m := by
  obtain ⟨k, rfl⟩ : ∃ k, m = n + k := ⟨m - n, by omega⟩
  unfold slice
  rw [Nat.add_sub_cancel_left, ← List.drop_drop (j := n)]; exact (List.take_append_drop k _).symm

theorem numGo_take : ∀ {wd we hn : Bool} {t : Bytes} {k : Nat}, k ≤ (numGo wd we hn t).1 → (numGo wd we hn (t.take k)).1 = k
  | _, _, _, _, 0, _ => by simp [numGo]
  | wd, we, hn, [], k + 1, h => by simp [numGo] at h
  | wd, we, hn, b :: t, k + 1, h => by
    rw [List.take_succ_cons, numGo]
    rw [numGo] at h
    split
    · next h1 =>
      rw [if_pos h1] at h
      simpa using numGo_take (Nat.le_of_succ_le_succ h)
    · next h1 =>
      rw [if_neg h1] at h
      split
      · next h2 =>
        rw [if_pos h2] at h
        simpa using numGo_take (Nat.le_of_succ_le_succ h)
      · next h2 =>
        rw [if_neg h2] at h
        split
        · next h3 =>
          rw [if_pos h3] at h
          simpa using numGo_take (Nat.le_of_succ_le_succ h)
        · next h3 =>
          rw [if_neg h3] at h
          cases h

section
variable {inp : Bytes} {n : Nat}

/-- A number that is not the longest one. -/
theorem number_part {m : Nat} (hn : n ≤ inp.length) (h1 : numStart inp n < m) (h2 : m ≤ numStart inp n + numLen inp n) : isNumber (slice inp n m) = true := by
  have hs := numStart_le hn
  have hl := numLen_le hn
  rw [isNumber_iff, unsigned_slice (by omega)]
  have h3 : slice inp (numStart inp n) m = (inp.drop (numStart inp n)).take (m - numStart inp n) := rfl
  have h4 := numGo_take (wd := true) (we := true) (hn := false) (t := inp.drop (numStart inp n)) (k := m - numStart inp n) (by
    unfold numLen at h2; omega)
  have h5 := slice_length (inp := inp) (a := numStart inp n) (b := m) (by omega)
  refine ⟨by rw [h5, h3, h4], fun h => ?_⟩
  rw [h] at h5
  simp at h5
  omega

/-- The bytes of a number. -/
theorem number_peek (hn : n ≤ inp.length) {p : Nat} (h1 : n ≤ p) (h2 : p < numStart inp n + numLen inp n) : numChar (peekAt inp p) = true ∨ peekAt inp p = DASH := by
  have hl := numLen_le hn
  refine number_bytes hn _ ?_
  rw [← slice_append h1 (Nat.le_of_lt h2), slice_next (n := p) rfl (by omega) (by omega)]
  simp

/-- The signs with a meaning of their own at the start of a value. -/
def special (b : UInt8) : Bool := b == DQ || b == SQ || b == LBR || b == LCB || b == GT || b == PIPE

theorem special_not : ∀ b : Fin 256, (isIndicator (UInt8.ofNat b) = false ∨ isCtl (UInt8.ofNat b) = true ∨ UInt8.ofNat b = NL ∨ numChar (UInt8.ofNat b) = true ∨ UInt8.ofNat b = DASH) →
    special (UInt8.ofNat b) = false := by decide +kernel

theorem special_of {b : UInt8} (h : isIndicator b = false ∨ isCtl b = true ∨ b = NL ∨ numChar b = true ∨ b = DASH) : special b = false := by
  have := special_not ⟨b.toNat, b.toNat_lt⟩
  simp only [UInt8.ofNat_toNat] at this
  exact this h

/-- Numbers and texts without quotes. -/
theorem lead_text {f : Nat} {inline tab : Bool} (h1 : special (peekAt inp n) = false) (h2 : inline = false → dashes (inp.drop n) = false) :
    lead f inp inline tab n = match number inp tab n with
      | (e, some s) => .ok (.scalar s none e)
      | (e, none) =>
        if inline then .ok (.scalar (plainScalar (slice inp n (e + ctlGo (inp.drop e)))) none (e + ctlGo (inp.drop e)))
        else if (keyGo (inp.drop e)).2 then .ok (.key ⟨.bare, slice inp n (e + (keyGo (inp.drop e)).1), slice inp n (e + (keyGo (inp.drop e)).1)⟩ (e + (keyGo (inp.drop e)).1))
        else .ok (.scalar (plainScalar (slice inp n (e + (keyGo (inp.drop e)).1))) none (e + (keyGo (inp.drop e)).1)) := by
  have hd : (peekAt inp n == DASH && isWs (peekAt inp (n + 1)) && !inline) = false := by
    cases inline with
    | true => simp
    | false =>
      have := h2 rfl
      rw [Bool.not_false, Bool.and_true]
      unfold dashes at this
      rw [List.tail_drop] at this
      exact this
  simp only [special, Bool.or_eq_false_iff] at h1
  simp only [lead, hd, h1, Bool.false_eq_true, if_false, Bool.or_self]
  generalize number inp tab n = r
  obtain ⟨e, s | s⟩ := r
  · simp only
    split
    · rfl
    · generalize keyGo (inp.drop e) = q
      obtain ⟨k, fnd⟩ := q
      cases fnd <;> rfl
  · rfl

theorem lineEnds_cons {b : UInt8} {r : Bytes} (h1 : isOtherWs b = false) (h2 : b ≠ NL) : lineEnds (b :: r) = false := by
  simp [lineEnds, List.dropWhile, h1, h2]

theorem lineEnds_glue : ∀ {r rest : Bytes}, NL ∉ r → rest = [] ∨ hd rest = NL → lineEnds (r ++ rest) = lineEnds r
  | [], rest, _, h => by
    cases rest with
    | nil => rfl
    | cons b rest =>
      have : b = NL := by simpa [hd] using h
      subst this
      rfl
  | b :: r, rest, h1, h => by
    have ih := lineEnds_glue (r := r) (rest := rest) (by simp_all) h
    unfold lineEnds at *
    cases hb : isOtherWs b with
    | true => simpa [List.dropWhile, hb] using ih
    | false => simp [List.dropWhile, hb]

theorem lineEnds_colon : ∀ {r rest : Bytes}, NL ∉ r → lineEnds (r ++ COLON :: rest) = false
  | [], rest, _ => lineEnds_cons (by decide) (by decide)
  | b :: r, rest, h1 => by
    have ih := lineEnds_colon (r := r) (rest := rest) (by simp_all)
    cases hb : isOtherWs b with
    | true => unfold lineEnds at *; simpa [List.dropWhile, hb] using ih
    | false => exact lineEnds_cons hb (by rintro rfl; exact h1 (by simp))

/-- The two outcomes for numbers. -/
theorem number_split {tab : Bool} : (∃ hint, number inp tab n = (numStart inp n + numLen inp n, some (.number (slice inp n (numStart inp n + numLen inp n)) hint)) ∧ numLen inp n ≠ 0 ∧
        (tab = true → lineEnds (inp.drop (numStart inp n + numLen inp n)) = true)) ∨
      number inp tab n = (numStart inp n + numLen inp n, none) ∧
        (numLen inp n = 0 ∨ tab = true ∧ lineEnds (inp.drop (numStart inp n + numLen inp n)) = false) := by
  obtain ⟨hint, hnum⟩ := number_cases (inp := inp) (tab := tab) (n := n)
  rw [hnum]
  simp only [← isEol_lineEnds]
  split
  · next h0 => exact .inr ⟨rfl, .inl h0⟩
  · next h0 =>
    split
    · next h1 => exact .inr ⟨rfl, .inr (by simpa using h1)⟩
    · next h1 => exact .inl ⟨hint, rfl, h0, fun hi => by rw [hi] at h1; simpa using h1⟩

theorem number_ws {b : UInt8} (h : numChar b = true ∨ b = DASH) : isWs b = false := by
  simp only [isWs, (numChar_ws h).1, beq_false_of_ne (numChar_ne h).2.1, Bool.or_self]

/-- Numbers are read as such. -/
theorem lead_number {inline : Bool} {hi : Nat} (hlo : n ≤ hi) (hhi : hi ≤ inp.length) (h1 : isNumber (slice inp n hi) = true)
    (h2 : if inline then isNumber (slice inp n hi ++ [(inp.drop hi).headD 0]) = false else lineEnds (inp.drop hi) = true) :
    ∃ sc : Scalar, sc.value = .number (slice inp n hi) ∧ ∀ f, lead f inp inline (!inline) n = .ok (.scalar sc none hi) := by
  have hn : n ≤ inp.length := by omega
  have hs := isNumber_start h1
  obtain ⟨h3, h4⟩ := number_long hn hhi hs h1
  have hl := numLen_le hn
  have hst := numStart_le hn
  have he : numStart inp n + numLen inp n = hi := by
    rcases Nat.lt_or_ge hi (numStart inp n + numLen inp n) with h | h
    · exfalso
      have hp := number_peek hn hlo h
      cases inline with
      | true =>
        simp only [if_true] at h2
        have : slice inp n hi ++ [(inp.drop hi).headD 0] = slice inp n (hi + 1) := by
          rw [← slice_append hlo (Nat.le_succ hi), slice_one (by omega)]; rfl
        rw [this, number_part hn (by omega) (by omega)] at h2
        cases h2
      | false =>
        simp only [Bool.false_eq_true, if_false] at h2
        rw [drop_peek (numChar_ws hp).2, lineEnds_cons (numChar_ws hp).1 (numChar_ne hp).2.1] at h2
        cases h2
    · omega
  have hp0 := number_peek hn (Nat.le_refl n) (by omega)
  have hsp := special_of (.inr (.inr (.inr hp0)))
  have hda : inline = false → dashes (inp.drop n) = false := by
    intro _
    unfold dashes
    rw [List.tail_drop]
    cases hb : (inp.drop n).headD 0 == DASH with
    | false => rfl
    | true =>
      have hb : peekAt inp n = DASH := by simpa [peekAt] using hb
      have : numStart inp n = n + 1 := by simp [numStart, hb]
      have := number_ws (number_peek hn (p := n + 1) (by omega) (by omega))
      rw [Bool.true_and]; exact this
  rcases number_split (inp := inp) (tab := !inline) (n := n) with ⟨hint, g1, -, -⟩ | ⟨-, g2⟩
  · rw [he] at g1
    exact ⟨_, rfl, fun f => by rw [lead_text hsp hda, g1]⟩
  · exfalso
    rcases g2 with g2 | ⟨g2, g3⟩
    · exact h4 g2
    · rw [he] at g3
      cases inline with
      | true => cases g2
      | false =>
        simp only [Bool.false_eq_true, if_false] at h2
        rw [g3] at h2; cases h2

/-- Where texts without quotes start. -/
theorem special_plain {hi : Nat} (h1 : isIndicator ((slice inp n hi).headD 0) = false) (h2 : n = hi → isCtl (peekAt inp hi) = true ∨ peekAt inp hi = NL)
    (h : n ≤ hi) : special (peekAt inp n) = false := by
  rcases Nat.lt_or_ge n hi with hlt | hge
  · refine special_of (.inl ?_)
    rw [← peek_slice hlt]; exact h1
  · obtain rfl : n = hi := by omega
    exact special_of (.inr ((h2 rfl).imp id .inl))

/-- A number, or what is left of one, does not go on at `hi`. -/
theorem number_before {hi : Nat} (hn : n ≤ inp.length) (hlo : n ≤ hi) (h : ¬ (numChar (peekAt inp hi) = true ∨ peekAt inp hi = DASH)) :
    numStart inp n + numLen inp n ≤ hi := by
  rcases Nat.lt_or_ge hi (numStart inp n + numLen inp n) with hc | hc
  · exact absurd (number_peek hn hlo hc) h
  · exact hc

theorem plain_value {s : Bytes} {flow : Bool} (h : ∀ k, isNumber (s.take k) = true → flow = false ∧ lineEnds (s.drop k) = false) : (plainScalar s).value = plainValue s := by
  have hs : isNumber s = false := by
    cases hx : isNumber s with
    | false => rfl
    | true =>
      have := (h s.length (by rw [List.take_length]; exact hx)).2
      rw [List.drop_length] at this
      cases this
  exact (plainScalar_fits hs).2

theorem slice_take {k hi : Nat} (h : n + k ≤ hi) : (slice inp n hi).take k = slice inp n (n + k) := by
  unfold slice
  rw [List.take_take, Nat.add_sub_cancel_left, Nat.min_eq_left (by omega)]

theorem slice_dropL {k hi : Nat} : (slice inp n hi).drop k = slice inp (n + k) hi := by
  unfold slice
  rw [List.drop_take, List.drop_drop, Nat.sub_sub]

theorem peek_rest {m : Nat} : (inp.drop m).headD NL = NL → inp.drop m = [] ∨ hd (inp.drop m) = NL := by
  cases inp.drop m with
  | nil => exact fun _ => .inl rfl
  | cons b r => exact .inr

/-- Texts without quotes in an inline collection are read as such. -/
theorem lead_flow {hi : Nat} (hlo : n ≤ hi) (hhi : hi ≤ inp.length)
    (h1 : ∀ k, isNumber ((slice inp n hi).take k) = true → true = false ∧ lineEnds ((slice inp n hi).drop k) = false)
    (h2 : plainText true (inp.drop hi) (slice inp n hi) = true) :
    ∃ sc : Scalar, sc.value = plainValue (slice inp n hi) ∧ ∀ f, lead f inp true false n = .ok (.scalar sc none hi) := by
  have hn : n ≤ inp.length := by omega
  simp only [plainText, if_true, Bool.and_eq_true, Bool.not_eq_true'] at h2
  obtain ⟨hind, hany, hctl⟩ := h2
  have hctl : isCtl (peekAt inp hi) = true := hctl
  have hsp := special_plain hind (fun _ => .inl hctl) hlo
  have hst := numStart_le hn
  have he := number_before hn hlo (fun h => by rw [(numChar_ne h).2.2] at hctl; cases hctl)
  have hl0 : numLen inp n = 0 := by
    refine Classical.byContradiction fun hc => ?_
    have := number_text hn hc
    rw [show numStart inp n + numLen inp n = n + (numStart inp n + numLen inp n - n) by omega] at this
    have := h1 (numStart inp n + numLen inp n - n) (by rw [slice_take (by omega)]; exact this)
    cases this.1
  refine ⟨_, plain_value h1, fun f => ?_⟩
  rw [lead_text hsp (fun h => by cases h)]
  rcases number_split (inp := inp) (tab := false) (n := n) with ⟨hint, -, g, -⟩ | ⟨g, -⟩
  · exact absurd hl0 g
  · rw [g]
    simp only [if_true]
    have hc : ctlGo (inp.drop (numStart inp n + numLen inp n)) = hi - (numStart inp n + numLen inp n) := by
      rw [drop_slice he, ctlGo_plain _ hctl, slice_length hhi]
      rw [List.any_eq_false] at hany ⊢
      intro b hb
      refine hany b ?_
      rw [← slice_append (b := numStart inp n + numLen inp n) (by omega) he]
      exact List.mem_append_right _ hb
    rw [hc, Nat.add_sub_cancel' he]

/-- Texts without quotes elsewhere are read as such. -/
theorem lead_line {hi : Nat} (hlo : n ≤ hi) (hhi : hi ≤ inp.length)
    (h1 : ∀ k, isNumber ((slice inp n hi).take k) = true → false = false ∧ lineEnds ((slice inp n hi).drop k) = false)
    (h2 : plainText false (inp.drop hi) (slice inp n hi) = true) :
    ∃ sc : Scalar, sc.value = plainValue (slice inp n hi) ∧ ∀ f, lead f inp false true n = .ok (.scalar sc none hi) := by
  have hn : n ≤ inp.length := by omega
  simp only [plainText, Bool.false_eq_true, if_false, Bool.and_eq_true, Bool.not_eq_true', beq_iff_eq] at h2
  obtain ⟨hind, ⟨⟨hnl, hsep⟩, hend⟩, hdash⟩ := h2
  rw [← drop_slice hlo] at hdash
  have hend := peek_rest hend
  have hnl : NL ∉ slice inp n hi := by simpa using hnl
  have hpk : peekAt inp hi = 0 ∨ peekAt inp hi = NL := by
    rcases hend with h | h
    · exact .inl (by unfold peekAt; rw [h]; rfl)
    · exact .inr h
  have hsp := special_plain hind (fun _ => by
    rcases hpk with h | h
    · exact .inl (by rw [h]; decide)
    · exact .inr h) hlo
  have hst := numStart_le hn
  have he := number_before hn hlo (fun h => by
    rcases hpk with hp | hp
    · exact (numChar_ws h).2 hp
    · exact (numChar_ne h).2.1 hp)
  refine ⟨_, plain_value h1, fun f => ?_⟩
  rw [lead_text hsp (fun _ => hdash)]
  have hnl' : NL ∉ slice inp (numStart inp n + numLen inp n) hi := fun hm => hnl (by
    rw [← slice_append (b := numStart inp n + numLen inp n) (by omega) he]
    exact List.mem_append_right _ hm)
  rcases number_split (inp := inp) (tab := true) (n := n) with ⟨hint, -, g, g'⟩ | ⟨g, -⟩
  · exfalso
    have h3 := number_text hn g
    have h4 := g' rfl
    obtain ⟨k, hk⟩ : ∃ k, numStart inp n + numLen inp n = n + k := ⟨numStart inp n + numLen inp n - n, by omega⟩
    rw [hk] at h3 h4 he hnl'
    have h5 := (h1 k (by rw [slice_take he]; exact h3)).2
    rw [slice_dropL] at h5
    rw [drop_slice he, lineEnds_glue hnl' hend, h5] at h4
    cases h4
  · rw [g]
    obtain ⟨k, hk⟩ : ∃ k, numStart inp n + numLen inp n = n + k := ⟨numStart inp n + numLen inp n - n, by omega⟩
    have hc : keyGo (inp.drop (numStart inp n + numLen inp n)) = (hi - (numStart inp n + numLen inp n), false) := by
      rw [drop_slice he, keyGo_plain hnl' _ hend, slice_length hhi]
      have := noKeySep_drop k hsep
      rw [slice_dropL, ← hk] at this
      exact this
    simp only [Bool.false_eq_true, if_false, hc, Nat.add_sub_cancel' he]

/-- The bytes up to a colon that ends a key. -/
theorem keyGo_upto {q : Nat} (hq : KeyEnd inp q) : ∀ {k e : Nat}, e + k = q → NL ∉ slice inp e q → (∀ p, e ≤ p → p < q → ¬ KeyEnd inp p) →
    keyGo (inp.drop e) = (k, true)
  | 0, e, h, _, _ => by
    obtain rfl : e = q := h
    obtain ⟨h1, h2⟩ := hq
    have hp := some_peek h1
    rw [drop_peek (by rw [hp]; decide), hp, keyGo]
    rw [getD_peek] at h2
    have h2 : (isWs ((inp.drop (e + 1)).headD 0) || (inp.drop (e + 1)).headD 0 == 0) = true := by
      rw [Bool.or_eq_true, beq_iff_eq]; exact h2
    rw [h2]; rfl
  | k + 1, e, h, hnl, hno => by
    have hqlt : q < inp.length := by
      have := hq.1
      rw [List.getElem?_eq_some_iff] at this
      exact this.1
    have hne : inp.drop e = inp[e]'(by omega) :: inp.drop (e + 1) := List.drop_eq_getElem_cons (by omega)
    have ih := keyGo_upto hq (k := k) (e := e + 1) (by omega) (fun hm => hnl (by
      rw [← slice_append (b := e + 1) (by omega) (by omega)]; exact List.mem_append_right _ hm)) (fun p h1 h2 => hno p (by omega) h2)
    have hb : (inp[e]'(by omega) == NL) = false := by
      rw [beq_eq_false_iff_ne]
      intro hc
      refine hnl ?_
      rw [slice_next (b := NL) (by rw [peekAt_get (by omega), hc]) (by omega) (by omega)]
      simp
    have hk : (inp[e]'(by omega) == COLON && (isWs ((inp.drop (e + 1)).headD 0) || (inp.drop (e + 1)).headD 0 == 0)) = false := by
      refine Bool.eq_false_iff.2 fun hc => hno e (Nat.le_refl _) (by omega) ?_
      simp only [Bool.and_eq_true, Bool.or_eq_true, beq_iff_eq] at hc
      refine ⟨by rw [List.getElem?_eq_getElem (by omega), hc.1], ?_⟩
      rw [getD_peek]; exact hc.2
    rw [hne, keyGo, hb, hk, ih]; rfl

/-- Keys without quotes are read as such. -/
theorem lead_plainKey {q : Nat} (hlo : n ≤ q) (h1 : isIndicator (inp.getD n 0) = false) (h2 : dashes (inp.drop n) = false) (h3 : NL ∉ slice inp n q)
    (hq : KeyEnd inp q) (h4 : ∀ p, n ≤ p → p < q → ¬ KeyEnd inp p) :
    ∃ key : RStr, key.id = slice inp n q ∧ ∀ f, lead f inp false true n = .ok (.key key q) := by
  have hp := some_peek hq.1
  have hqlt := lt_of_peek (inp := inp) (n := q) (by rw [hp]; decide)
  have hn : n ≤ inp.length := by omega
  rw [getD_peek] at h1
  have hst := numStart_le hn
  have he := number_before hn hlo (fun h => (numChar_ne h).1 hp)
  have hnl' : NL ∉ slice inp (numStart inp n + numLen inp n) q := fun hm => h3 (by
    rw [← slice_append (b := numStart inp n + numLen inp n) (by omega) he]
    exact List.mem_append_right _ hm)
  refine ⟨⟨.bare, slice inp n q, slice inp n q⟩, rfl, fun f => ?_⟩
  rw [lead_text (special_of (.inl h1)) (fun _ => h2)]
  rcases number_split (inp := inp) (tab := true) (n := n) with ⟨hint, -, g, g'⟩ | ⟨g, -⟩
  · exfalso
    have h5 := g' rfl
    rw [drop_slice he, drop_peek (n := q) (by rw [hp]; decide), hp, lineEnds_colon hnl'] at h5
    cases h5
  · rw [g]
    have hc := keyGo_upto hq (k := q - (numStart inp n + numLen inp n)) (e := numStart inp n + numLen inp n) (by omega) hnl' (fun p a b => h4 p (by omega) b)
    simp only [Bool.false_eq_true, if_false, if_true, hc, Nat.add_sub_cancel' he]
end

end Verif
