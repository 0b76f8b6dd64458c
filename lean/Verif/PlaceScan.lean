import Verif.Place
import Verif.Forward
/-
The scanners, backwards: what text they have accepted.
-/
namespace Verif

/-! ### Quotes -/

theorem flatMap_noquote : ∀ {l : Bytes}, (∀ c ∈ l, c ≠ SQ) → l.flatMap (fun b => if b = SQ then [SQ, SQ] else [b]) = l
  | [], _ => rfl
  | b :: l, h => by
    rw [List.flatMap_cons, if_neg (h b (by simp)), flatMap_noquote (fun c hc => h c (by simp [hc]))]; rfl

theorem sqEsc_text : ∀ {f : Nat} {rest scratch : Bytes} {k k' : Nat} {s : Bytes}, sqEsc f rest scratch k = .ok (s, k') →
    ∃ t j, s = scratch ++ t ∧ k' = k + j ∧ j < rest.length ∧ rest.take j = t.flatMap (fun b => if b = SQ then [SQ, SQ] else [b]) ∧ hd (rest.drop j) = SQ ∧
      hd (rest.drop (j + 1)) ≠ SQ
  | 0, _, _, _, _, _, h => by cases h
  | f + 1, rest, scratch, k, k', s, h => by
    unfold sqEsc at h
    split at h
    · next hq =>
      split at h
      · next hq2 =>
        obtain ⟨t, j, h1, h2, h3, h4, h5, h6⟩ := sqEsc_text h
        match rest, hq, hq2 with
        | [], hq, _ => exact absurd hq (by decide)
        | [_], _, hq2 => exact absurd hq2 (by simp; decide)
        | a :: b :: r, hq, hq2 =>
          have ha : a = SQ := by simpa using hq
          have hb : b = SQ := by simpa using hq2
          subst ha; subst hb
          refine ⟨SQ :: t, j + 2, by rw [h1]; simp, by omega, by simpa using h3, ?_, by simpa using h5, by simpa using h6⟩
          simp only [List.drop_succ_cons, List.drop_zero] at h4
          simp [h4]
      · next hq2 =>
        cases h
        cases rest with
        | nil => exact absurd hq (by decide)
        | cons b r => exact ⟨[], 0, by simp, rfl, by simp, by simp, by simpa using hq, by simpa using hq2⟩
    · next hq =>
      obtain ⟨t, j, h1, h2, h3, h4, h5, h6⟩ := sqEsc_text h
      cases rest with
      | nil => simp at h3
      | cons b r =>
        have hb : b ≠ SQ := by simpa using hq
        refine ⟨b :: t, j + 1, by rw [h1]; simp, by simp at h2; omega, by simpa using h3, ?_, by simpa using h5, by simpa using h6⟩
        simp only [List.tail_cons] at h4
        simp [h4, hb]

theorem singleQuoted_quotes {f : Nat} {inp : Bytes} {n : Nat} {s : RStr} {e : Nat} (hq : peekAt inp n = SQ)
    (h : singleQuoted f inp n = .ok (s, e)) : slice inp n e = quoteSingle s.id ∧ peekAt inp e ≠ SQ := by
  have hn := lt_of_peek (inp := inp) (n := n) (by rw [hq]; decide)
  have one : ∀ m, n + 1 ≤ m → slice inp n m = SQ :: slice inp (n + 1) m := by
    intro m hm; rw [← slice_append (Nat.le_succ n) hm, slice_one hn, hq]; rfl
  simp only [singleQuoted, bind, Except.bind, bump_one hn] at h
  cases hs : sqScan f (inp.drop (n + 1)) 0 with
  | error er => rw [hs] at h; cases h
  | ok r =>
    obtain ⟨k, esc⟩ := r
    obtain ⟨j, h1, h2, h3, h4, h6⟩ := sqScan_ok hs
    rw [hs] at h
    have hkj : k = j := by omega
    subst hkj
    rw [List.length_drop] at h2
    have hsl : slice inp (n + 1) (n + 1 + k) = (inp.drop (n + 1)).take k := by unfold slice; congr 1; omega
    simp only at h
    split at h
    · cases he : sqEsc f (inp.drop (n + 1 + k)) (slice inp (n + 1) (n + 1 + k)) 0 with
      | error er => rw [he] at h; cases h
      | ok r =>
        obtain ⟨s', k2⟩ := r
        obtain ⟨t, j2, g1, g2, g3, g4, g5, g6⟩ := sqEsc_text he
        rw [he] at h
        have : k2 = j2 := by omega
        subst this
        rw [List.length_drop] at g3
        simp only [pure, Except.pure] at h
        have hb : bump inp (n + 1 + k + k2) 1 = n + 1 + k + k2 + 1 := bump_one (by omega)
        rw [hb] at h
        cases h
        refine ⟨?_, by rw [Nat.add_assoc (n + 1 + k), peekAt_add]; exact g6⟩
        have hsl2 : slice inp (n + 1 + k) (n + 1 + k + k2) = (inp.drop (n + 1 + k)).take k2 := by unfold slice; congr 1; omega
        rw [one _ (by omega), ← slice_append (b := n + 1 + k) (by omega) (by omega), ← slice_append (a := n + 1 + k) (b := n + 1 + k + k2) (by omega) (by omega),
          slice_one (by omega), hsl2, g4, hsl]
        have : peekAt inp (n + 1 + k + k2) = SQ := by rw [peekAt_add]; exact g5
        rw [this, quoteSingle, g1, hsl, List.flatMap_append, flatMap_noquote h4]
        simp
    · next he =>
      rw [if_neg (by omega), bump_one (by omega)] at h
      cases h
      refine ⟨?_, by rw [Nat.add_assoc (n + 1), peekAt_add]; rw [h6] at he; simpa using he⟩
      rw [one _ (by omega), ← slice_append (b := n + 1 + k) (by omega) (by omega), slice_one (by omega), hsl]
      have : peekAt inp (n + 1 + k) = SQ := by rw [peekAt_add]; exact h3
      rw [this, quoteSingle, flatMap_noquote h4]
      simp

theorem simpleEscape_back : ∀ b : Fin 256, ∀ x, simpleEscape (UInt8.ofNat b) = some x →
    letters.lookup (UInt8.ofNat b) = some x ∨ UInt8.ofNat b = BSL ∧ x = DQ := by
  have : ∀ b : Fin 256, (simpleEscape (UInt8.ofNat b)).all (fun x => letters.lookup (UInt8.ofNat b) == some x || UInt8.ofNat b == BSL && x == DQ) = true := by decide +kernel
  intro b x hx
  have := this b
  rw [hx] at this
  simpa using this

theorem simpleEscape_cases {b x : UInt8} (h : simpleEscape b = some x) : letters.lookup b = some x ∨ b = BSL ∧ x = DQ := by
  have := simpleEscape_back ⟨b.toNat, b.toNat_lt⟩ x
  simp only [UInt8.ofNat_toNat] at this
  exact this h

theorem drop_peek {inp : Bytes} {n : Nat} (h : peekAt inp n ≠ 0) : inp.drop n = peekAt inp n :: inp.drop (n + 1) := by
  have hn := lt_of_peek h
  rw [List.drop_eq_getElem_cons hn, peekAt_get hn]

theorem hexVal_ne {b : UInt8} {v : Nat} (h : hexVal b = some v) : b ≠ 0 := (hexVal_ascii h).2

theorem unescapeUnicode_back {inp : Bytes} {start : Nat} {err : ErrKind} : ∀ {k n c : Nat} {s : Bytes} {m : Nat},
    unescapeUnicode inp start err k n c = .ok (s, m) → ∃ ds v, ds.length = k ∧ number16 ds = some v ∧ m = n + k ∧ inp.drop n = ds ++ inp.drop m ∧
      ¬ (0xD800 ≤ c * 16 ^ k + v ∧ c * 16 ^ k + v ≤ 0xDFFF) ∧ s = encodeCp (c * 16 ^ k + v)
  | 0, n, c, s, m, h => by
    unfold unescapeUnicode at h
    split at h
    · cases h
    · next hs => cases h; exact ⟨[], 0, rfl, rfl, rfl, rfl, by simpa using hs, by simp⟩
  | k + 1, n, c, s, m, h => by
    unfold unescapeUnicode at h
    cases hv : hexVal (peekAt inp n) with
    | none => rw [hv] at h; cases h
    | some v =>
      rw [hv] at h
      simp only [bump_peek (hexVal_ne hv)] at h
      obtain ⟨ds, w, h1, h2, h3, h4, h5, h6⟩ := unescapeUnicode_back h
      have e : c * 16 ^ (k + 1) + (v * 16 ^ k + w) = (c * 16 + v) * 16 ^ k + w := by
        rw [Nat.add_mul, Nat.mul_assoc, ← Nat.pow_succ', Nat.add_assoc]
      refine ⟨peekAt inp n :: ds, v * 16 ^ k + w, by simp [h1], ?_, by omega, ?_, by rw [e]; exact h5, by rw [e]; exact h6⟩
      · simp only [number16, digit16_eq, hv, h2, h1]; rfl
      · rw [drop_peek (hexVal_ne hv), h4]; rfl

theorem charOf_back {ds : Bytes} {v : Nat} (h : number16 ds = some v) (hl : ds.length ≤ 4) (hs : ¬ (0xD800 ≤ v ∧ v ≤ 0xDFFF)) :
    (charOf ds).map String.utf8EncodeChar = some (encodeCp v) := by
  have h2 : v < 16 ^ 4 := Nat.lt_of_lt_of_le (number16_lt h) (Nat.pow_le_pow_right (by decide) hl)
  have hv : v.isValidChar := by
    rcases Nat.lt_or_ge v 0xD800 with h | h
    · exact .inl h
    · exact .inr ⟨by omega, by omega⟩
  simp only [charOf, h, bind, Option.bind, if_pos hv, Option.map_some, encodeCp_eq hv (by omega)]

theorem unescape_back {inp : Bytes} {start n : Nat} {s : Bytes} {m : Nat} (h : unescape inp start n = .ok (s, m)) :
    ∃ (p : Piece) (e : Bytes), p.known = true ∧ p.text = BSL :: e ∧ p.reads = s ∧ inp.drop n = e ++ inp.drop m ∧ m = n + e.length := by
  unfold unescape at h
  simp only at h
  cases hx : simpleEscape (peekAt inp n) with
  | some x =>
    rw [hx] at h
    have h0 := (simpleEscape_ascii hx).2
    simp only [bump_peek h0] at h
    cases h
    refine ⟨.esc (peekAt inp n), [peekAt inp n], ?_, rfl, ?_, by rw [drop_peek h0]; rfl, rfl⟩
    · rcases simpleEscape_cases hx with h | ⟨h, _⟩
      · simp [Piece.known, Piece.ok, h]
      · simp [Piece.known, h]
    · rcases simpleEscape_cases hx with h | ⟨h, h'⟩
      · have : peekAt inp n ≠ BSL := by intro hc; rw [hc] at h; exact absurd h (by rw [show letters.lookup BSL = none from by decide]; simp)
        simp [Piece.reads, this, Piece.value, h]
      · simp [Piece.reads, h, h']
  | none =>
    rw [hx] at h
    simp only at h
    split at h
    · next hb =>
      simp only [beq_iff_eq] at hb
      have h0 : peekAt inp n ≠ 0 := by rw [hb]; decide
      rw [bump_peek h0] at h
      obtain ⟨ds, v, h1, h2, h3, h4, h5, h6⟩ := unescapeUnicode_back h
      simp only [Nat.zero_mul, Nat.zero_add] at h5 h6
      have hc := charOf_back h2 (by omega) h5
      match ds, h1 with
      | [a, b], _ =>
        refine ⟨.hex a b, [120, a, b], ?_, rfl, ?_, by rw [drop_peek h0, hb, h4]; rfl, by simp; omega⟩
        · cases ho : charOf [a, b] with
          | none => rw [ho] at hc; cases hc
          | some c => simp [Piece.known, Piece.ok, ho]
        · simp [Piece.reads, Piece.value, hc, h6]
    · next hb =>
      split at h
      · next hb =>
        simp only [beq_iff_eq] at hb
        have h0 : peekAt inp n ≠ 0 := by rw [hb]; decide
        rw [bump_peek h0] at h
        obtain ⟨ds, v, h1, h2, h3, h4, h5, h6⟩ := unescapeUnicode_back h
        simp only [Nat.zero_mul, Nat.zero_add] at h5 h6
        have hc := charOf_back h2 (by omega) h5
        match ds, h1 with
        | [a, b, c, d], _ =>
          refine ⟨.uni a b c d, [117, a, b, c, d], ?_, rfl, ?_, by rw [drop_peek h0, hb, h4]; rfl, by simp; omega⟩
          · cases ho : charOf [a, b, c, d] with
            | none => rw [ho] at hc; cases hc
            | some x => simp [Piece.known, Piece.ok, ho]
          · simp [Piece.reads, Piece.value, hc, h6]
      · cases h

theorem dqEsc_back {inp : Bytes} : ∀ {f n : Nat} {scratch s : Bytes} {m : Nat}, dqEsc inp f n scratch = .ok (s, m) →
    ∃ ps : List Piece, ps.all Piece.known = true ∧ s = scratch ++ ps.flatMap Piece.reads ∧ inp.drop n = ps.flatMap Piece.text ++ inp.drop m ∧
      m = n + (ps.flatMap Piece.text).length ∧ (peekAt inp m = DQ ∨ peekAt inp m = 0)
  | 0, _, _, _, _, h => by cases h
  | f + 1, n, scratch, s, m, h => by
    unfold dqEsc at h
    simp only at h
    split at h
    · next hq => cases h; exact ⟨[], rfl, by simp, rfl, rfl, by simpa using hq⟩
    · next hq =>
      simp only [Bool.or_eq_true, beq_iff_eq, not_or] at hq
      split at h
      · next hb =>
        simp only [beq_iff_eq] at hb
        cases hu : unescape inp n (bump inp n 1) with
        | error e => rw [hu] at h; cases h
        | ok r =>
          obtain ⟨u, m1⟩ := r
          simp only [hu, bind, Except.bind] at h
          obtain ⟨p, e, p1, p2, p3, p4, p5⟩ := unescape_back hu
          obtain ⟨ps, h1, h2, h3, h4, h5⟩ := dqEsc_back h
          rw [bump_peek hq.2] at p4 p5
          refine ⟨p :: ps, by simp [p1, h1], by rw [h2, List.flatMap_cons, p3]; simp, ?_, ?_, h5⟩
          · rw [drop_peek hq.2, hb, p4, List.flatMap_cons, p2, h3]; simp
          · rw [List.flatMap_cons, p2]; simp only [List.length_append, List.length_cons]; omega
      · next hb =>
        simp only [beq_iff_eq] at hb
        obtain ⟨ps, h1, h2, h3, h4, h5⟩ := dqEsc_back h
        rw [bump_peek hq.2] at h3 h4
        have hk : Piece.known (.byte (peekAt inp n)) = true := by simp [Piece.known, Piece.ok, hq, hb]
        refine ⟨.byte (peekAt inp n) :: ps, by simp [hk, h1], by rw [h2, List.flatMap_cons]; simp [Piece.reads, Piece.value], ?_, ?_, h5⟩
        · rw [drop_peek hq.2, h3]; simp [Piece.text]
        · rw [List.flatMap_cons]; simp only [List.length_append, Piece.text, List.length_cons, List.length_nil]; omega

theorem dqScan_back : ∀ s : Bytes, ∀ b ∈ s.take (dqScan s).1, b ≠ DQ ∧ b ≠ 0 ∧ b ≠ BSL
  | [], b, h => by simp at h
  | c :: r, b, h => by
    rw [dqScan] at h
    split at h
    · simp at h
    · next h1 =>
      split at h
      · simp at h
      · next h2 =>
        simp only [Bool.or_eq_true, beq_iff_eq, not_or] at h1 h2
        simp only [List.take_succ_cons, List.mem_cons] at h
        rcases h with rfl | h
        · exact ⟨h1.1, h1.2, h2⟩
        · exact dqScan_back r b h

theorem bytes_known {l : Bytes} (h : ∀ b ∈ l, b ≠ DQ ∧ b ≠ 0 ∧ b ≠ BSL) : (l.map Piece.byte).all Piece.known = true := by
  rw [List.all_map, List.all_eq_true]
  intro b hb
  have := h b hb
  simp [Piece.known, Piece.ok, this]

theorem bytes_reads (l : Bytes) : (l.map Piece.byte).flatMap Piece.reads = l := by
  rw [List.flatMap_map]
  have : (fun a => Piece.reads (.byte a)) = fun a => [a] := by funext a; simp [Piece.reads, Piece.value]
  rw [this]
  exact List.flatMap_singleton' l

/-- A string in double quotes, which may be missing at the end of the input. -/
theorem doubleQuoted_back {f : Nat} {inp : Bytes} {n : Nat} {s : RStr} {e : Nat} (hq : peekAt inp n = DQ)
    (h : doubleQuoted f inp n = .ok (s, e)) : InQuotes (slice inp n e) s.id ∨
      e = inp.length ∧ ∃ ps : List Piece, ps.all Piece.known = true ∧ s.id = ps.flatMap Piece.reads ∧ inp.drop n = DQ :: ps.flatMap Piece.text := by
  have hn := lt_of_peek (inp := inp) (n := n) (by rw [hq]; decide)
  have key : ∀ (ps : List Piece) (m e : Nat), ps.all Piece.known = true → inp.drop (n + 1) = ps.flatMap Piece.text ++ inp.drop m →
      m = n + 1 + (ps.flatMap Piece.text).length → m ≤ inp.length → (peekAt inp m = DQ ∨ peekAt inp m = 0) → e = bump inp m 1 →
      InQuotes (slice inp n e) (ps.flatMap Piece.reads) ∨ e = inp.length ∧ inp.drop n = DQ :: ps.flatMap Piece.text := by
    intro ps m e h1 h2 h3 h4 h5 h6
    have hdn : inp.drop n = DQ :: inp.drop (n + 1) := by rw [drop_peek (by rw [hq]; decide), hq]
    rcases Nat.lt_or_ge m inp.length with hm | hm
    · left
      rw [bump_one hm] at h6
      have e1 : slice inp n e = DQ :: ps.flatMap Piece.text ++ [peekAt inp m] := by
        have : inp.drop m = peekAt inp m :: inp.drop (m + 1) := by rw [List.drop_eq_getElem_cons hm, peekAt_get hm]
        have hx : inp.drop n = (DQ :: ps.flatMap Piece.text ++ [peekAt inp m]) ++ inp.drop (m + 1) := by rw [hdn, h2, this]; simp
        have := slice_of hx
        rw [← this]
        congr 1
        simp only [List.length_append, List.length_cons, List.length_nil]; omega
      rw [e1]
      exact .double h1 h5
    · right
      have hm : m = inp.length := by omega
      refine ⟨by rw [h6, bump]; omega, ?_⟩
      rw [hdn, h2, hm, List.drop_length, List.append_nil]
  simp only [doubleQuoted, bump_one hn] at h
  obtain ⟨h1, h2⟩ := dqScan_spec (inp.drop (n + 1))
  have hb := dqScan_back (inp.drop (n + 1))
  generalize hk : dqScan (inp.drop (n + 1)) = r at h1 h2 hb h
  obtain ⟨k, esc⟩ := r
  rw [List.length_drop] at h1
  simp only at h1 h2 hb h
  have hsl : slice inp (n + 1) (n + 1 + k) = (inp.drop (n + 1)).take k := by unfold slice; congr 1; omega
  have hlen : ((inp.drop (n + 1)).take k).length = k := by rw [List.length_take, List.length_drop]; omega
  have hsp : inp.drop (n + 1) = (inp.drop (n + 1)).take k ++ inp.drop (n + 1 + k) := by
    rw [Nat.add_comm (n + 1) k, ← List.drop_drop, Nat.add_comm, List.drop_drop]; exact (List.take_append_drop k _).symm.trans (by rw [List.drop_drop])
  have kb := bytes_known hb
  rw [hsl] at h
  generalize hl : (inp.drop (n + 1)).take k = l at *
  cases esc with
  | true =>
    simp only [if_true] at h
    cases he : dqEsc inp f (n + 1 + k) l with
    | error er => rw [he] at h; cases h
    | ok r =>
      obtain ⟨t, m2⟩ := r
      rw [he] at h
      simp only [bind, Except.bind, pure, Except.pure] at h
      cases h
      obtain ⟨ps, g1, g2, g3, g4, g5⟩ := dqEsc_back he
      have hm2 : m2 ≤ inp.length := ((dqEsc_spec f (by omega)).ok he).2.1
      have := key (l.map .byte ++ ps) m2 _ (by rw [List.all_append, kb, g1]; rfl) (by rw [List.flatMap_append, flatMap_byte_text, List.append_assoc, ← g3]; exact hsp)
        (by rw [List.flatMap_append, flatMap_byte_text, List.length_append]; omega) hm2 g5 rfl
      rw [List.flatMap_append, bytes_reads] at this
      rw [g2]
      rcases this with h | ⟨h, h'⟩
      · exact .inl h
      · exact .inr ⟨h, l.map .byte ++ ps, by rw [List.all_append, kb, g1]; rfl, by rw [List.flatMap_append, bytes_reads], h'⟩
  | false =>
    simp only [Bool.false_eq_true, if_false, pure, Except.pure] at h h2
    have e1 : bump inp (n + 1 + k) (if n + 1 + k = inp.length then 0 else 1) = bump inp (n + 1 + k) 1 := by
      unfold bump; split <;> omega
    rw [e1] at h
    cases h
    have := key (l.map .byte) (n + 1 + k) _ kb (by rw [flatMap_byte_text]; exact hsp) (by rw [flatMap_byte_text]; omega) (by omega)
      (by rw [peekAt_add]; exact h2) rfl
    rw [bytes_reads] at this
    rcases this with h | ⟨h, h'⟩
    · exact .inl h
    · exact .inr ⟨h, l.map .byte, kb, by rw [bytes_reads], h'⟩

end Verif
