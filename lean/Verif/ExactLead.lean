import Verif.ExactScan
/-
The start of a value, forwards: what fits the specification of `Verif.Place` is read.
-/
namespace Verif

/-! ### Block scalars -/

theorem Trimmed.trim {s core : Bytes} (h : Trimmed s core) : Verif.trim s = core := by
  obtain ⟨l, r, h1, rfl, h2⟩ := h
  have w1 : uniWsLen core = 0 := Classical.byContradiction fun hc => by
    obtain ⟨w, hw, r, rfl⟩ := uniWsLen_find hc
    exact (h2 w hw).1 (List.prefix_append _ _)
  have w2 : uniWsLenRev core.reverse = 0 := Classical.byContradiction fun hc => by
    obtain ⟨w, hw, r, hr⟩ := uniWsLenRev_find hc
    refine (h2 w hw).2 ⟨r.reverse, ?_⟩
    rw [← List.reverse_reverse core, hr, List.reverse_append, List.reverse_reverse]
  have hl : ∀ w ∈ l, w ∈ whites := fun w hw => h1 w (by simp [hw])
  have hr : ∀ w ∈ r, w ∈ whites := fun w hw => h1 w (by simp [hw])
  unfold Verif.trim
  rw [trimGo_whites hl]
  by_cases hc : core = []
  · subst hc
    have := trimGo_whites (r := []) hr
    rw [List.append_nil] at this
    rw [List.nil_append, this]; rfl
  · have hh : r.flatMap utf8 = [] ∨ ∃ b t, r.flatMap utf8 = b :: t ∧ (b < 0x80 ∨ 0xC0 ≤ b) := by
      cases r with
      | nil => exact .inl rfl
      | cons w r =>
        have hall : ∀ w ∈ whites, (utf8 w).headD 0x80 < 0x80 ∨ 0xC0 ≤ (utf8 w).headD 0x80 := by decide
        have h3 := hall w (hr w (by simp))
        cases hu : utf8 w with
        | nil => exact absurd hu (white_ne (hr w (by simp)))
        | cons b t => rw [hu] at h3; exact .inr ⟨b, t ++ r.flatMap utf8, by rw [List.flatMap_cons, hu]; rfl, h3⟩
    rw [trimGo_none (uniWsLen_next w1 hc hh), List.reverse_append, trimGo_whitesRev hr, trimGo_none w2, List.reverse_reverse]

theorem LineAt.unique {inp : Bytes} {a b c : Nat} (h1 : LineAt inp a b) (h2 : LineAt inp a c) (hb : b ≤ inp.length) (hc : c ≤ inp.length) : b = c := by
  have key : ∀ {b c : Nat}, LineAt inp a b → LineAt inp a c → c ≤ inp.length → ¬ b < c := by
    intro b c h1 h2 hc hlt
    rcases h1.2.2 with h | h
    · omega
    · refine h2.2.1 ?_
      rw [← slice_append h1.1 (Nat.le_of_lt hlt), slice_next (some_peek h) (by omega) (by omega)]
      simp
  have := key h1 h2 hc
  have := key h2 h1 hb
  omega

theorem FullGap.unique {inp : Bytes} {a b c : Nat} (h1 : FullGap inp a b) (h2 : FullGap inp a c) : b = c := by rw [← h1.eq, ← h2.eq]

theorem FullGap.le {inp : Bytes} {a b : Nat} (h : FullGap inp a b) : a ≤ b ∧ b ≤ inp.length := ⟨h.1.1, h.1.2.1⟩

theorem BlockRows.unique {inp : Bytes} {fo : Bool} {c p : Nat} {v : Bytes} {hi n : Nat} (h : BlockRows inp fo c p v hi n) :
    ∀ {v' : Bytes} {hi' n' : Nat}, BlockRows inp fo c p v' hi' n' → v = v' ∧ hi = hi' ∧ n = n' := by
  induction h with
  | last h1 h2 h3 h4 h5 =>
    intro v' hi' n' h'
    cases h' with
    | last g1 g2 g3 g4 g5 =>
      obtain rfl := h2.unique g2 (by have := h4.le; omega) (by have := g4.le; omega)
      obtain rfl := h4.unique g4
      exact ⟨h3.trim.symm.trans g3.trim, rfl, rfl⟩
    | final g1 g2 g3 g4 g5 =>
      obtain rfl := h2.unique g2 (by have := h4.le; omega) (by have := g4.le; omega)
      obtain rfl := h4.unique g4
      omega
    | more g1 g2 g3 g4 g5 g6 =>
      obtain rfl := h2.unique g2 (by have := h4.le; omega) (by have := g4.le; omega)
      obtain rfl := h4.unique g4
      omega
  | final h1 h2 h3 h4 h5 =>
    intro v' hi' n' h'
    cases h' with
    | last g1 g2 g3 g4 g5 =>
      obtain rfl := h2.unique g2 (by have := h4.le; omega) (by have := g4.le; omega)
      obtain rfl := h4.unique g4
      omega
    | final g1 g2 g3 g4 g5 =>
      obtain rfl := h2.unique g2 (by have := h4.le; omega) (by have := g4.le; omega)
      exact ⟨by rw [← h3.trim, ← g3.trim], rfl, rfl⟩
    | more g1 g2 g3 g4 g5 g6 =>
      obtain rfl := h2.unique g2 (by have := h4.le; omega) (by have := g4.le; omega)
      obtain rfl := h4.unique g4
      cases g6 <;> omega
  | more h1 h2 h3 h4 h5 h6 ih =>
    intro v' hi' n' h'
    cases h' with
    | last g1 g2 g3 g4 g5 =>
      obtain rfl := h2.unique g2 (by have := h4.le; omega) (by have := g4.le; omega)
      obtain rfl := h4.unique g4
      omega
    | final g1 g2 g3 g4 g5 =>
      obtain rfl := h2.unique g2 (by have := h4.le; omega) (by have := g4.le; omega)
      obtain rfl := g4.unique h4
      cases h6 <;> omega
    | more g1 g2 g3 g4 g5 g6 =>
      obtain rfl := h2.unique g2 (by have := h4.le; omega) (by have := g4.le; omega)
      obtain rfl := g4.unique h4
      obtain ⟨rfl, rfl, rfl⟩ := ih g6
      exact ⟨by rw [← h3.trim, ← g3.trim], rfl, rfl⟩

theorem BlockRows.lt {inp : Bytes} {fo : Bool} {c p : Nat} {v : Bytes} {hi n : Nat} (h : BlockRows inp fo c p v hi n) : p < inp.length := by
  cases h <;> assumption

theorem BlockBody.unique {inp : Bytes} {fo : Bool} {h : Nat} {v v' : Bytes} {hi n hi' n' : Nat} (h1 : BlockBody inp fo h v hi n) (h2 : BlockBody inp fo h v' hi' n') :
    v = v' ∧ hi = hi' ∧ n = n' := by
  cases h1 with
  | below a1 a2 a3 =>
    cases h2 with
    | below b1 b2 b3 => obtain rfl := a1.unique b1; exact a3.unique b3
    | nothing b1 b2 => obtain rfl := a1.unique b1; exact absurd a3.lt (Nat.lt_irrefl _)
    | beside b1 b2 => obtain rfl := a1.unique b1; omega
    | both b1 b2 => obtain rfl := a1.unique b1; omega
  | nothing a1 a2 =>
    cases h2 with
    | below b1 b2 b3 => obtain rfl := b1.unique a1; exact absurd b3.lt (Nat.lt_irrefl _)
    | nothing b1 b2 => exact ⟨rfl, rfl, rfl⟩
    | beside b1 b2 => obtain rfl := b1.unique a1; omega
    | both b1 b2 => obtain rfl := b1.unique a1; omega
  | beside a1 a2 a3 a4 a5 =>
    cases h2 with
    | below b1 b2 b3 => obtain rfl := a1.unique b1; omega
    | nothing b1 b2 => obtain rfl := a1.unique b1; omega
    | beside b1 b2 b3 b4 b5 =>
      obtain rfl := a3.unique b3 a5.le.1 b5.le.1
      exact ⟨a4.trim.symm.trans b4.trim, rfl, rfl⟩
    | both b1 b2 b3 b4 b5 b6 =>
      obtain rfl := a3.unique b3 a5.le.1 (Nat.le_trans b5.le.1 b5.le.2)
      obtain rfl := b5.unique a5
      exact absurd b6.lt (Nat.lt_irrefl _)
  | both a1 a2 a3 a4 a5 a6 =>
    cases h2 with
    | below b1 b2 b3 => obtain rfl := a1.unique b1; omega
    | nothing b1 b2 => obtain rfl := a1.unique b1; omega
    | beside b1 b2 b3 b4 b5 =>
      obtain rfl := a3.unique b3 (Nat.le_trans a5.le.1 a5.le.2) b5.le.1
      obtain rfl := a5.unique b5
      exact absurd a6.lt (Nat.lt_irrefl _)
    | both b1 b2 b3 b4 b5 b6 =>
      obtain rfl := a3.unique b3 (Nat.le_trans a5.le.1 a5.le.2) (Nat.le_trans b5.le.1 b5.le.2)
      obtain rfl := a5.unique b5
      obtain ⟨rfl, rfl, rfl⟩ := a6.unique b6
      exact ⟨by rw [← a4.trim, ← b4.trim], rfl, rfl⟩

/-- The header of a block scalar. -/
theorem header_of {inp : Bytes} {lo h : Nat} {x : UInt8} {c : Chomp} (h1 : lo < h) (h2 : h ≤ inp.length) (h3 : slice inp lo h = [x] ++ c.text)
    (h4 : c = .clip → inp.getD h 0 ≠ DASH ∧ inp.getD h 0 ≠ 43) :
    peekAt inp lo = x ∧ h = lo + 1 + c.text.length ∧
      c = if peekAt inp (lo + 1) = DASH then .strip else if peekAt inp (lo + 1) = 43 then .keep else .clip := by
  have hl := slice_length (inp := inp) (a := lo) h2
  rw [h3] at hl
  have hl : h = lo + 1 + c.text.length := by simp at hl; omega
  have hp : peekAt inp lo = x := by rw [← peek_slice h1, h3]; rfl
  refine ⟨hp, hl, ?_⟩
  rw [slice_next hp (by omega) (by omega)] at h3
  injection h3 with _ h3
  have h3 : slice inp (lo + 1) h = c.text := h3
  cases c with
  | strip =>
    have h5 : h = lo + 1 + 1 := hl
    have := peek_slice (inp := inp) (n := lo + 1) (m := h) (by omega)
    rw [h3] at this
    have : peekAt inp (lo + 1) = DASH := this.symm
    rw [this]; rfl
  | clip =>
    have h5 : h = lo + 1 := hl
    have := h4 rfl
    rw [h5, getD_peek] at this
    rw [if_neg this.1, if_neg this.2]
  | keep =>
    have h5 : h = lo + 1 + 1 := hl
    have := peek_slice (inp := inp) (n := lo + 1) (m := h) (by omega)
    rw [h3] at this
    have : peekAt inp (lo + 1) = 43 := this.symm
    rw [this]; rfl

theorem BlockAt.unique {inp : Bytes} {lo : Nat} {v v' : Bytes} {hi hi' : Nat} (h1 : BlockAt inp lo v hi) (h2 : BlockAt inp lo v' hi') : v = v' ∧ hi = hi' := by
  obtain ⟨fo, c, h, n, w, a1, a2, a3, a4, a5, rfl⟩ := h1
  obtain ⟨fo', c', h', n', w', b1, b2, b3, b4, b5, rfl⟩ := h2
  obtain ⟨p1, p2, p3⟩ := header_of a1 a2 a3 a4
  obtain ⟨q1, q2, q3⟩ := header_of b1 b2 b3 b4
  obtain rfl : c = c' := p3.trans q3.symm
  obtain rfl : h = h' := by omega
  obtain rfl : fo = fo' := by
    rw [p1] at q1
    cases fo <;> cases fo' <;> first | rfl | exact absurd q1 (by decide)
  obtain ⟨rfl, rfl, rfl⟩ := a5.unique b5
  exact ⟨rfl, rfl⟩

theorem BlockRows.bounds {inp : Bytes} {fo : Bool} {c p : Nat} {v : Bytes} {hi n : Nat} (h : BlockRows inp fo c p v hi n) : p ≤ hi ∧ hi ≤ inp.length := by
  induction h with
  | last h1 h2 h3 h4 h5 => exact ⟨h2.1, by have := h4.le; omega⟩
  | final h1 h2 h3 h4 h5 => exact ⟨h2.1, h4.le.1⟩
  | more h1 h2 h3 h4 h5 h6 ih => have := h2.1; have := h4.le; omega

theorem BlockAt.bounds {inp : Bytes} {lo : Nat} {v : Bytes} {hi : Nat} (h : BlockAt inp lo v hi) : lo < hi ∧ hi ≤ inp.length := by
  obtain ⟨fo, c, h, n, w, a1, a2, a3, a4, a5, rfl⟩ := h
  cases a5 with
  | below b1 b2 b3 => have := b1.le; have := b3.bounds; omega
  | nothing b1 b2 => omega
  | beside b1 b2 b3 b4 b5 => have := b3.1; have := b5.le; omega
  | both b1 b2 b3 b4 b5 b6 => have := b3.1; have := b5.le; have := b6.bounds; omega

/-- Block scalars are read as such. -/
theorem lead_block {inp : Bytes} {inline : Bool} {lo : Nat} {v : Bytes} {hi : Nat} (hw : wsEnd inp lo = lo) (h : BlockAt inp lo v hi) :
    ∃ sc : Scalar, sc.value = .string v ∧ ∃ f, lead f inp inline (!inline) lo = .ok (.scalar sc (some (wsStr inp hi)) (wsEnd inp hi)) := by
  have hb := h.atBlock
  unfold atBlock at hb
  rw [getD_peek, Bool.or_eq_true, beq_iff_eq, beq_iff_eq] at hb
  have hsq : peekAt inp lo ≠ SQ := by rcases hb with h | h <;> (rw [h]; decide)
  have hl := h.bounds
  have hfin := lead_fin inp.length inp inline (!inline) lo (by omega) (fun h => absurd h hsq)
  have hshape : ∀ l, lead inp.length inp inline (!inline) lo = .ok l → ∃ sc ws m, l = .scalar sc (some ws) m := by
    intro l hl
    have hd : (peekAt inp lo == DASH && isWs (peekAt inp (lo + 1)) && !inline) = false := by
      rcases hb with h | h <;> (rw [h]; rfl)
    have h1 : (peekAt inp lo == DQ) = false ∧ (peekAt inp lo == SQ) = false ∧ (peekAt inp lo == LBR) = false ∧ (peekAt inp lo == LCB) = false ∧
        (peekAt inp lo == GT || peekAt inp lo == PIPE) = true := by
      rcases hb with h | h <;> (rw [h]; decide)
    simp only [lead, hd, h1, Bool.false_eq_true, if_false, if_true] at hl
    generalize block _ inp lo _ _ _ _ _ = r at hl
    cases r with
    | error e => cases hl
    | ok r => obtain ⟨s, ws, m⟩ := r; cases hl; exact ⟨_, _, _, rfl⟩
  cases hr : lead inp.length inp inline (!inline) lo with
  | ok l =>
    obtain ⟨sc, ws, m, rfl⟩ := hshape l hr
    refine ⟨sc, ?_⟩
    cases (lead_back (by omega) hw rfl hr).1 _ _ _ rfl with
    | block h1 h2 h3 =>
      obtain ⟨rfl, rfl⟩ := h2.unique h
      exact ⟨h1, _, hr⟩
  | error e =>
    exfalso
    have hd : (peekAt inp lo == DASH && isWs (peekAt inp (lo + 1)) && !inline) = false := by
      rcases hb with h | h <;> (rw [h]; rfl)
    have h1 : (peekAt inp lo == DQ) = false ∧ (peekAt inp lo == SQ) = false ∧ (peekAt inp lo == LBR) = false ∧ (peekAt inp lo == LCB) = false ∧
        (peekAt inp lo == GT || peekAt inp lo == PIPE) = true := by
      rcases hb with h | h <;> (rw [h]; decide)
    rw [hr] at hfin
    simp only [lead, hd, h1, Bool.false_eq_true, if_false, if_true] at hr
    generalize hq : block _ inp lo _ _ _ _ _ = r at hr
    cases r with
    | error e' =>
      cases block_err hq
      cases hr
      exact hfin rfl
    | ok r => obtain ⟨s, ws, m⟩ := r; cases hr

/-! ### Quotes -/

section
variable {inp : Bytes} {n hi : Nat}

theorem lead_dq {f : Nat} {inline tab : Bool} {s : RStr} (hp : peekAt inp n = DQ) (h : doubleQuoted f inp n = .ok (s, hi)) :
    lead f inp inline tab n = if !inline && peekAt inp hi == COLON then .ok (.key s hi) else .ok (.scalar (.string s) none hi) := by
  have h1 : (DQ == DASH && isWs (peekAt inp (n + 1)) && !inline) = false := rfl
  simp only [lead, hp, h1, Bool.false_eq_true, if_false, beq_self_eq_true, if_true, h]
  rfl

theorem lead_sq {f : Nat} {inline tab : Bool} {s : RStr} (hp : peekAt inp n = SQ) (h : singleQuoted f inp n = .ok (s, hi)) :
    lead f inp inline tab n = if !inline && peekAt inp hi == COLON then .ok (.key s hi) else .ok (.scalar (.string s) none hi) := by
  have h1 : (SQ == DASH && isWs (peekAt inp (n + 1)) && !inline) = false := rfl
  have h2 : (SQ == DQ) = false := rfl
  simp only [lead, hp, h1, h2, Bool.false_eq_true, if_false, beq_self_eq_true, if_true, h]
  rfl

/-- Texts in quotes are read as such. -/
theorem lead_inQuotes {inline tab : Bool} {s : Bytes} (h : InQuotes (slice inp n hi) s) (hlo : n ≤ hi) (hhi : hi ≤ inp.length)
    (hsq : (slice inp n hi).headD 0 = SQ → peekAt inp hi ≠ SQ) : ∃ r : RStr, r.id = s ∧
      ∃ f, lead f inp inline tab n = if !inline && peekAt inp hi == COLON then .ok (.key r hi) else .ok (.scalar (.string r) none hi) := by
  have hd := drop_slice (inp := inp) hlo
  have hlen := slice_length (inp := inp) (a := n) hhi
  generalize slice inp n hi = t at *
  cases h with
  | single =>
    rw [single_eq] at hd hlen
    have hr : Verif.hd (inp.drop hi) ≠ SQ := hsq rfl
    have h1 := singleQuoted_text (f := s.length + 1) hd hr (by omega)
    rw [hlen, Nat.add_sub_cancel' hlo] at h1
    have hp : peekAt inp n = SQ := by rw [peek_of hd]; rfl
    exact ⟨⟨.original, s, escapeSingle s⟩, rfl, _, lead_sq hp h1⟩
  | @double ps q h1 h2 =>
    have hd' : inp.drop n = DQ :: (ps.flatMap Piece.text ++ q :: inp.drop hi) := by rw [hd]; simp
    obtain ⟨r, hr, h3⟩ := doubleQuoted_known (f := ps.length + 1) hd' h1 (by simpa [Verif.hd] using h2) (by omega)
    have he : bump inp (n + 1 + (ps.flatMap Piece.text).length) 1 = hi := by
      simp only [List.cons_append, List.length_cons, List.length_append, List.length_nil] at hlen
      unfold bump; omega
    rw [he] at h3
    exact ⟨r, hr, _, lead_dq (peek_cons hd') h3⟩

/-- So are those without a quote at the end. -/
theorem lead_open {inline tab : Bool} {ps : List Piece} (hk : ps.all Piece.known = true) (h : inp.drop n = DQ :: ps.flatMap Piece.text) :
    ∃ sc : Scalar, sc.value = .string (ps.flatMap Piece.reads) ∧ ∃ f, lead f inp inline tab n = .ok (.scalar sc none inp.length) := by
  have hd' : inp.drop n = DQ :: (ps.flatMap Piece.text ++ []) := by rw [h, List.append_nil]
  obtain ⟨r, hr, h3⟩ := doubleQuoted_known (f := ps.length + 1) hd' hk (.inr rfl) (by omega)
  have hlen := congrArg List.length h
  rw [List.length_drop, List.length_cons] at hlen
  have he : bump inp (n + 1 + (ps.flatMap Piece.text).length) 1 = inp.length := by unfold bump; omega
  rw [he] at h3
  refine ⟨.string r, congrArg _ hr, ps.length + 1, ?_⟩
  have hz : peekAt inp inp.length = 0 := by unfold peekAt; rw [List.drop_length]; rfl
  rw [lead_dq (peek_cons hd') h3, hz, show ((0 : UInt8) == COLON) = false from rfl, Bool.and_false]; rfl

/-- Scalars are read as such. -/
theorem lead_token {inline : Bool} {a : AnyV} (hlo : n ≤ hi) (hhi : hi ≤ inp.length) (h : Token inline (inp.drop hi) (slice inp n hi) a) :
    ∃ sc : Scalar, sc.value = a ∧ ∃ f, lead f inp inline (!inline) n = .ok (.scalar sc none hi) := by
  generalize ht : slice inp n hi = t at h
  cases h with
  | number h1 h2 =>
    subst ht
    obtain ⟨sc, g1, g2⟩ := lead_number hlo hhi h1 h2
    exact ⟨sc, g1, 0, g2 0⟩
  | plain h1 h2 =>
    subst ht
    cases inline with
    | true =>
      obtain ⟨sc, g1, g2⟩ := lead_flow hlo hhi h1 h2
      exact ⟨sc, g1, 0, g2 0⟩
    | false =>
      obtain ⟨sc, g1, g2⟩ := lead_line hlo hhi h1 h2
      exact ⟨sc, g1, 0, g2 0⟩
  | quoted h1 h2 h3 =>
    subst ht
    obtain ⟨r, rfl, f, h4⟩ := lead_inQuotes (inline := inline) (tab := !inline) h1 hlo hhi h3
    refine ⟨.string r, rfl, f, ?_⟩
    rw [h4, if_neg]
    rw [Bool.and_eq_true, beq_iff_eq]
    rintro ⟨c1, c2⟩
    exact h2 (by simpa using c1) c2

/-- Keys are read as such. -/
theorem lead_firstKey {k : Bytes} {q : Nat} (h : FirstKey inp k n q) : ∃ key : RStr, key.id = k ∧ ∃ f, lead f inp false true n = .ok (.key key q) := by
  obtain ⟨h1, h2, h3 | ⟨rfl, h3, h4, h5, h6, h7⟩⟩ := h
  · have hp := some_peek h2
    have hl := lt_of_peek (inp := inp) (n := q) (by rw [hp]; decide)
    obtain ⟨r, hr, f, h4⟩ := lead_inQuotes (inline := false) (tab := true) h3 h1 (by omega) (fun _ => by rw [hp]; decide)
    exact ⟨r, hr, f, by rw [h4, hp]; rfl⟩
  · obtain ⟨key, g1, g2⟩ := lead_plainKey h1 h3 h4 h5 h6 h7
    exact ⟨key, g1, 0, g2 0⟩

/-- What is not an escape is an error. -/
theorem lead_escape {inline tab : Bool} {ps : List Piece} {rest : Bytes} {stop : Nat} {k : ErrKind} (h1 : ps.all Piece.known = true)
    (h2 : inp.drop n = DQ :: ps.flatMap Piece.text ++ BSL :: rest) (h3 : BadEscape inp (n + 1 + (ps.flatMap Piece.text).length) stop k) :
    ∃ f, lead f inp inline tab n = .error (.err (n + 1 + (ps.flatMap Piece.text).length) stop k) := by
  have hd : inp.drop n = DQ :: (ps.flatMap Piece.text ++ BSL :: rest) := by rw [h2]; simp
  have h4 := doubleQuoted_bad (f := ps.length + 1) hd h1 h3.unescape (by omega)
  refine ⟨ps.length + 1, ?_⟩
  have hc : (DQ == DASH && isWs (peekAt inp (n + 1)) && !inline) = false := rfl
  simp only [lead, peek_cons hd, hc, Bool.false_eq_true, if_false, beq_self_eq_true, if_true, h4]
  rfl

theorem lead_mono_err {f f' : Nat} {i t : Bool} {e : Stop} (h : lead f' inp i t n = .error e) (he : e ≠ .fuel) (hf : inp.length ≤ f) :
    lead f inp i t n = .error e := by
  rw [(lead_approx f' f inp i t n (by omega)).ne (by rw [h]; exact (fun h => he (by injection h))), h]
end

end Verif
