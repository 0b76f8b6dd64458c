import Verif.PlaceScan
import Verif.PlaceBlock
/-
The scanners, backwards: scalars and keys.
-/
namespace Verif

/-! ### Numbers -/

theorem numGo_mono : ∀ {wd we hn : Bool} (t s : Bytes), (numGo wd we hn t).1 ≤ (numGo wd we hn (t ++ s)).1
  | _, _, _, [], _ => Nat.zero_le _
  | wd, we, hn, b :: t, s => by
    rw [List.cons_append]
    simp only [numGo]
    split
    · exact Nat.succ_le_succ (numGo_mono t s)
    · split
      · exact Nat.succ_le_succ (numGo_mono t s)
      · split
        · exact Nat.succ_le_succ (numGo_mono t s)
        · exact Nat.le_refl _

/-- The bytes of numbers. -/
def numChar (b : UInt8) : Bool := b == 46 || b == 101 || b == 69 || isDigit b

theorem numGo_bytes : ∀ {wd we hn : Bool} (s : Bytes), ∀ b ∈ s.take (numGo wd we hn s).1, numChar b = true
  | _, _, _, [], b, h => by simp at h
  | wd, we, hn, c :: s, b, h => by
    simp only [numGo] at h
    split at h
    · next hc =>
      rw [List.take_succ_cons, List.mem_cons] at h
      rcases h with rfl | h
      · simp only [Bool.and_eq_true] at hc; simp [numChar, hc.1]
      · exact numGo_bytes s b h
    · split at h
      · next hc =>
        rw [List.take_succ_cons, List.mem_cons] at h
        rcases h with rfl | h
        · simp only [Bool.and_eq_true, Bool.or_eq_true] at hc
          rcases hc.1 with h | h <;> simp [numChar, h]
        · exact numGo_bytes s b h
      · split at h
        · next hc =>
          rw [List.take_succ_cons, List.mem_cons] at h
          rcases h with rfl | h
          · simp [numChar, hc]
          · exact numGo_bytes s b h
        · simp at h

theorem numGo_self : ∀ {wd we hn : Bool} (s : Bytes), (numGo wd we hn (s.take (numGo wd we hn s).1)).1 = (numGo wd we hn s).1
  | _, _, _, [] => rfl
  | wd, we, hn, c :: s => by
    simp only [numGo]
    split
    · next h => rw [List.take_succ_cons]; simp only [numGo, h, if_true]; rw [numGo_self s]
    · next h =>
      split
      · next h2 => rw [List.take_succ_cons]; simp only [numGo, h, h2, if_true]; rw [numGo_self s]; rfl
      · next h2 =>
        split
        · next h3 => rw [List.take_succ_cons]; simp only [numGo, h, h2, h3, if_true]; rw [numGo_self s]; rfl
        · rfl

theorem numChar_ne {b : UInt8} (h : numChar b = true ∨ b = DASH) : b ≠ COLON ∧ b ≠ NL ∧ isCtl b = false := by
  have : ∀ b : Fin 256, (numChar (UInt8.ofNat b) || UInt8.ofNat b == DASH) = true →
      UInt8.ofNat b ≠ COLON ∧ UInt8.ofNat b ≠ NL ∧ isCtl (UInt8.ofNat b) = false := by decide +kernel
  have := this ⟨b.toNat, b.toNat_lt⟩
  simp only [UInt8.ofNat_toNat] at this
  exact this (by simpa using h)

/-- Where digits start. -/
def numStart (inp : Bytes) (n : Nat) : Nat := if peekAt inp n = DASH then n + 1 else n

/-- The number of bytes after the sign that can be in a number. -/
def numLen (inp : Bytes) (n : Nat) : Nat := (numGo true true false (inp.drop (numStart inp n))).1

theorem number_cases {inp : Bytes} {tab : Bool} {n : Nat} : ∃ hint,
    number inp tab n = if numLen inp n = 0 then (numStart inp n + numLen inp n, none)
      else if tab && !isEol (inp.drop (numStart inp n + numLen inp n)) then (numStart inp n + numLen inp n, none)
      else (numStart inp n + numLen inp n, some (.number (slice inp n (numStart inp n + numLen inp n)) hint)) := by
  have hm : (if (peekAt inp n == DASH) = true then bump inp n 1 else n) = numStart inp n := by
    unfold numStart
    by_cases h : peekAt inp n = DASH
    · simp [h, bump_peek (inp := inp) (n := n) (by rw [h]; decide)]
    · simp [h]
  refine ⟨if (numGo true true false (inp.drop (numStart inp n))).2 then .f64 else if peekAt inp n == DASH then .i64 else .u64, ?_⟩
  unfold number
  simp only [hm]
  rfl

theorem numStart_le {inp : Bytes} {n : Nat} (hn : n ≤ inp.length) : n ≤ numStart inp n ∧ numStart inp n ≤ n + 1 ∧ numStart inp n ≤ inp.length := by
  unfold numStart
  split
  · next h =>
    have := lt_of_peek (inp := inp) (n := n) (by rw [h]; decide)
    omega
  · omega

theorem numLen_le {inp : Bytes} {n : Nat} (hn : n ≤ inp.length) : numStart inp n + numLen inp n ≤ inp.length := by
  have h := (numGo_spec true true false (inp.drop (numStart inp n))).1
  have := numStart_le hn
  rw [List.length_drop] at h
  unfold numLen
  omega

/-- The sign and the bytes of numbers. -/
theorem number_bytes {inp : Bytes} {n : Nat} (hn : n ≤ inp.length) : ∀ b ∈ slice inp n (numStart inp n + numLen inp n), numChar b = true ∨ b = DASH := by
  intro b hb
  have h1 := numStart_le hn
  rw [← slice_append h1.1 (Nat.le_add_right _ _), List.mem_append] at hb
  rcases hb with hb | hb
  · obtain ⟨p, h2, h3, h4⟩ := slice_mem hb
    have : p = n := by omega
    subst this
    unfold numStart at h3
    split at h3
    · next h => rw [← some_peek h4]; exact .inr h
    · omega
  · left
    refine numGo_bytes (wd := true) (we := true) (hn := false) (inp.drop (numStart inp n)) b ?_
    unfold slice at hb
    rwa [Nat.add_sub_cancel_left] at hb

/-- The text without its sign. -/
theorem unsigned_slice {inp : Bytes} {n m : Nat} (h : n < m) : unsigned (slice inp n m) = slice inp (numStart inp n) m := by
  unfold numStart
  split
  · next hd =>
    have := lt_of_peek (inp := inp) (n := n) (by rw [hd]; decide)
    rw [slice_next hd this h]
    rfl
  · next hd =>
    unfold unsigned
    rw [if_neg]
    intro hh
    have h1 := peek_slice (inp := inp) h
    cases hs : slice inp n m with
    | nil => rw [hs] at hh; cases hh
    | cons b r =>
      rw [hs] at hh h1
      simp at hh h1
      exact hd (by rw [← h1, hh])

theorem number_text {inp : Bytes} {n : Nat} (hn : n ≤ inp.length) (h : numLen inp n ≠ 0) : isNumber (slice inp n (numStart inp n + numLen inp n)) = true := by
  have h1 := numStart_le hn
  have h2 := numLen_le hn
  rw [isNumber_iff, unsigned_slice (by omega)]
  have e : slice inp (numStart inp n) (numStart inp n + numLen inp n) = (inp.drop (numStart inp n)).take (numLen inp n) := by
    unfold slice; rw [Nat.add_sub_cancel_left]
  refine ⟨?_, fun h' => ?_⟩
  · rw [slice_length h2, Nat.add_sub_cancel_left, e]; exact numGo_self _
  · have := congrArg List.length h'
    rw [slice_length h2] at this
    simp at this
    omega

theorem number_long {inp : Bytes} {n m : Nat} (hn : n ≤ inp.length) (hm : m ≤ inp.length) (hs : numStart inp n ≤ m) (h : isNumber (slice inp n m) = true) :
    m ≤ numStart inp n + numLen inp n ∧ numLen inp n ≠ 0 := by
  have h1 := numStart_le hn
  have hnm : n < m := by
    rcases Nat.lt_or_ge n m with h' | h'
    · exact h'
    · have : slice inp n m = [] := by unfold slice; rw [Nat.sub_eq_zero_of_le h']; rfl
      rw [this] at h; exact absurd h (by decide)
  rw [isNumber_iff, unsigned_slice hnm] at h
  obtain ⟨h2, h3⟩ := h
  rw [slice_length hm] at h2
  have h4 := numGo_mono (wd := true) (we := true) (hn := false) (slice inp (numStart inp n) m) (inp.drop m)
  have e : slice inp (numStart inp n) m ++ inp.drop m = inp.drop (numStart inp n) := by
    unfold slice
    have : inp.drop m = (inp.drop (numStart inp n)).drop (m - numStart inp n) := by rw [List.drop_drop]; congr 1; omega
    rw [this, List.take_append_drop]
  rw [e, h2] at h4
  have h5 : (slice inp (numStart inp n) m).length ≠ 0 := by simpa using h3
  rw [slice_length hm] at h5
  have h6 : numLen inp n = (numGo true true false (inp.drop (numStart inp n))).1 := rfl
  omega

/-! ### Plain text -/

theorem ctlGo_take : ∀ s : Bytes, ∀ b ∈ s.take (ctlGo s), isCtl b = false
  | [], b, h => by simp at h
  | c :: r, b, h => by
    rw [ctlGo] at h
    split at h
    · simp at h
    · next hc =>
      rw [List.take_succ_cons, List.mem_cons] at h
      rcases h with rfl | h
      · simpa using hc
      · exact ctlGo_take r b h

theorem colonGo_take : ∀ s : Bytes, ∀ b ∈ s.take (colonGo s), b ≠ COLON ∧ b ≠ 0
  | [], b, h => by simp at h
  | c :: r, b, h => by
    rw [colonGo] at h
    split at h
    · simp at h
    · next hc =>
      rw [List.take_succ_cons, List.mem_cons] at h
      rcases h with rfl | h
      · simpa using hc
      · exact colonGo_take r b h

theorem keyGo_take : ∀ s : Bytes, NL ∉ s.take (keyGo s).1 ∧
    (∀ i < (keyGo s).1, hd (s.drop i) = COLON → isWs (hd (s.drop (i + 1))) = false ∧ hd (s.drop (i + 1)) ≠ 0) ∧
    ((keyGo s).2 = false → noKeySep (s.take (keyGo s).1) = true ∧ (s.drop (keyGo s).1 = [] ∨ hd (s.drop (keyGo s).1) = NL))
  | [] => ⟨by simp [keyGo], fun i h => by simp [keyGo] at h, fun _ => by simp [keyGo, noKeySep]⟩
  | c :: r => by
    obtain ⟨h1, h2, h3⟩ := keyGo_take r
    rw [keyGo]
    split
    · next hc => exact ⟨by simp, fun i h => by simp at h, fun _ => ⟨rfl, .inr (by simpa using hc)⟩⟩
    · next hc =>
      split
      · next hd => exact ⟨by simp, fun i h => by simp at h, fun h => by cases h⟩
      · next hd =>
        simp only [beq_iff_eq] at hc
        have hcol : c = COLON → isWs (r.headD 0) = false ∧ r.headD 0 ≠ 0 := by
          intro h
          simp only [h, beq_self_eq_true, Bool.true_and, Bool.or_eq_true, beq_iff_eq, not_or, Bool.not_eq_true] at hd
          exact hd
        refine ⟨?_, ?_, ?_⟩
        · simp only [List.take_succ_cons, List.mem_cons, not_or]; exact ⟨fun h => hc h.symm, h1⟩
        · intro i hi hh
          cases i with
          | zero => simpa using hcol (by simpa using hh)
          | succ i => simpa using h2 i (by simpa using hi) (by simpa using hh)
        · intro hk
          obtain ⟨h4, h5⟩ := h3 hk
          refine ⟨?_, by simpa using h5⟩
          simp only [List.take_succ_cons, noKeySep, h4, Bool.and_true, Bool.not_eq_true']
          cases hcc : c == COLON with
          | false => rfl
          | true =>
            obtain ⟨g1, g2⟩ := hcol (by simpa using hcc)
            cases r with
            | nil => simp at g2
            | cons x r =>
              have g1 : isWs x = false := g1
              have g2 : x ≠ 0 := g2
              have hk0 : (keyGo (x :: r)).1 ≠ 0 := by
                intro h0
                rcases h5 with h | h
                · rw [h0] at h; cases h
                · rw [h0] at h
                  have h : x = NL := h
                  rw [h] at g1; exact absurd g1 (by decide)
              obtain ⟨k, hk⟩ : ∃ k, (keyGo (x :: r)).1 = k + 1 := ⟨(keyGo (x :: r)).1 - 1, by omega⟩
              rw [hk]
              simp [g1, g2]

theorem noKeySep_append : ∀ {a b : Bytes}, COLON ∉ a → noKeySep b = true → noKeySep (a ++ b) = true
  | [], _, _, h => h
  | c :: a, b, h1, h2 => by
    simp only [List.mem_cons, not_or] at h1
    rw [List.cons_append, noKeySep, noKeySep_append h1.2 h2]
    have : (c == COLON) = false := beq_eq_false_iff_ne.2 (fun h => h1.1 h.symm)
    rw [this]; rfl

/-! ### Scalars and keys -/

/-- The scalar at `n`, backwards. -/
inductive ScalarAt (inp : Bytes) (inline : Bool) (n : Nat) (a : AnyV) : Option Bytes → Nat → Prop
  | text {m : Nat} : n ≤ m → m ≤ inp.length → Token inline (inp.drop m) (slice inp n m) a → ScalarAt inp inline n a none m
  | open {ps : List Piece} : a = .string (ps.flatMap Piece.reads) → ps.all Piece.known = true → inp.drop n = DQ :: ps.flatMap Piece.text →
    ScalarAt inp inline n a none inp.length
  | block {s : Bytes} {e : Nat} : a = .string s → BlockAt inp n s e → e ≤ inp.length →
    ScalarAt inp inline n a (some (wsStr inp e)) (wsEnd inp e)

theorem isEol_lineEnds : ∀ s : Bytes, isEol s = lineEnds s
  | [] => rfl
  | b :: r => by
    rw [isEol]
    split
    · next h =>
      simp only [beq_iff_eq] at h
      subst h
      rfl
    · next h =>
      split
      · next hw => rw [isEol_lineEnds r]; simp [lineEnds, hw]
      · next hw => simp only [lineEnds, List.dropWhile_cons, hw]; simpa using h

theorem isNumber_chars {s : Bytes} (h : isNumber s = true) : ∀ b ∈ s, numChar b = true ∨ b = DASH := by
  intro b hb
  rw [isNumber_iff] at h
  have hu : ∀ b ∈ unsigned s, numChar b = true := by
    intro b hb
    refine numGo_bytes (wd := true) (we := true) (hn := false) (unsigned s) b ?_
    rw [h.1, List.take_length]; exact hb
  unfold unsigned at hu
  split at hu
  · next hd =>
    cases s with
    | nil => cases hb
    | cons c r =>
      simp at hd
      rcases List.mem_cons.1 hb with rfl | hb
      · exact .inr hd
      · exact .inl (hu _ hb)
  · exact .inl (hu _ hb)

theorem numChar_ws {b : UInt8} (h : numChar b = true ∨ b = DASH) : isOtherWs b = false ∧ b ≠ 0 := by
  have : ∀ b : Fin 256, (numChar (UInt8.ofNat b) || UInt8.ofNat b == DASH) = true →
      isOtherWs (UInt8.ofNat b) = false ∧ UInt8.ofNat b ≠ 0 := by decide +kernel
  have := this ⟨b.toNat, b.toNat_lt⟩
  simp only [UInt8.ofNat_toNat] at this
  exact this (by simpa using h)

theorem isNumber_start {inp : Bytes} {n m : Nat} (h : isNumber (slice inp n m) = true) : numStart inp n ≤ m := by
  have hnm : n < m := by
    rcases Nat.lt_or_ge n m with h' | h'
    · exact h'
    · have : slice inp n m = [] := by unfold slice; rw [Nat.sub_eq_zero_of_le h']; rfl
      rw [this] at h; exact absurd h (by decide)
  unfold numStart
  split <;> omega

theorem keyGo_stop : ∀ s : Bytes, (keyGo s).2 = true → (isWs (hd (s.drop ((keyGo s).1 + 1))) || hd (s.drop ((keyGo s).1 + 1)) == 0) = true
  | [], h => by cases h
  | b :: r, h => by
    simp only [keyGo] at h ⊢
    split at h
    · cases h
    · next h1 =>
      rw [if_neg h1]
      split at h
      · next h2 =>
        rw [if_pos h2]
        exact (Bool.and_eq_true_iff.1 h2).2
      · next h2 =>
        rw [if_neg h2]
        exact keyGo_stop r h

/-- The number at `n` cannot be longer. -/
theorem number_stop {inp : Bytes} {n : Nat} (hn : n ≤ inp.length) :
    isNumber (slice inp n (numStart inp n + numLen inp n) ++ [peekAt inp (numStart inp n + numLen inp n)]) = false := by
  rw [Bool.eq_false_iff]
  intro h
  have h1 := numLen_le hn
  have h2 := numStart_le hn
  rcases Nat.lt_or_ge (numStart inp n + numLen inp n) inp.length with hl | hl
  · rw [← slice_one hl, slice_append (by omega) (by omega)] at h
    have := (number_long hn (by omega) (by omega) h).1
    omega
  · have := isNumber_chars h 0 (by rw [peekAt_ge hl]; simp)
    exact (numChar_ws this).2 rfl

theorem lineEnds_all : ∀ {s : Bytes}, NL ∉ s → lineEnds s = true → ∀ b ∈ s, isOtherWs b = true
  | [], _, _, _, h => by cases h
  | c :: s, hn, h, b, hb => by
    simp only [List.mem_cons, not_or] at hn
    rw [← isEol_lineEnds, isEol] at h
    split at h
    · next hc => exact absurd (by simpa using hc) (Ne.symm hn.1)
    · split at h
      · next hw =>
        rcases List.mem_cons.1 hb with rfl | hb
        · exact hw
        · exact lineEnds_all hn.2 (by rw [← isEol_lineEnds]; exact h) b hb
      · cases h

theorem isEol_append : ∀ {s r : Bytes}, (∀ b ∈ s, isOtherWs b = true) → isEol r = true → isEol (s ++ r) = true
  | [], _, _, h => h
  | b :: s, r, h1, h2 => by
    rw [List.cons_append, isEol, h1 b (by simp), isEol_append (fun c hc => h1 c (by simp [hc])) h2]
    simp

theorem lead_quotes {inp : Bytes} {inline : Bool} {n e : Nat} {s : RStr} {l : Lead}
    (hq : InQuotes (slice inp n e) s.id ∨
      e = inp.length ∧ ∃ ps : List Piece, ps.all Piece.known = true ∧ s.id = ps.flatMap Piece.reads ∧ inp.drop n = DQ :: ps.flatMap Piece.text)
    (h1 : n < e) (h2 : e ≤ inp.length) (hsq : peekAt inp n = SQ → peekAt inp e ≠ SQ)
    (h : (if (!inline && peekAt inp e == COLON) = true then pure (Lead.key s e) else pure (.scalar (.string s) none e) : Except Stop Lead) = .ok l) :
    (∀ sc ws m, l = .scalar sc ws m → ScalarAt inp inline n sc.value ws m) ∧ (∀ key m, l = .key key m → FirstKey inp key.id n m) := by
  split at h
  · next hc =>
    simp only [Bool.and_eq_true, beq_iff_eq] at hc
    cases h
    refine ⟨(fun _ _ _ h => by cases h), fun key m h => ?_⟩
    cases h
    refine ⟨Nat.le_of_lt h1, peek_some hc.2 (by decide), .inl ?_⟩
    rcases hq with hq | ⟨hq, _⟩
    · exact hq
    · rw [hq, peekAt_ge (Nat.le_refl _)] at hc; exact absurd hc.2 (by decide)
  · next hc =>
    cases h
    refine ⟨fun sc ws m h => ?_, (fun _ _ h => by cases h)⟩
    cases h
    rcases hq with hq | ⟨rfl, ps, g1, g2, g3⟩
    · refine .text (Nat.le_of_lt h1) h2 (.quoted hq (fun hi => ?_) fun hs => ?_)
      · intro hcol
        exact hc (by rw [hi]; simp only [Bool.not_false, Bool.true_and, beq_iff_eq]; exact hcol)
      · exact hsq (by rw [← peek_slice h1]; exact hs)
    · exact .open (by rw [Scalar.value, g2]) g1 g3

theorem keyEnd_hd {inp : Bytes} {n i : Nat} (h : KeyEnd inp (n + i)) : hd ((inp.drop n).drop i) = COLON ∧
    (isWs (hd ((inp.drop n).drop (i + 1))) = true ∨ hd ((inp.drop n).drop (i + 1)) = 0) := by
  obtain ⟨h1, h2⟩ := h
  rw [getD_peek, Nat.add_assoc, peekAt_add] at h2
  exact ⟨by rw [← peekAt_add]; exact some_peek h1, h2⟩

theorem lead_back {f : Nat} {inp : Bytes} {inline tab : Bool} {n : Nat} {l : Lead} (hn : n ≤ inp.length) (hw : wsEnd inp n = n) (ht : tab = !inline)
    (h : lead f inp inline tab n = .ok l) :
    (∀ sc ws m, l = .scalar sc ws m → ScalarAt inp inline n sc.value ws m) ∧ (∀ key m, l = .key key m → FirstKey inp key.id n m) := by
  subst ht
  have hL := (lead_spec hn).ok h
  simp only [lead] at h
  split at h
  · cases h; exact ⟨(fun _ _ _ h => by cases h), (fun _ _ h => by cases h)⟩
  next c0 =>
  split at h
  · next hc =>
    simp only [beq_iff_eq] at hc
    cases hd : doubleQuoted f inp n with
    | error e => rw [hd] at h; cases h
    | ok r =>
      obtain ⟨s, e⟩ := r
      rw [hd] at h
      have hQ := (doubleQuoted_spec (lt_of_peek (inp := inp) (n := n) (by rw [hc]; decide))).ok hd
      exact lead_quotes (doubleQuoted_back hc hd) hQ.lt hQ.le (fun h => by rw [hc] at h; exact absurd h (by decide)) h
  next c1 =>
  split at h
  · next hc =>
    simp only [beq_iff_eq] at hc
    cases hd : singleQuoted f inp n with
    | error e => rw [hd] at h; cases h
    | ok r =>
      obtain ⟨s, e⟩ := r
      rw [hd] at h
      have hQ := singleQuoted_ok (lt_of_peek (inp := inp) (n := n) (by rw [hc]; decide)) hd
      obtain ⟨g1, g2⟩ := singleQuoted_quotes hc hd
      refine lead_quotes (.inl ?_) hQ.lt hQ.le (fun _ => g2) h
      rw [g1]
      exact .single _
  next c2 =>
  split at h
  · cases h; exact ⟨(fun _ _ _ h => by cases h), (fun _ _ h => by cases h)⟩
  next c3 =>
  split at h
  · cases h; exact ⟨(fun _ _ _ h => by cases h), (fun _ _ h => by cases h)⟩
  next c4 =>
  split at h
  · next hc =>
    simp only [Bool.or_eq_true, beq_iff_eq] at hc
    simp only [bind, Except.bind] at h
    split at h
    · cases h
    next r hb =>
    obtain ⟨s, ws, m⟩ := r
    cases h
    refine ⟨fun sc ws m h => ?_, (fun _ _ h => by cases h)⟩
    cases h
    have hnl := lt_of_peek (inp := inp) (n := n) (by rcases hc with hc | hc <;> (rw [hc]; decide))
    have hcl : (peekAt inp (n + 1) != DASH) = true → (peekAt inp (n + 1) == DASH) = false := by simp
    obtain ⟨w, hi, k, g1, g2, g3, g4, rfl, rfl⟩ := block_back (by split <;> rfl) hcl hn hb
    refine .block rfl ?_ g4
    have hfo : (if (peekAt inp n == GT) = true then GT else PIPE) = peekAt inp n := by
      rcases hc with hc | hc <;> (rw [hc]; rfl)
    show BlockAt inp n s.id hi
    rw [g2]
    by_cases h1 : peekAt inp (n + 1) = DASH
    · have hl := lt_of_peek (inp := inp) (n := n + 1) (by rw [h1]; decide)
      have hb : bump inp n 2 = n + 2 := Nat.min_eq_left hl
      simp only [h1, beq_self_eq_true, Bool.true_or, if_true, hb] at g1 g3
      refine ⟨peekAt inp n == GT, .strip, n + 2, k, w, by omega, hl, ?_, (fun h => by cases h), g1, ?_⟩
      · rw [hfo, slice_next rfl (by omega) (by omega), slice_next h1 (by omega) (by omega), slice_self]; rfl
      · simp [h1, endBreaks]
    · by_cases h2 : peekAt inp (n + 1) = 43
      · have hl := lt_of_peek (inp := inp) (n := n + 1) (by rw [h2]; decide)
        have hb : bump inp n 2 = n + 2 := Nat.min_eq_left hl
        simp only [h2, beq_self_eq_true, Bool.or_true, if_true, hb] at g1 g3
        refine ⟨peekAt inp n == GT, .keep, n + 2, k, w, by omega, hl, ?_, (fun h => by cases h), g1, ?_⟩
        · rw [hfo, slice_next rfl (by omega) (by omega), slice_next h2 (by omega) (by omega), slice_self]; rfl
        · rw [h2]; rfl
      · have hb : bump inp n 1 = n + 1 := Nat.min_eq_left hnl
        have e1 : (peekAt inp (n + 1) == DASH || peekAt inp (n + 1) == 43) = false := by simp [h1, h2]
        simp only [e1, Bool.false_eq_true, if_false, hb] at g1 g3
        refine ⟨peekAt inp n == GT, .clip, n + 1, k, w, by omega, hnl, ?_, (fun _ => by rw [getD_peek]; exact ⟨h1, h2⟩), g1, ?_⟩
        · rw [hfo, slice_next rfl (by omega) (by omega), slice_self]; rfl
        · have : (peekAt inp (n + 1) != DASH) = true := by simp [h1]
          rw [this]; rfl
  next c5 =>
  have hind : isIndicator (peekAt inp n) = false := by
    obtain ⟨w1, w2⟩ := wsEnd_start hw
    simp only [Bool.or_eq_true, not_or, Bool.not_eq_true] at c1 c2 c3 c4 c5
    simp only [isIndicator, w1, c1, c2, c3, c4, c5, beq_eq_false_iff_ne.2 w2, Bool.or_self]
  have hhd : ∀ m, isIndicator ((slice inp n m).headD 0) = false := by
    intro m
    rcases Nat.lt_or_ge n m with h | h
    · show isIndicator (hd (slice inp n m)) = false
      rw [peek_slice h]; exact hind
    · have : slice inp n m = [] := by unfold slice; rw [Nat.sub_eq_zero_of_le h]; rfl
      rw [this]; decide
  have s1 := numStart_le hn
  have s2 := numLen_le hn
  have s3 := number_bytes hn
  obtain ⟨hint, hnum⟩ := number_cases (inp := inp) (tab := !inline) (n := n)
  have hN : number inp (!inline) n = (numStart inp n + numLen inp n, some (.number (slice inp n (numStart inp n + numLen inp n)) hint)) ∧ numLen inp n ≠ 0 ∧
        (inline = false → isEol (inp.drop (numStart inp n + numLen inp n)) = true) ∨
      number inp (!inline) n = (numStart inp n + numLen inp n, none) ∧
        (numLen inp n = 0 ∨ inline = false ∧ isEol (inp.drop (numStart inp n + numLen inp n)) = false) := by
    rw [hnum]
    split
    · next h0 => exact .inr ⟨rfl, .inl h0⟩
    · next h0 =>
      split
      · next h1 => exact .inr ⟨rfl, .inr (by simpa using h1)⟩
      · next h1 => exact .inl ⟨rfl, h0, fun hi => by rw [hi] at h1; simpa using h1⟩
  rcases hN with ⟨hN, hk0, hk1⟩ | ⟨hN, hk⟩
  · rw [hN] at h
    cases h
    refine ⟨fun sc ws m h => ?_, (fun _ _ h => by cases h)⟩
    cases h
    refine .text (by omega) s2 (.number (number_text hn hk0) ?_)
    have h1 := number_stop hn
    cases inline with
    | true => exact h1
    | false => rw [← isEol_lineEnds]; exact hk1 rfl
  · rw [hN] at h
    simp only at h
    generalize he : numStart inp n + numLen inp n = e at *
    cases inline with
    | true =>
      simp only [if_true] at h
      cases h
      refine ⟨fun sc ws m h => ?_, (fun _ _ h => by cases h)⟩
      cases h
      have hc := (ctlGo_spec (inp.drop e)).1
      have ht := ctlGo_take (inp.drop e)
      rw [List.length_drop] at hc
      have h0 : numLen inp n = 0 := by
        rcases hk with h | ⟨h, _⟩
        · exact h
        · cases h
      have hnn : isNumber (slice inp n (e + ctlGo (inp.drop e))) = false := by
        cases hx : isNumber (slice inp n (e + ctlGo (inp.drop e))) with
        | false => rfl
        | true => exact absurd h0 (number_long hn (by omega) (by omega) hx).2
      refine .text (by omega) (by omega) ?_
      rw [(plainScalar_fits hnn).2]
      refine .plain (fun k hk => ?_) ?_
      · exfalso
        rcases Nat.le_total (slice inp n (e + ctlGo (inp.drop e))).length k with hkl | hkl
        · rw [List.take_of_length_le hkl, hnn] at hk; cases hk
        · rw [slice_length (by omega)] at hkl
          have : (slice inp n (e + ctlGo (inp.drop e))).take k = slice inp n (n + k) := by
            unfold slice
            rw [List.take_take, Nat.add_sub_cancel_left, Nat.min_eq_left hkl]
          rw [this] at hk
          exact absurd h0 (number_long hn (by omega) (isNumber_start hk) hk).2
      simp only [plainText, hhd, Bool.not_false, if_true, Bool.true_and, Bool.and_eq_true, Bool.not_eq_true']
      refine ⟨?_, by rw [← List.drop_drop]; exact (ctlGo_spec (inp.drop e)).2⟩
      rw [List.any_eq_false]
      intro b hb
      rw [← slice_append (b := e) (by omega) (by omega), List.mem_append] at hb
      rcases hb with hb | hb
      · rw [(numChar_ne (s3 b hb)).2.2]; decide
      · rw [ht b (by unfold slice at hb; rwa [Nat.add_sub_cancel_left] at hb)]; decide
    | false =>
      simp only [Bool.false_eq_true, if_false] at h
      obtain ⟨k1, k2, k3⟩ := keyGo_take (inp.drop e)
      have hc := (keyGo_spec (inp.drop e)).1
      have hc2 := (keyGo_spec (inp.drop e)).2
      have hst := keyGo_stop (inp.drop e)
      rw [List.length_drop] at hc
      generalize hkg : keyGo (inp.drop e) = r at *
      obtain ⟨k, fd⟩ := r
      simp only at h k1 k2 k3 hc hc2 hst
      have esl : slice inp e (e + k) = (inp.drop e).take k := by unfold slice; rw [Nat.add_sub_cancel_left]
      cases fd with
      | true =>
        simp only [if_true] at h hc2
        cases h
        refine ⟨(fun _ _ _ h => by cases h), fun key m h => ?_⟩
        cases h
        have hcol : peekAt inp (e + k) = COLON := by rw [peekAt_add]; exact hc2
        refine ⟨by omega, peek_some hcol (by decide), .inr ⟨rfl, by rw [getD_peek]; exact hind, ?_, ?_, ⟨peek_some hcol (by decide), ?_⟩, ?_⟩⟩
        · rw [Bool.eq_false_iff]
          intro hh
          apply c0
          simp only [dashes, Bool.and_eq_true, beq_iff_eq] at hh
          simp only [Bool.not_false, Bool.and_true, Bool.and_eq_true, beq_iff_eq]
          exact ⟨hh.1, by have := hh.2; rw [List.tail_drop] at this; exact this⟩
        · rw [← slice_append (b := e) (by omega) (by omega), List.mem_append, esl]
          rintro (h | h)
          · exact (numChar_ne (s3 _ h)).2.1 rfl
          · exact k1 h
        · rw [getD_peek, Nat.add_assoc, peekAt_add]; simpa using hst rfl
        intro p hp1 hp2 hke
        rcases Nat.lt_or_ge p e with hpe | hpe
        · have : COLON ∈ slice inp n e := by
            obtain ⟨hl, hx⟩ := List.getElem?_eq_some_iff.1 hke.1
            have : slice inp n e = slice inp n p ++ slice inp p (p + 1) ++ slice inp (p + 1) e := by
              rw [slice_append hp1 (by omega), slice_append (by omega) (by omega)]
            rw [this, slice_one hl, some_peek hke.1]
            simp
          exact (numChar_ne (s3 _ this)).1 rfl
        · obtain ⟨i, rfl⟩ : ∃ i, p = e + i := ⟨p - e, by omega⟩
          obtain ⟨q1, q2⟩ := keyEnd_hd hke
          obtain ⟨r1, r2⟩ := k2 i (by omega) q1
          rcases q2 with q2 | q2
          · rw [r1] at q2; cases q2
          · exact r2 q2
      | false =>
        simp only [Bool.false_eq_true, if_false] at h
        obtain ⟨k3, k4⟩ := k3 rfl
        cases h
        refine ⟨fun sc ws m h => ?_, (fun _ _ h => by cases h)⟩
        cases h
        have hnn : isNumber (slice inp n (e + k)) = false := by
          cases hx : isNumber (slice inp n (e + k)) with
          | false => rfl
          | true =>
            obtain ⟨g1, g2⟩ := number_long hn (by omega) (by omega) hx
            rcases hk with hk | ⟨_, hk⟩
            · exact absurd hk g2
            · have : k = 0 := by omega
              subst this
              rw [isEol_ws (by simpa using k4)] at hk
              cases hk
        refine .text (by omega) (by omega) ?_
        rw [(plainScalar_fits hnn).2]
        have esl2 : slice inp n (e + k) = slice inp n e ++ (inp.drop e).take k := by rw [← esl, slice_append (by omega) (by omega)]
        have hnl : (slice inp n (e + k)).contains NL = false := by
          rw [Bool.eq_false_iff, Ne, List.contains_iff_mem, esl2, List.mem_append]
          rintro (h | h)
          · exact (numChar_ne (s3 _ h)).2.1 rfl
          · exact k1 h
        have hks : noKeySep (slice inp n (e + k)) = true := by
          rw [esl2]; exact noKeySep_append (fun h => (numChar_ne (s3 _ h)).1 rfl) k3
        have hcut : slice inp n (e + k) ++ inp.drop (e + k) = inp.drop n := by
          unfold slice
          have : inp.drop (e + k) = (inp.drop n).drop (e + k - n) := by rw [List.drop_drop]; congr 1; omega
          rw [this, List.take_append_drop]
        have hda : dashes (slice inp n (e + k) ++ inp.drop (e + k)) = false := by
          rw [hcut, Bool.eq_false_iff]
          intro hh
          apply c0
          simp only [dashes, Bool.and_eq_true, beq_iff_eq] at hh
          simp only [Bool.not_false, Bool.and_true, Bool.and_eq_true, beq_iff_eq]
          exact ⟨hh.1, by have := hh.2; rw [List.tail_drop] at this; exact this⟩
        have hend : ((inp.drop (e + k)).headD NL == NL) = true := by
          rw [← List.drop_drop, beq_iff_eq]
          rcases k4 with h | h
          · rw [h]; rfl
          · cases hx : (inp.drop e).drop k with
            | nil => rfl
            | cons b r => rw [hx] at h; exact h
        refine .plain (fun j hj => ⟨rfl, ?_⟩) ?_
        · rw [Bool.eq_false_iff]
          intro hle
          rcases Nat.lt_or_ge (e + k - n) j with hkl | hkl
          · rw [List.take_of_length_le (by rw [slice_length (by omega)]; omega), hnn] at hj; cases hj
          · have ht : (slice inp n (e + k)).take j = slice inp n (n + j) := by
              unfold slice
              rw [List.take_take, Nat.add_sub_cancel_left, Nat.min_eq_left hkl]
            have hdr : (slice inp n (e + k)).drop j = slice inp (n + j) (e + k) := by
              rw [← slice_append (b := n + j) (by omega) (by omega)]
              have : (slice inp n (n + j)).length = j := by rw [slice_length (by omega)]; omega
              rw [List.drop_append, List.drop_of_length_le (by omega), this, Nat.sub_self]; rfl
            rw [ht] at hj
            rw [hdr] at hle
            obtain ⟨g1, g2⟩ := number_long hn (by omega) (isNumber_start hj) hj
            have hnl2 : NL ∉ slice inp (n + j) (e + k) := by
              intro h
              rw [Bool.eq_false_iff, Ne, List.contains_iff_mem, ← slice_append (b := n + j) (by omega) (by omega), List.mem_append] at hnl
              exact hnl (.inr h)
            have hall := lineEnds_all hnl2 hle
            rcases hk with hk | ⟨_, hk⟩
            · exact g2 hk
            · rcases Nat.lt_or_ge (n + j) e with hlt | hge
              · have hm : peekAt inp (n + j) ∈ slice inp n e ∧ peekAt inp (n + j) ∈ slice inp (n + j) (e + k) := by
                  constructor
                  · rw [← slice_append (b := n + j) (by omega) (by omega), ← slice_append (a := n + j) (b := n + j + 1) (by omega) (by omega), slice_one (by omega)]
                    simp
                  · rw [← slice_append (a := n + j) (b := n + j + 1) (by omega) (by omega), slice_one (by omega)]
                    simp
                have h1 := (numChar_ws (s3 _ hm.1)).1
                rw [hall _ hm.2] at h1
                cases h1
              · have he2 : n + j = e := by omega
                rw [he2, esl] at hall
                have : isEol (inp.drop e) = true := by
                  rw [← List.take_append_drop k (inp.drop e)]
                  exact isEol_append hall (isEol_ws k4)
                rw [this] at hk
                cases hk
        · simp only [plainText, hhd, hnl, hks, hda, hend, Bool.not_false, Bool.false_eq_true, if_false, Bool.and_self]

theorem nextKey_back {inp : Bytes} {n m : Nat} {key : RStr} (hn : n ≤ inp.length) (h : nextMappingKey inp n = (m, some key)) :
    n ≤ m ∧ m ≤ inp.length ∧ slice inp n m = key.id ∧ COLON ∉ key.id ∧ 0 ∉ key.id := by
  have h1 := (colonGo_spec (inp.drop n)).1
  have h2 := colonGo_take (inp.drop n)
  rw [List.length_drop] at h1
  simp only [nextMappingKey] at h
  split at h
  · cases h
  · cases h
    have e : slice inp n (n + colonGo (inp.drop n)) = (inp.drop n).take (colonGo (inp.drop n)) := by unfold slice; rw [Nat.add_sub_cancel_left]
    refine ⟨by omega, by omega, rfl, ?_, ?_⟩
    · simp only [e]; exact fun h => (h2 _ h).1 rfl
    · simp only [e]; exact fun h => (h2 _ h).2 rfl

theorem nextKey_end {inp : Bytes} {n m : Nat} (hn : n ≤ inp.length) (h : nextMappingKey inp n = (m, none)) : m = n := by
  have h1 := (colonGo_spec (inp.drop n)).1
  rw [List.length_drop] at h1
  simp only [nextMappingKey] at h
  split at h
  · next hk =>
    cases h
    simp only [List.isEmpty_iff] at hk
    have := congrArg List.length hk
    rw [slice_length (by omega)] at this
    simp at this
    omega
  · cases h

theorem untilColon_back {inp : Bytes} {n m : Nat} {key : RStr} (hn : n ≤ inp.length) (h : untilColon inp n = (m, some key)) :
    n ≤ m ∧ m < inp.length ∧ (inp[m]? = some COLON ∨ inp[m]? = some 0) ∧ slice inp n m = key.id ∧ COLON ∉ key.id ∧ 0 ∉ key.id := by
  obtain ⟨h1, h3⟩ := colonGo_spec (inp.drop n)
  have h2 := colonGo_take (inp.drop n)
  rw [List.length_drop] at h1
  simp only [untilColon] at h
  split at h
  · cases h
  · next hne =>
    cases h
    have e : slice inp n (n + colonGo (inp.drop n)) = (inp.drop n).take (colonGo (inp.drop n)) := by unfold slice; rw [Nat.add_sub_cancel_left]
    rw [← peekAt_add] at h3
    have hlt : n + colonGo (inp.drop n) < inp.length := by omega
    refine ⟨by omega, hlt, ?_, rfl, ?_, ?_⟩
    · rw [List.getElem?_eq_getElem hlt, ← peekAt_get hlt]
      simpa using h3
    · simp only [e]; exact fun h => (h2 _ h).1 rfl
    · simp only [e]; exact fun h => (h2 _ h).2 rfl

end Verif
