import Verif.Rules
/-
Where the scanning functions of the parser stop.
-/
namespace Verif

/-- The byte at the head, 0 if there is none. -/
abbrev hd (s : Bytes) : UInt8 := s.headD 0

theorem peekAt_add (inp : Bytes) (n k : Nat) : peekAt inp (n + k) = hd ((inp.drop n).drop k) := by
  simp [peekAt, List.drop_drop]

theorem peekAt_ge {inp : Bytes} {n : Nat} (h : inp.length ≤ n) : peekAt inp n = 0 := by
  simp [peekAt, List.drop_eq_nil_of_le h]

theorem lt_of_peek {inp : Bytes} {n : Nat} (h : peekAt inp n ≠ 0) : n < inp.length := by
  refine Classical.byContradiction fun hc => h (peekAt_ge (by omega))

theorem peekAt_get {inp : Bytes} {n : Nat} (h : n < inp.length) : peekAt inp n = inp[n] := by
  unfold peekAt; rw [List.drop_eq_getElem_cons h]; rfl

theorem bump_le (inp : Bytes) (n k : Nat) : bump inp n k ≤ inp.length := by unfold bump; omega
theorem le_bump {inp : Bytes} {n : Nat} (k : Nat) (h : n ≤ inp.length) : n ≤ bump inp n k := by unfold bump; omega
theorem bump_one {inp : Bytes} {n : Nat} (h : n < inp.length) : bump inp n 1 = n + 1 := by unfold bump; omega
theorem bump_peek {inp : Bytes} {n : Nat} (h : peekAt inp n ≠ 0) : bump inp n 1 = n + 1 := bump_one (lt_of_peek h)
theorem bump_zero {inp : Bytes} {n : Nat} (h : n ≤ inp.length) : bump inp n 0 = n := by unfold bump; omega

theorem slice_self (inp : Bytes) (n : Nat) : slice inp n n = [] := by simp [slice]

theorem slice_append {inp : Bytes} {a b c : Nat} (h1 : a ≤ b) (h2 : b ≤ c) : slice inp a b ++ slice inp b c = slice inp a c := by
  unfold slice
  have e : c - a = (b - a) + (c - b) := by omega
  rw [e, List.take_add, List.drop_drop]
  congr 3
  omega

theorem slice_one {inp : Bytes} {n : Nat} (h : n < inp.length) : slice inp n (n + 1) = [peekAt inp n] := by
  rw [peekAt_get h]
  unfold slice; rw [List.drop_eq_getElem_cons h, show n + 1 - n = 1 by omega]; rfl

theorem slice_length {inp : Bytes} {a b : Nat} (h : b ≤ inp.length) : (slice inp a b).length = b - a := by
  simp [slice]; omega

theorem slice_all (inp : Bytes) : slice inp 0 inp.length = inp := by simp [slice]

/-- A position next to an ASCII byte or at an end of the input; in valid UTF-8 such a position is
between characters. -/
def Cut (inp : Bytes) (n : Nat) : Prop := peekAt inp n < 0x80 ∨ n = 0 ∨ peekAt inp (n - 1) < 0x80

theorem cut_zero (inp : Bytes) : Cut inp 0 := .inr (.inl rfl)
theorem cut_end (inp : Bytes) : Cut inp inp.length := .inl (by rw [peekAt_ge (Nat.le_refl _)]; decide)
theorem cut_next {inp : Bytes} {n : Nat} (h : peekAt inp n < 0x80) : Cut inp (n + 1) := .inr (.inr h)
theorem cut_bump {inp : Bytes} {n : Nat} (h : peekAt inp n < 0x80) : Cut inp (bump inp n 1) := by
  by_cases hn : n < inp.length
  · rw [bump_one hn]; exact cut_next h
  · have : bump inp n 1 = inp.length := by unfold bump; omega
    rw [this]; exact cut_end inp

theorem otherWs_ascii {b : UInt8} (h : isOtherWs b = true) : b < 0x80 := by
  simp only [isOtherWs, Bool.or_eq_true, beq_iff_eq] at h
  rcases h with ((h | h) | h) | h <;> subst h <;> decide

theorem digit_ascii {b : UInt8} (h : isDigit b = true) : b < 0x80 := by
  simp only [isDigit, Bool.and_eq_true, decide_eq_true_eq, UInt8.le_iff_toNat_le] at h
  rw [UInt8.lt_iff_toNat_lt]
  have : (57 : UInt8).toNat = 57 := rfl
  have : (128 : UInt8).toNat = 128 := rfl
  omega

theorem ctl_ascii {b : UInt8} (h : isCtl b = true) : b < 0x80 := by
  simp only [isCtl, Bool.or_eq_true, beq_iff_eq] at h
  rcases h with (((h | h) | h) | h) | h <;> subst h <;> decide

/-! ### White space -/

/-- The last of the first `k` bytes is ASCII. -/
def EndsAscii (s : Bytes) (k : Nat) : Prop := k = 0 ∨ k = s.length ∨ hd (s.drop (k - 1)) < 0x80

theorem EndsAscii.cons {b : UInt8} {r : Bytes} {k : Nat} (h : EndsAscii r k) (hb : k = 0 → b < 0x80 ∨ r = []) :
    EndsAscii (b :: r) (k + 1) := by
  cases k with
  | zero =>
    rcases hb rfl with h | rfl
    · exact .inr (.inr h)
    · exact .inr (.inl rfl)
  | succ k =>
    rcases h with h | h | h
    · omega
    · exact .inr (.inl (by simp; omega))
    · exact .inr (.inr h)

theorem wsGo_spec : ∀ (c : Bool) (s : Bytes), (wsGo c s).1 ≤ s.length ∧ EndsAscii s (wsGo c s).1 ∧
    (c = true → s ≠ [] → (wsGo c s).1 ≠ 0)
  | c, [] => by cases c <;> exact ⟨Nat.le_refl _, .inl rfl, fun _ h => absurd rfl h⟩
  | true, b :: r => by
    simp only [wsGo]
    split
    · next h =>
      obtain ⟨h1, h2, _⟩ := wsGo_spec false r
      simp only [beq_iff_eq] at h
      subst h
      exact ⟨by simpa using h1, h2.cons fun _ => .inl (by decide), fun _ _ => by simp⟩
    · obtain ⟨h1, h2, h3⟩ := wsGo_spec true r
      refine ⟨by simpa using h1, h2.cons fun h0 => .inr ?_, fun _ _ => by simp⟩
      exact Classical.byContradiction fun hc => h3 rfl hc h0
  | false, b :: r => by
    simp only [wsGo]
    split
    · next h =>
      obtain ⟨h1, h2, _⟩ := wsGo_spec true r
      simp only [beq_iff_eq] at h
      subst h
      exact ⟨by simpa using h1, h2.cons fun _ => .inl (by decide), by simp⟩
    · split
      · next h =>
        obtain ⟨h1, h2, _⟩ := wsGo_spec false r
        simp only [beq_iff_eq] at h
        subst h
        exact ⟨by simpa using h1, h2.cons fun _ => .inl (by decide), by simp⟩
      · split
        · next h =>
          obtain ⟨h1, h2, _⟩ := wsGo_spec false r
          exact ⟨by simpa using h1, h2.cons fun _ => .inl (otherWs_ascii h), by simp⟩
        · exact ⟨by simp, .inl rfl, by simp⟩

theorem EndsAscii.cut {inp : Bytes} {n k : Nat} (hn : n ≤ inp.length) (h : EndsAscii (inp.drop n) k) (hc : Cut inp n) :
    Cut inp (n + k) := by
  rcases h with rfl | h | h
  · exact hc
  · rw [h, List.length_drop, show n + (inp.length - n) = inp.length by omega]; exact cut_end inp
  · by_cases hk : k = 0
    · subst hk; exact hc
    · refine .inr (.inr ?_)
      rw [show n + k - 1 = n + (k - 1) by omega, peekAt_add]; exact h

theorem le_wsEnd (inp : Bytes) (n : Nat) : n ≤ wsEnd inp n := by unfold wsEnd; omega
theorem wsEnd_le {inp : Bytes} {n : Nat} (h : n ≤ inp.length) : wsEnd inp n ≤ inp.length := by
  have := (wsGo_spec false (inp.drop n)).1
  rw [List.length_drop] at this
  unfold wsEnd; omega
theorem wsEnd_cut {inp : Bytes} {n : Nat} (h : n ≤ inp.length) (hc : Cut inp n) : Cut inp (wsEnd inp n) :=
  (wsGo_spec false (inp.drop n)).2.1.cut h hc

/-- What follows white space is none. -/
theorem wsGo_stop : ∀ (c : Bool) (s : Bytes), wsGo false (s.drop (wsGo c s).1) = (0, 0)
  | c, [] => by cases c <;> rfl
  | true, b :: r => by
    simp only [wsGo]
    split
    · exact wsGo_stop false r
    · exact wsGo_stop true r
  | false, b :: r => by
    simp only [wsGo]
    split
    · exact wsGo_stop true r
    · split
      · exact wsGo_stop false r
      · split
        · exact wsGo_stop false r
        · simp_all [wsGo]

theorem wsEnd_idem (inp : Bytes) (n : Nat) : wsEnd inp (wsEnd inp n) = wsEnd inp n := by
  have := wsGo_stop false (inp.drop n)
  rw [List.drop_drop] at this
  conv => lhs; unfold wsEnd
  rw [show wsEnd inp n = n + (wsGo false (inp.drop n)).1 from rfl, this]
  rfl

theorem wsStr_idem (inp : Bytes) (n : Nat) : wsStr inp (wsEnd inp n) = [] := by
  unfold wsStr; rw [wsEnd_idem]; exact slice_self _ _

/-! ### Scanning for a byte -/

theorem findNl_spec : ∀ s : Bytes, findNl s ≤ s.length ∧ (hd (s.drop (findNl s)) = NL ∨ findNl s = s.length)
  | [] => ⟨Nat.le_refl _, .inr rfl⟩
  | b :: r => by
    simp only [findNl]
    split
    · next h => exact ⟨by simp, .inl (by simpa using h)⟩
    · obtain ⟨h1, h2⟩ := findNl_spec r
      exact ⟨by simpa using h1, by simpa using h2⟩

theorem colonGo_spec : ∀ s : Bytes, colonGo s ≤ s.length ∧ (hd (s.drop (colonGo s)) = COLON ∨ hd (s.drop (colonGo s)) = 0)
  | [] => ⟨Nat.le_refl _, .inr rfl⟩
  | b :: r => by
    simp only [colonGo]
    split
    · next h => exact ⟨by simp, by simpa using h⟩
    · obtain ⟨h1, h2⟩ := colonGo_spec r
      exact ⟨by simpa using h1, by simpa using h2⟩

theorem ctlGo_spec : ∀ s : Bytes, ctlGo s ≤ s.length ∧ isCtl (hd (s.drop (ctlGo s))) = true
  | [] => ⟨Nat.le_refl _, rfl⟩
  | b :: r => by
    simp only [ctlGo]
    split
    · next h => exact ⟨by simp, by simpa using h⟩
    · obtain ⟨h1, h2⟩ := ctlGo_spec r
      exact ⟨by simpa using h1, by simpa using h2⟩

theorem keyGo_spec : ∀ s : Bytes, (keyGo s).1 ≤ s.length ∧
    if (keyGo s).2 then hd (s.drop (keyGo s).1) = COLON
    else hd (s.drop (keyGo s).1) = NL ∨ (keyGo s).1 = s.length
  | [] => ⟨Nat.le_refl _, .inr rfl⟩
  | b :: r => by
    simp only [keyGo]
    split
    · next h => exact ⟨by simp, by simpa using h⟩
    · split
      · next h =>
        simp only [Bool.and_eq_true, beq_iff_eq] at h
        exact ⟨by simp, by simpa using h.1⟩
      · obtain ⟨h1, h2⟩ := keyGo_spec r
        refine ⟨by simpa using h1, ?_⟩
        split
        · next h => rw [if_pos h] at h2; simpa using h2
        · next h => rw [if_neg h] at h2; simpa using h2

theorem dqScan_spec : ∀ s : Bytes, (dqScan s).1 ≤ s.length ∧
    if (dqScan s).2 then hd (s.drop (dqScan s).1) = BSL
    else hd (s.drop (dqScan s).1) = DQ ∨ hd (s.drop (dqScan s).1) = 0
  | [] => ⟨Nat.le_refl _, .inr rfl⟩
  | b :: r => by
    simp only [dqScan]
    split
    · next h => exact ⟨by simp, by simpa using h⟩
    · split
      · next h => exact ⟨by simp, by simpa using h⟩
      · obtain ⟨h1, h2⟩ := dqScan_spec r
        refine ⟨by simpa using h1, ?_⟩
        split
        · next h => rw [if_pos h] at h2; simpa using h2
        · next h => rw [if_neg h] at h2; simpa using h2

theorem numGo_spec : ∀ (wd we hn : Bool) (s : Bytes), (numGo wd we hn s).1 ≤ s.length ∧ EndsAscii s (numGo wd we hn s).1
  | _, _, _, [] => ⟨Nat.le_refl _, .inl rfl⟩
  | wd, we, hn, b :: r => by
    simp only [numGo]
    split
    · next h =>
      simp only [Bool.and_eq_true, beq_iff_eq] at h
      obtain ⟨h1, h2⟩ := numGo_spec false we hn r
      exact ⟨by simpa using h1, h2.cons fun _ => .inl (by rw [h.1]; decide)⟩
    · split
      · next h =>
        simp only [Bool.and_eq_true, Bool.or_eq_true, beq_iff_eq] at h
        obtain ⟨h1, h2⟩ := numGo_spec false false hn r
        exact ⟨by simpa using h1, h2.cons fun _ => .inl (by rcases h.1 with h | h <;> rw [h] <;> decide)⟩
      · split
        · next h =>
          obtain ⟨h1, h2⟩ := numGo_spec wd we true r
          exact ⟨by simpa using h1, h2.cons fun _ => .inl (digit_ascii h)⟩
        · exact ⟨by simp, .inl rfl⟩

/-! ### Errors -/

/-- The errors about escape sequences. -/
def ErrKind.isEscape : ErrKind → Bool
  | .badEscape | .badHexEscape | .badUnicodeEscape => true
  | _ => false

/-- The ways the parser may fail: a span inside the input at or after `n`, or not having finished. -/
def Fails (inp : Bytes) (n : Nat) (e : Stop) : Prop :=
  e = .fuel ∨ ∃ a b k, e = .err a b k ∧ n ≤ a ∧ a ≤ b ∧ b ≤ inp.length ∧ Cut inp a ∧ (k.isEscape = true ∨ Cut inp b)

theorem Fails.mono {inp : Bytes} {n m : Nat} {e : Stop} (h : Fails inp n e) (hm : m ≤ n) : Fails inp m e := by
  rcases h with h | ⟨a, b, k, h1, h2, h3⟩
  · exact .inl h
  · exact .inr ⟨a, b, k, h1, by omega, h3⟩

/-! ### Quoted strings -/

theorem sqScan_ok : ∀ {f : Nat} {rest : Bytes} {k k' : Nat} {esc : Bool}, sqScan f rest k = .ok (k', esc) →
    ∃ j, k' = k + j ∧ j < rest.length ∧ hd (rest.drop j) = SQ ∧ (∀ c ∈ rest.take j, c ≠ SQ) ∧
      esc = (hd (rest.drop (j + 1)) == SQ)
  | 0, _, _, _, _, h => by cases h
  | f + 1, rest, k, k', esc, h => by
    unfold sqScan at h
    split at h
    · next hq =>
      cases h
      cases rest with
      | nil => exact absurd hq (by decide)
      | cons b r => exact ⟨0, rfl, by simp, by simpa using hq, by simp, by simp⟩
    · next hq =>
      obtain ⟨j, h1, h2, h3, h4, h5⟩ := sqScan_ok h
      cases rest with
      | nil => simp at h2
      | cons b r =>
        refine ⟨j + 1, by simp at h1; omega, by simpa using h2, by simpa using h3, ?_, by simpa using h5⟩
        intro c hc
        simp only [List.take_succ_cons, List.mem_cons] at hc
        rcases hc with rfl | hc
        · simpa using hq
        · exact h4 c hc

theorem sqScan_err : ∀ {f : Nat} {rest : Bytes} {k : Nat} {e : Stop}, sqScan f rest k = .error e → e = .fuel
  | 0, _, _, _, h => by cases h; rfl
  | f + 1, rest, k, e, h => by
    unfold sqScan at h
    split at h
    · cases h
    · exact sqScan_err h

theorem sqEsc_ok : ∀ {f : Nat} {rest scratch : Bytes} {k k' : Nat} {s : Bytes}, sqEsc f rest scratch k = .ok (s, k') →
    ∃ j, k' = k + j ∧ j < rest.length ∧ hd (rest.drop j) = SQ
  | 0, _, _, _, _, _, h => by cases h
  | f + 1, rest, scratch, k, k', s, h => by
    unfold sqEsc at h
    split at h
    · next hq =>
      split at h
      · obtain ⟨j, h1, h2, h3⟩ := sqEsc_ok h
        rw [List.length_drop] at h2
        rw [List.drop_drop] at h3
        exact ⟨2 + j, by omega, by omega, h3⟩
      · cases h
        cases rest with
        | nil => exact absurd hq (by decide)
        | cons b r => exact ⟨0, rfl, by simp, by simpa using hq⟩
    · obtain ⟨j, h1, h2, h3⟩ := sqEsc_ok h
      cases rest with
      | nil => simp at h2
      | cons b r => exact ⟨j + 1, by simp at h1; omega, by simpa using h2, by simpa using h3⟩

theorem sqEsc_err : ∀ {f : Nat} {rest scratch : Bytes} {k : Nat} {e : Stop}, sqEsc f rest scratch k = .error e → e = .fuel
  | 0, _, _, _, _, h => by cases h; rfl
  | f + 1, rest, scratch, k, e, h => by
    unfold sqEsc at h
    split at h
    · split at h
      · exact sqEsc_err h
      · cases h
    · exact sqEsc_err h

/-- What is known of a quoted string from `n` to `e`. -/
structure Quoted (inp : Bytes) (n : Nat) (s : RStr) (e : Nat) : Prop where
  lt : n < e
  le : e ≤ inp.length
  cut : Cut inp e
  kind : s.kind = .original
  text : s.original = slice inp n e

theorem singleQuoted_ok {f : Nat} {inp : Bytes} {n : Nat} {s : RStr} {e : Nat} (hn : n < inp.length)
    (h : singleQuoted f inp n = .ok (s, e)) : Quoted inp n s e := by
  simp only [singleQuoted, bind, Except.bind, bump_one hn] at h
  cases hs : sqScan f (inp.drop (n + 1)) 0 with
  | error er => rw [hs] at h; cases h
  | ok r =>
    obtain ⟨k, esc⟩ := r
    obtain ⟨j, h1, h2, h3, _, _⟩ := sqScan_ok hs
    rw [hs] at h
    have hkj : k = j := by omega
    subst hkj
    rw [List.length_drop] at h2
    simp only at h
    split at h
    · cases he : sqEsc f (inp.drop (n + 1 + k)) (slice inp (n + 1) (n + 1 + k)) 0 with
      | error er => rw [he] at h; cases h
      | ok r =>
        obtain ⟨s', k2⟩ := r
        obtain ⟨j2, g1, g2, g3⟩ := sqEsc_ok he
        rw [he] at h
        have : k2 = j2 := by omega
        subst this
        rw [List.length_drop] at g2
        simp only [pure, Except.pure] at h
        have hb : bump inp (n + 1 + k + k2) 1 = n + 1 + k + k2 + 1 := bump_one (by omega)
        rw [hb] at h
        cases h
        refine ⟨by omega, by omega, cut_next ?_, rfl, rfl⟩
        rw [peekAt_add, g3]; decide
    · rw [if_neg (by omega), bump_one (by omega)] at h
      cases h
      refine ⟨by omega, by omega, cut_next ?_, rfl, rfl⟩
      rw [peekAt_add, h3]; decide

theorem singleQuoted_err {f : Nat} {inp : Bytes} {n : Nat} {e : Stop} (h : singleQuoted f inp n = .error e) : e = .fuel := by
  simp only [singleQuoted, bind, Except.bind] at h
  cases hs : sqScan f (inp.drop (bump inp n 1)) 0 with
  | error er => rw [hs] at h; cases h; exact sqScan_err hs
  | ok r =>
    obtain ⟨k, esc⟩ := r
    rw [hs] at h
    simp only at h
    split at h
    · cases he : sqEsc f (inp.drop (bump inp n 1 + k)) (slice inp (bump inp n 1) (bump inp n 1 + k)) 0 with
      | error er => rw [he] at h; cases h; exact sqEsc_err he
      | ok r => rw [he] at h; cases h
    · cases h

theorem hexVal_ascii {b : UInt8} {v : Nat} (h : hexVal b = some v) : b < 0x80 ∧ b ≠ 0 := by
  simp only [hexVal] at h
  have e1 : (57 : UInt8).toNat = 57 := rfl
  have e2 : (102 : UInt8).toNat = 102 := rfl
  have e3 : (70 : UInt8).toNat = 70 := rfl
  have e4 : (128 : UInt8).toNat = 128 := rfl
  have e5 : (48 : UInt8).toNat = 48 := rfl
  have e6 : (97 : UInt8).toNat = 97 := rfl
  have e7 : (65 : UInt8).toNat = 65 := rfl
  have z : b ≠ 0 ↔ b.toNat ≠ 0 := by
    constructor
    · intro hb hc; exact hb (UInt8.toNat_inj.1 (by simpa using hc))
    · rintro hb rfl; exact hb rfl
  rw [UInt8.lt_iff_toNat_lt, z]
  split at h
  · next hc => simp only [Bool.and_eq_true, decide_eq_true_eq, UInt8.le_iff_toNat_le] at hc; omega
  · split at h
    · next hc => simp only [Bool.and_eq_true, decide_eq_true_eq, UInt8.le_iff_toNat_le] at hc; omega
    · split at h
      · next hc => simp only [Bool.and_eq_true, decide_eq_true_eq, UInt8.le_iff_toNat_le] at hc; omega
      · cases h

/-- What holds of a result: `P` of a value, `Q` of a failure. -/
def Outcome {α : Type} (P : α → Prop) (Q : Stop → Prop) : Except Stop α → Prop
  | .ok a => P a
  | .error e => Q e

theorem Outcome.imp {α : Type} {P P' : α → Prop} {Q Q' : Stop → Prop} {r : Except Stop α} (h : Outcome P Q r)
    (hp : ∀ a, P a → P' a) (hq : ∀ e, Q e → Q' e) : Outcome P' Q' r := by
  cases r with
  | ok a => exact hp a h
  | error e => exact hq e h

theorem Outcome.bind {α β : Type} {P : α → Prop} {P' : β → Prop} {Q : Stop → Prop} {r : Except Stop α}
    {k : α → Except Stop β} (h : Outcome P Q r) (hk : ∀ a, P a → Outcome P' Q (k a)) : Outcome P' Q (r >>= k) := by
  cases r with
  | ok a => exact hk a h
  | error e => exact h

theorem Outcome.ok {α : Type} {P : α → Prop} {Q : Stop → Prop} {r : Except Stop α} {a : α} (h : Outcome P Q r)
    (e : r = .ok a) : P a := by subst e; exact h
theorem Outcome.error {α : Type} {P : α → Prop} {Q : Stop → Prop} {r : Except Stop α} {a : Stop} (h : Outcome P Q r)
    (e : r = .error a) : Q a := by subst e; exact h

theorem unescapeUnicode_spec {inp : Bytes} {start : Nat} {k : ErrKind} : ∀ (count n c : Nat), start ≤ n → n ≤ inp.length →
    Cut inp n → Outcome (fun r => n + count ≤ r.2 ∧ r.2 ≤ inp.length ∧ Cut inp r.2)
      (fun e => ∃ b, e = .err start b k ∧ start ≤ b ∧ b ≤ inp.length) (unescapeUnicode inp start k count n c)
  | 0, n, c, h1, h2, h3 => by
    simp only [unescapeUnicode]
    split
    · exact ⟨n, rfl, h1, h2⟩
    · exact ⟨by simp, h2, h3⟩
  | count + 1, n, c, h1, h2, h3 => by
    simp only [unescapeUnicode]
    cases hv : hexVal (peekAt inp n) with
    | none => exact ⟨_, rfl, by have := le_bump 1 h2; omega, bump_le _ _ _⟩
    | some v =>
      obtain ⟨ha, hz⟩ := hexVal_ascii hv
      have hb := bump_peek hz
      exact (unescapeUnicode_spec (inp := inp) (start := start) (k := k) count (bump inp n 1) (c * 16 + v)
        (by omega) (bump_le _ _ _) (cut_bump ha)).imp (fun r h => ⟨by omega, h.2⟩) (fun _ h => h)

theorem simpleEscape_ascii {b x : UInt8} (h : simpleEscape b = some x) : b < 0x80 ∧ b ≠ 0 := by
  simp only [simpleEscape, beq_iff_eq] at h
  repeat' split at h
  all_goals first | (next hb => subst hb; decide) | cases h

theorem unescape_spec {inp : Bytes} {start n : Nat} (h1 : start ≤ n) (h2 : n ≤ inp.length) :
    Outcome (fun r => n < r.2 ∧ r.2 ≤ inp.length ∧ Cut inp r.2)
      (fun e => ∃ b k, e = .err start b k ∧ start ≤ b ∧ b ≤ inp.length ∧ k.isEscape = true) (unescape inp start n) := by
  simp only [unescape]
  cases hs : simpleEscape (peekAt inp n) with
  | some x =>
    obtain ⟨ha, hz⟩ := simpleEscape_ascii hs
    have := bump_peek hz
    exact ⟨by simp only; omega, bump_le _ _ _, cut_bump ha⟩
  | none =>
    simp only
    have uni : ∀ (k : ErrKind) (count : Nat), k.isEscape = true → peekAt inp n < 0x80 → peekAt inp n ≠ 0 →
        Outcome (fun r => n < r.2 ∧ r.2 ≤ inp.length ∧ Cut inp r.2)
          (fun e => ∃ b k, e = .err start b k ∧ start ≤ b ∧ b ≤ inp.length ∧ k.isEscape = true)
          (unescapeUnicode inp start k count (bump inp n 1) 0) := by
      intro k count hk ha hz
      have hb := bump_peek hz
      exact (unescapeUnicode_spec (inp := inp) (start := start) (k := k) count (bump inp n 1) 0 (by omega) (bump_le _ _ _)
        (cut_bump ha)).imp (fun r h => ⟨by omega, h.2⟩) (fun _ ⟨b, h⟩ => ⟨b, k, h.1, h.2.1, h.2.2, hk⟩)
    split
    · next hb =>
      simp only [beq_iff_eq] at hb
      exact uni _ _ rfl (by rw [hb]; decide) (by rw [hb]; decide)
    · split
      · next hb =>
        simp only [beq_iff_eq] at hb
        exact uni _ _ rfl (by rw [hb]; decide) (by rw [hb]; decide)
      · exact ⟨_, _, rfl, by have := le_bump 1 h2; omega, bump_le _ _ _, rfl⟩

theorem dqEsc_spec {inp : Bytes} : ∀ (f : Nat) {n : Nat} {scratch : Bytes}, n ≤ inp.length →
    Outcome (fun r => n ≤ r.2 ∧ r.2 ≤ inp.length ∧ (peekAt inp r.2 = DQ ∨ peekAt inp r.2 = 0)) (Fails inp n)
      (dqEsc inp f n scratch)
  | 0, n, scratch, hn => .inl rfl
  | f + 1, n, scratch, hn => by
    unfold dqEsc
    simp only
    split
    · next h => exact ⟨Nat.le_refl _, hn, by simpa using h⟩
    · next h0 =>
      simp only [Bool.or_eq_true, beq_iff_eq, not_or] at h0
      have hb := bump_peek h0.2
      have hlt := lt_of_peek h0.2
      split
      · next hb' =>
        simp only [beq_iff_eq] at hb'
        refine Outcome.bind ((unescape_spec (inp := inp) (start := n) (n := bump inp n 1) (by omega) (bump_le _ _ _)).imp
          (fun _ h => h) (fun e ⟨b, k, h⟩ => .inr ⟨n, b, k, h.1, Nat.le_refl _, h.2.1, h.2.2.1, .inl (by rw [hb']; decide), .inl h.2.2.2⟩)) fun r hr => ?_
        exact (dqEsc_spec f hr.2.1).imp (fun r h => ⟨by omega, h.2⟩) (fun e h => h.mono (by omega))
      · exact (dqEsc_spec f (bump_le inp n 1)).imp (fun r h => ⟨by omega, h.2⟩) (fun e h => h.mono (by omega))

theorem doubleQuoted_spec {f : Nat} {inp : Bytes} {n : Nat} (hn : n < inp.length) :
    Outcome (fun r => Quoted inp n r.1 r.2) (Fails inp n) (doubleQuoted f inp n) := by
  simp only [doubleQuoted, bump_one hn]
  obtain ⟨h1, h2⟩ := dqScan_spec (inp.drop (n + 1))
  generalize hk : dqScan (inp.drop (n + 1)) = r at h1 h2
  obtain ⟨k, esc⟩ := r
  rw [List.length_drop] at h1
  simp only at h1 h2 ⊢
  cases esc with
  | true =>
    simp only [if_true]
    refine Outcome.bind ((dqEsc_spec (inp := inp) f (n := n + 1 + k) (scratch := slice inp (n + 1) (n + 1 + k))
      (by omega)).imp (fun _ h => h) (fun e h => h.mono (by omega))) fun r hr => ?_
    refine ⟨?_, bump_le _ _ _, cut_bump ?_, rfl, rfl⟩
    · have := le_bump 1 hr.2.1; simp only; omega
    · rcases hr.2.2 with h | h <;> rw [h] <;> decide
  | false =>
    simp only [Bool.false_eq_true, if_false] at h2 ⊢
    have ha : peekAt inp (n + 1 + k) < 0x80 := by rw [peekAt_add]; rcases h2 with h | h <;> rw [h] <;> decide
    refine ⟨?_, bump_le _ _ _, ?_, rfl, rfl⟩
    · simp only
      split
      · rw [bump_zero (by omega)]; omega
      · rw [bump_one (by omega)]; omega
    · simp only
      split
      · next h => rw [bump_zero (by omega), h]; exact cut_end inp
      · exact cut_bump ha

/-! ### Block scalars -/

/-- State of the loop of `block`, once it has run: `stop` is the end of the last line read, and the white
space after it was passed. -/
structure BlockOK (inp : Bytes) (n : Nat) (st : BlockSt) : Prop where
  le : n ≤ st.stop
  stop : st.stop ≤ inp.length
  line : Cut inp st.stop
  pos : st.n = wsEnd inp st.stop
  ws : st.ws = wsStr inp st.stop

theorem blockLoop_err {inp : Bytes} {ind : Nat} {j : UInt8} {fo : Bool} : ∀ {f : Nat} {st : BlockSt} {e : Stop},
    blockLoop inp ind j fo f st = .error e → e = .fuel
  | 0, _, _, h => by cases h; rfl
  | f + 1, st, e, h => by
    unfold blockLoop at h
    split at h
    · cases h
    · simp only at h
      split at h
      · cases h
      · exact blockLoop_err h

/-- The end of the line at `n`. -/
theorem line_end {inp : Bytes} {n : Nat} (h : n ≤ inp.length) : n + findNl (inp.drop n) ≤ inp.length ∧
    Cut inp (n + findNl (inp.drop n)) := by
  obtain ⟨h1, h2⟩ := findNl_spec (inp.drop n)
  rw [List.length_drop] at h1 h2
  refine ⟨by omega, ?_⟩
  rcases h2 with h2 | h2
  · exact .inl (by rw [peekAt_add, h2]; decide)
  · rw [h2, show n + (inp.length - n) = inp.length by omega]; exact cut_end inp

theorem blockLoop_ok {inp : Bytes} {ind : Nat} {j : UInt8} {fo : Bool} : ∀ {f : Nat} {st st' : BlockSt},
    blockLoop inp ind j fo f st = .ok st' → st.n ≤ inp.length →
    (st.n = inp.length ∧ st' = st) ∨ (st.n ≠ inp.length ∧ BlockOK inp st.n st')
  | 0, _, _, h, _ => by cases h
  | f + 1, st, st', h, hn => by
    unfold blockLoop at h
    split at h
    · next he => cases h; exact .inl ⟨he, rfl⟩
    · next he =>
      refine .inr ⟨he, ?_⟩
      obtain ⟨h1, h2⟩ := line_end hn
      simp only at h
      split at h
      · cases h
        exact ⟨by simp, h1, h2, rfl, rfl⟩
      · rcases blockLoop_ok h (wsEnd_le h1) with ⟨_, h4⟩ | ⟨_, h4⟩
        · subst h4; exact ⟨by simp, h1, h2, rfl, rfl⟩
        · refine ⟨?_, h4.stop, h4.line, h4.pos, h4.ws⟩
          have := h4.le
          have := le_wsEnd inp (st.n + findNl (inp.drop st.n))
          simp only at *
          omega

/-- Without a newline in the white space, the line ends after it. -/
theorem findNl_ws : ∀ (c : Bool) (s : Bytes), (wsGo c s).2 = 0 →
    findNl s = (wsGo c s).1 + findNl (s.drop (wsGo c s).1)
  | _, [], _ => by cases ‹Bool› <;> rfl
  | true, b :: r, h => by
    unfold wsGo at h ⊢
    by_cases hb : b = NL
    · simp [hb] at h
    · have ih := findNl_ws true r (by simpa [hb] using h)
      simp only [beq_iff_eq, hb, if_false, findNl, List.drop_succ_cons]
      omega
  | false, b :: r, h => by
    unfold wsGo at h ⊢
    by_cases hh : b = HASH
    · have hb : b ≠ NL := by rw [hh]; decide
      have ih := findNl_ws true r (by simpa [hh] using h)
      simp only [beq_iff_eq, hh, if_true, List.drop_succ_cons]
      rw [findNl]
      simp only [beq_iff_eq, show HASH ≠ NL by decide, if_false]
      omega
    · by_cases hb : b = NL
      · subst hb; simp [hh] at h
      · by_cases hw : isOtherWs b = true
        · have ih := findNl_ws false r (by simpa [hh, hb, hw] using h)
          simp only [beq_iff_eq, hh, hb, hw, if_true, if_false, List.drop_succ_cons]
          rw [findNl]
          simp only [beq_iff_eq, hb, if_false]
          omega
        · simp [hh, hb, hw]

/-- If only white space is left, then also after the end of the line. -/
theorem wsGo_line : ∀ (c : Bool) (s : Bytes), (wsGo c s).1 = s.length →
    (wsGo false (s.drop (findNl s))).1 = (s.drop (findNl s)).length
  | _, [], _ => rfl
  | true, b :: r, h => by
    unfold wsGo at h
    by_cases hb : b = NL
    · subst hb
      simp only [beq_self_eq_true, if_true, List.length_cons] at h
      simp only [findNl, beq_self_eq_true, if_true, List.drop_zero, wsGo, List.length_cons, beq_iff_eq, show NL ≠ HASH by decide, if_false]
      omega
    · simp only [beq_iff_eq, hb, if_false, List.length_cons] at h
      have ih := wsGo_line true r (by omega)
      simpa only [findNl, beq_iff_eq, hb, if_false, List.drop_succ_cons] using ih
  | false, b :: r, h => by
    by_cases hb : b = NL
    · subst hb
      simpa only [findNl, beq_self_eq_true, if_true, List.drop_zero] using h
    · unfold wsGo at h
      have : (wsGo true r).1 = r.length ∨ (wsGo false r).1 = r.length := by
        by_cases hh : b = HASH
        · simp only [beq_iff_eq, hh, if_true, List.length_cons] at h; exact .inl (by omega)
        · by_cases hw : isOtherWs b = true
          · simp only [beq_iff_eq, hh, hb, hw, if_true, if_false, List.length_cons] at h; exact .inr (by omega)
          · simp [hh, hb, hw] at h
      simp only [findNl, beq_iff_eq, hb, if_false, List.drop_succ_cons]
      rcases this with h | h
      · exact wsGo_line true r h
      · exact wsGo_line false r h

/-- Without a newline in the text there is none in the white space. -/
theorem wsGo_noNl : ∀ (c : Bool) (s : Bytes), findNl s = s.length → (wsGo c s).2 = 0
  | c, [], _ => by cases c <;> rfl
  | c, b :: r, h => by
    rw [findNl] at h
    by_cases hb : b = NL
    · simp [hb] at h
    · simp only [beq_iff_eq, hb, if_false, List.length_cons] at h
      have ih1 := wsGo_noNl true r (by omega)
      have ih2 := wsGo_noNl false r (by omega)
      cases c with
      | true => simp [wsGo, hb, ih1]
      | false =>
        unfold wsGo
        split
        · exact ih1
        · rw [if_neg (by simpa using hb)]
          split
          · exact ih2
          · rfl

/-- The end of the line at `n`. -/
def lineEnd (inp : Bytes) (n : Nat) : Nat := n + findNl (inp.drop n)

theorem wsEnd_lineEnd {inp : Bytes} {n : Nat} (hn : n ≤ inp.length) (h : wsEnd inp n = inp.length) :
    wsEnd inp (lineEnd inp n) = inp.length := by
  have h1 := wsGo_line false (inp.drop n) (by unfold wsEnd at h; rw [List.length_drop]; omega)
  have h2 := (line_end hn).1
  unfold wsEnd lineEnd
  rw [List.drop_drop, List.length_drop] at h1
  omega

theorem lineEnd_next {inp : Bytes} {n : Nat} (hn : n < inp.length) (h : peekAt inp n ≠ NL) : lineEnd inp n = lineEnd inp (n + 1) := by
  unfold lineEnd
  rw [peekAt_get hn] at h
  rw [List.drop_eq_getElem_cons hn, findNl]
  simp only [beq_iff_eq, h, if_false]
  omega

/-- What is known of a block scalar from `n`: the text kept, and where the parser goes on. -/
theorem block_ok {f : Nat} {inp : Bytes} {n hdr : Nat} {j : UInt8} {fo ch cl : Bool} {s : RStr} {ws : Bytes} {m : Nat}
    (hn : n ≤ inp.length) (h : block f inp n hdr j fo ch cl = .ok (s, ws, m)) :
    m ≤ inp.length ∧ n ≤ m ∧ ∃ st stop, bump inp n hdr = st ∧ s.kind = .multiline (slice inp n st) ∧
      s.original = slice inp st stop ∧ st ≤ stop ∧ stop ≤ inp.length ∧ Cut inp m ∧
      ((∃ ws0, m = inp.length ∧ stop = inp.length ∧ ws = wsStr inp ws0 ∧ inp.length = wsEnd inp ws0 ∧ st ≤ ws0 ∧
          ws0 ≤ inp.length ∧ (ws0 = st ∨ Cut inp ws0) ∧ wsEnd inp (lineEnd inp st) = inp.length ∧
          (lineEnd inp st = inp.length → ws0 = inp.length)) ∨
        (Cut inp stop ∧ m = wsEnd inp stop ∧ ws = wsStr inp stop)) := by
  simp only [block, bind, Except.bind] at h
  have hst := bump_le inp n hdr
  have hst' := le_bump hdr hn
  generalize bump inp n hdr = st at *
  have hws := wsEnd_le hst
  have hws' := le_wsEnd inp st
  have hnl : wsNl inp st ≠ 0 → wsEnd inp st = inp.length → lineEnd inp st ≠ inp.length := by
    intro h1 h2 h3
    refine h1 (wsGo_noNl false _ ?_)
    unfold lineEnd at h3
    rw [List.length_drop]; omega
  have key : ∀ (b0 b1 : BlockSt) (ind : Nat), blockLoop inp ind j fo f b0 = .ok b1 → b0.n ≤ inp.length → st ≤ b0.n →
      (b0.n = inp.length → b0.stop = inp.length ∧ ∃ ws0, b0.ws = wsStr inp ws0 ∧ inp.length = wsEnd inp ws0 ∧ st ≤ ws0 ∧
        ws0 ≤ inp.length ∧ (ws0 = st ∨ Cut inp ws0) ∧ wsEnd inp (lineEnd inp st) = inp.length ∧
          (lineEnd inp st = inp.length → ws0 = inp.length)) →
      b1.n ≤ inp.length ∧ n ≤ b1.n ∧ st ≤ b1.stop ∧ b1.stop ≤ inp.length ∧ Cut inp b1.n ∧
        ((∃ ws0, b1.n = inp.length ∧ b1.stop = inp.length ∧ b1.ws = wsStr inp ws0 ∧ inp.length = wsEnd inp ws0 ∧ st ≤ ws0 ∧
          ws0 ≤ inp.length ∧ (ws0 = st ∨ Cut inp ws0) ∧ wsEnd inp (lineEnd inp st) = inp.length ∧
          (lineEnd inp st = inp.length → ws0 = inp.length)) ∨
        (Cut inp b1.stop ∧ b1.n = wsEnd inp b1.stop ∧ b1.ws = wsStr inp b1.stop)) := by
    intro b0 b1 ind hl hle hst0 hend
    rcases blockLoop_ok hl hle with ⟨h1, rfl⟩ | ⟨h1, h2⟩
    · obtain ⟨h3, ws0, h4, h5, h6, h7, h8⟩ := hend h1
      exact ⟨hle, by omega, by omega, by omega, by rw [h1]; exact cut_end inp, .inl ⟨ws0, h1, h3, h4, h5, h6, h7, h8⟩⟩
    · have a1 := h2.le
      have a2 := wsEnd_le h2.stop
      have a3 := le_wsEnd inp b1.stop
      have a4 := h2.pos
      have a5 := h2.stop
      exact ⟨by omega, by omega, by omega, h2.stop, by rw [a4]; exact wsEnd_cut h2.stop h2.line, .inr ⟨h2.line, h2.pos, h2.ws⟩⟩
  by_cases hz : wsNl inp st = 0
  · simp only [hz, if_true] at h
    obtain ⟨e1, e2⟩ := line_end hws
    have hle : lineEnd inp st = wsEnd inp st + findNl (inp.drop (wsEnd inp st)) := by
      have := findNl_ws false (inp.drop st) hz
      rw [List.drop_drop] at this
      unfold lineEnd wsEnd
      omega
    generalize he : wsEnd inp st + findNl (inp.drop (wsEnd inp st)) = e at *
    have e3 := wsEnd_le e1
    have e4 := le_wsEnd inp e
    split at h
    · cases h
    · next b1 hl =>
      obtain ⟨k1, k2, k3, k4, k5, k6⟩ := key _ _ _ hl e3 (by simp only; omega)
        (fun hq => ⟨hq, e, rfl, hq.symm, by omega, e1, .inr e2, by rw [hle]; exact hq, fun h => by omega⟩)
      cases h
      exact ⟨k1, k2, st, _, rfl, rfl, rfl, k3, k4, k5, k6⟩
  · simp only [hz, if_false] at h
    split at h
    · cases h
    · next b1 hl =>
      obtain ⟨k1, k2, k3, k4, k5, k6⟩ := key _ _ _ hl hws hws'
        (fun hq => ⟨hq, st, rfl, hq.symm, by omega, hst, .inl rfl, wsEnd_lineEnd hst hq, fun h => (hnl hz hq h).elim⟩)
      cases h
      exact ⟨k1, k2, st, _, rfl, rfl, rfl, k3, k4, k5, k6⟩

theorem block_err {f : Nat} {inp : Bytes} {n hdr : Nat} {j : UInt8} {fo ch cl : Bool} {e : Stop}
    (h : block f inp n hdr j fo ch cl = .error e) : e = .fuel := by
  simp only [block, bind, Except.bind] at h
  split at h
  · next hl => cases h; exact blockLoop_err hl
  · cases h

end Verif
