import Verif.Float
import Verif.Props.SetRead
import Verif.Props.Edits
import Verif.SerdeLemmas
/-
Floating point numbers that are set (C81).
-/
namespace Verif

/-! ### Specification -/

/-- `m · 10 ^ j` and `n · 10 ^ k` are the same number. -/
def SameValue (m : Nat) (j : Int) (n : Nat) (k : Int) : Prop := m * 10 ^ (j - min j k).toNat = n * 10 ^ (k - min j k).toNat

/-- The text stands for the number `± n · 10 ^ k`: a minus sign or none; digits, of which some may follow a point; and `e` with an integer, or not. -/
def Denotes (s : Bytes) (neg : Bool) (n : Nat) (k : Int) : Prop :=
  ∃ (a b point exp : Bytes) (m : Nat) (e : Int), s = (if neg then b! "-" else []) ++ (a ++ (point ++ exp)) ∧ (point = [] ∧ b = [] ∨ point = b! "." ++ b) ∧
    (exp = [] ∧ e = 0 ∨ ∃ x, exp = b! "e" ++ x ∧ decimal x = some e) ∧ natOf (a ++ b) = some m ∧ SameValue m (e - b.length) n k

/-- The text is the one for the floating point number. -/
def FloatV.textIs (s : Bytes) : FloatV → Prop
  | .nan => s = b! "NaN"
  | .inf neg => s = (if neg then b! "-" else []) ++ b! "inf"
  | .fin neg n k => Denotes s neg n k

/-- The number is finite and zero or, without its sign, at least 10 ^ -low. -/
def FloatV.notTiny (low : Nat) : FloatV → Prop
  | .nan | .inf _ => False
  | .fin _ n k => n = 0 ∨ 0 ≤ k + low ∨ 10 ^ (-(k + low)).toNat ≤ n

/-! ### Lemmas -/

theorem foldl_digits (s : Bytes) (acc : Nat) :
    s.foldl (fun a b => a * 10 + (b.toNat - 48)) acc = acc * 10 ^ s.length + s.foldl (fun a b => a * 10 + (b.toNat - 48)) 0 := by
  induction s generalizing acc with
  | nil => simp
  | cons b s ih =>
    simp only [List.foldl_cons, List.length_cons]
    rw [ih, ih (0 * 10 + _), Nat.pow_succ]
    simp only [Nat.add_mul, Nat.zero_mul, Nat.zero_add]
    rw [Nat.mul_assoc, Nat.mul_comm 10, Nat.add_assoc]

theorem natOf_iff {s : Bytes} {n : Nat} : natOf s = some n ↔ s ≠ [] ∧ s.all isDigit = true ∧ s.foldl (fun a b => a * 10 + (b.toNat - 48)) 0 = n := by
  unfold natOf
  by_cases h1 : s = []
  · simp [h1]
  · by_cases h2 : s.all isDigit = true
    · simp [h1, h2]
    · simp [h1, h2]

theorem natOf_zeros_after {s : Bytes} {n : Nat} (h : natOf s = some n) (k : Nat) : natOf (s ++ List.replicate k 48) = some (n * 10 ^ k) := by
  obtain ⟨h1, h2, h3⟩ := natOf_iff.1 h
  have hz : ∀ k, (List.replicate k (48 : UInt8)).foldl (fun a b => a * 10 + (b.toNat - 48)) 0 = 0 := by
    intro k
    induction k with
    | zero => rfl
    | succ k ih => simpa [List.replicate_succ] using ih
  refine natOf_iff.2 ⟨by simp [h1], ?_, ?_⟩
  · rw [List.all_append, h2, Bool.true_and, List.all_eq_true]
    intro b hb
    rw [List.eq_of_mem_replicate hb]; decide
  · rw [List.foldl_append, foldl_digits, h3, hz, List.length_replicate, Nat.add_zero]

theorem natOf_zeros_before {s : Bytes} {n : Nat} (h : natOf s = some n) (k : Nat) : natOf (List.replicate k 48 ++ s) = some n := by
  obtain ⟨h1, h2, h3⟩ := natOf_iff.1 h
  induction k with
  | zero => exact h
  | succ k ih =>
    obtain ⟨g1, g2, g3⟩ := natOf_iff.1 ih
    refine natOf_iff.2 ⟨by simp [List.replicate_succ], ?_, ?_⟩
    · rw [List.replicate_succ, List.cons_append, List.all_cons, g2]; rfl
    · rw [List.replicate_succ, List.cons_append, List.foldl_cons]; exact g3

theorem SameValue.refl (n : Nat) (k : Int) : SameValue n k n k := rfl

theorem decimalText_denotes {high low n : Nat} {k : Int} (neg : Bool) : Denotes (signText neg ++ decimalText high low n k) neg n k := by
  have hs : signText neg = if neg then b! "-" else [] := rfl
  rw [hs]
  have hn := natOf_natText n
  have hl : 0 < (natText n).length := List.length_pos_iff.2 (natText_ne n)
  unfold decimalText Denotes
  simp only []
  generalize (if neg then b! "-" else []) = sg
  generalize natText n = s at hn hl
  split
  · next h =>
    refine ⟨s ++ List.replicate k.toNat 48, b! "0", b! ".0", [], n * 10 ^ (k.toNat + 1), 0, by simp, .inr rfl, .inl ⟨rfl, rfl⟩, ?_, ?_⟩
    · have := natOf_zeros_after hn (k.toNat + 1)
      rw [List.replicate_succ'] at this
      simpa using this
    · unfold SameValue
      have e1 : (0 - ((b! "0").length : Int) - min (0 - ((b! "0").length : Int)) k).toNat = 0 := by simp; omega
      have e2 : (k - min (0 - ((b! "0").length : Int)) k).toNat = k.toNat + 1 := by simp; omega
      rw [e1, e2]; simp
  · next h1 =>
    split
    · next h2 =>
      refine ⟨s.take (s.length + k).toNat, s.drop (s.length + k).toNat, b! "." ++ s.drop (s.length + k).toNat, [], n, 0, by simp, .inr rfl, .inl ⟨rfl, rfl⟩,
        by rw [List.take_append_drop]; exact hn, ?_⟩
      have : 0 - ((s.drop (s.length + k).toNat).length : Int) = k := by rw [List.length_drop]; omega
      rw [this]; rfl
    · next h2 =>
      split
      · next h3 =>
        refine ⟨b! "0", List.replicate (-(s.length + k)).toNat 48 ++ s, b! "." ++ (List.replicate (-(s.length + k)).toNat 48 ++ s), [], n, 0, by simp, .inr rfl, .inl ⟨rfl, rfl⟩,
          ?_, ?_⟩
        · have := natOf_zeros_before hn ((-(s.length + k)).toNat + 1)
          simpa [List.replicate_succ] using this
        · have : 0 - ((List.replicate (-(s.length + k)).toNat (48 : UInt8) ++ s).length : Int) = k := by rw [List.length_append, List.length_replicate]; omega
          rw [this]; rfl
      · next h3 =>
        split
        · next h4 =>
          refine ⟨s, [], [], b! "e" ++ intText (s.length + k - 1), n, s.length + k - 1, by simp, .inl ⟨rfl, rfl⟩, .inr ⟨_, rfl, decimal_intText _⟩, by simpa using hn, ?_⟩
          have : (s.length + k - 1 - (([] : Bytes).length : Int)) = k := by simp; omega
          rw [this]; rfl
        · next h4 =>
          refine ⟨s.take 1, s.drop 1, b! "." ++ s.drop 1, b! "e" ++ intText (s.length + k - 1), n, s.length + k - 1, by simp, .inr rfl, .inr ⟨_, rfl, decimal_intText _⟩,
            by rw [List.take_append_drop]; exact hn, ?_⟩
          have : (s.length + k - 1 - ((s.drop 1).length : Int)) = k := by rw [List.length_drop]; omega
          rw [this]; rfl

/-- The text of a floating point number is the one for it. -/
theorem floatFormat_text (t : FloatTy) (v : FloatV) : v.textIs (floatFormat t v) := by
  cases v with
  | nan => rfl
  | inf neg => rfl
  | fin neg n k =>
    show Denotes (signText neg ++ _) neg n k
    split
    · next h =>
      subst h
      refine ⟨b! "0", b! "0", b! ".0", [], 0, 0, rfl, .inr rfl, .inl ⟨rfl, rfl⟩, by decide, ?_⟩
      simp [SameValue]
    · exact decimalText_denotes neg

theorem Denotes.isFloat {s : Bytes} {neg : Bool} {n : Nat} {k : Int} (h : Denotes s neg n k) : IsFloat s := by
  obtain ⟨a, b, point, exp, m, e, h1, h2, h3, h4, -⟩ := h
  obtain ⟨g1, g2, -⟩ := natOf_iff.1 h4
  refine ⟨_, _, h1, by cases neg <;> simp [signs], .inr ⟨a, b, exp, ?_, ⟨g1, fun c hc => (digit_iff c).1 (List.all_eq_true.1 g2 c hc)⟩, ?_⟩⟩
  · rcases h2 with ⟨rfl, rfl⟩ | rfl
    · exact .inl ⟨rfl, rfl⟩
    · exact .inr (by simp)
  · rcases h3 with ⟨rfl, -⟩ | ⟨x, rfl, hx⟩
    · exact .inl rfl
    · refine .inr ?_
      have hd : ∀ {n m}, natOf n = some m → IsDigits n := fun h => ⟨(natOf_iff.1 h).1, fun c hc => (digit_iff c).1 (List.all_eq_true.1 (natOf_iff.1 h).2.1 c hc)⟩
      cases x with
      | nil => cases hx
      | cons c x =>
        simp only [decimal] at hx
        split at hx
        · next hc =>
          obtain ⟨_, h, -⟩ := Option.map_eq_some_iff.1 hx
          exact ⟨b! "e", b! "-", x, by rw [eq_of_beq hc]; rfl, by simp, by simp [signs], hd h⟩
        · split at hx
          · next hc =>
            obtain ⟨_, h, -⟩ := Option.map_eq_some_iff.1 hx
            exact ⟨b! "e", b! "+", x, by rw [eq_of_beq hc]; rfl, by simp, by simp [signs], hd h⟩
          · obtain ⟨_, h, -⟩ := Option.map_eq_some_iff.1 hx
            exact ⟨b! "e", [], c :: x, rfl, by simp, by simp [signs], hd h⟩

theorem textIs_isFloat {s : Bytes} : ∀ {v : FloatV}, v.textIs s → IsFloat s
  | .nan, h => by
    obtain rfl : s = _ := h
    exact ⟨[], _, rfl, by simp [signs], .inl (by decide)⟩
  | .inf neg, h => by
    obtain rfl : s = _ := h
    exact ⟨_, _, rfl, by cases neg <;> simp [signs], .inl (by decide)⟩
  | .fin _ _ _, h => Denotes.isFloat h

theorem digitsF_length : ∀ (m f n : Nat), 0 < n → n < f → (m < (digitsF f n).length ↔ 10 ^ m ≤ n)
  | _, 0, _, _, h => by omega
  | 0, f + 1, n, h0, _ => by
    simp only [digitsF, List.length_append, List.length_singleton]
    constructor <;> intro _ <;> simp <;> omega
  | m + 1, f + 1, n, h0, h => by
    simp only [digitsF, List.length_append, List.length_singleton, Nat.add_lt_add_iff_right]
    split
    · next h10 =>
      have : 10 ≤ 10 ^ (m + 1) := by
        have := Nat.pow_le_pow_right (n := 10) (by decide) (show 1 ≤ m + 1 by omega)
        simpa using this
      simp; omega
    · next h10 =>
      rw [digitsF_length m f (n / 10) (by omega) (by omega), Nat.le_div_iff_mul_le (by decide), Nat.pow_succ]

theorem natText_length {m n : Nat} (h : n ≠ 0) : m < (natText n).length ↔ 10 ^ m ≤ n := digitsF_length m (n + 1) n (by omega) (by omega)

/-- Which texts of this form are numbers: those with digits after the `e`. -/
theorem isNumber_form {neg : Bool} {a b point exp c : Bytes} (h0 : a ≠ []) (ha : a.all isDigit = true) (hb : b.all isDigit = true) (hp : point = [] ∨ point = b! "." ++ b)
    (he : exp = [] ∨ exp = b! "e" ++ c) : isNumber (signText neg ++ (a ++ (point ++ exp))) = true ↔ exp = [] ∨ c.all isDigit = true := by
  have hstrip : (if (signText neg ++ (a ++ (point ++ exp))).head? = some DASH then (signText neg ++ (a ++ (point ++ exp))).tail else signText neg ++ (a ++ (point ++ exp))) =
      a ++ (point ++ exp) := by
    cases neg with
    | true => simp [signText]
    | false =>
      cases a with
      | nil => exact absurd rfl h0
      | cons x a =>
        simp only [List.all_cons, Bool.and_eq_true] at ha
        simp [signText, (digit_ne ha.1).2.1]
  have hexp : ∀ x ∈ exp.head?, isDigit x = false ∧ x ≠ 46 := by
    rcases he with rfl | rfl
    · intro x hx; cases hx
    · intro x hx; cases hx; decide
  have hdrop : ∀ c : Bytes, c.dropWhile isDigit = [] ↔ c.all isDigit = true := by
    intro c
    induction c with
    | nil => simp
    | cons x c ih => by_cases hx : isDigit x = true <;> simp_all
  simp only [isNumber, hstrip, decide_eq_true_eq]
  have hlast : (if exp.head? = some 101 ∨ exp.head? = some 69 then exp.tail.dropWhile isDigit else exp) = [] ↔ exp = [] ∨ c.all isDigit = true := by
    rcases he with rfl | rfl
    · simp
    · simp [hdrop]
  rcases hp with rfl | rfl
  · simp only [List.nil_append]
    obtain ⟨e1, e2⟩ := takeWhile_glue ha (fun x hx => (hexp x hx).1)
    have hd : ¬ exp.head? = some 46 := fun h => (hexp 46 (by rw [h]; rfl)).2 rfl
    simp only [e1, e2, hd, if_false, h0, ne_eq, not_false_eq_true, true_or, and_true]
    exact hlast
  · obtain ⟨e1, e2⟩ := takeWhile_glue (a := a) (r := b! "." ++ b ++ exp) ha (by intro x hx; cases hx; decide)
    obtain ⟨e3, e4⟩ := takeWhile_glue hb (fun x hx => (hexp x hx).1)
    have e5 : (b! "." ++ b ++ exp).head? = some 46 := rfl
    have e6 : (b! "." ++ b ++ exp).tail = b ++ exp := rfl
    simp only [e1, e2, e5, e6, e3, e4, if_true, h0, ne_eq, not_false_eq_true, true_or, and_true]
    exact hlast

theorem intText_digits (x : Int) : (intText x).all isDigit = true ↔ 0 ≤ x := by
  cases x with
  | ofNat n => simp only [intText]; exact ⟨fun _ => Int.natCast_nonneg n, fun _ => List.all_eq_true.2 fun b hb => digitsF_digits b hb⟩
  | negSucc n =>
    simp only [intText, List.all_cons, show isDigit DASH = false by decide, Bool.false_and]
    constructor
    · intro h; cases h
    · intro h; omega

/-- The texts of floating point numbers that are numbers for the parser. -/
theorem isNumber_floatFormat (t : FloatTy) (v : FloatV) : isNumber (floatFormat t v) = true ↔ v.notTiny t.low := by
  cases v with
  | nan => simp only [FloatV.notTiny, iff_false]; cases t <;> decide
  | inf neg => simp only [FloatV.notTiny, iff_false]; cases t <;> cases neg <;> decide
  | fin neg n k =>
    show isNumber (signText neg ++ if n = 0 then b! "0.0" else decimalText t.high t.low n k) = true ↔ n = 0 ∨ _
    by_cases h0 : n = 0
    · simp only [h0, if_true, true_or, iff_true]
      cases neg <;> decide
    · simp only [h0, if_false, false_or]
      have hlen := @natText_length (-(k + t.low)).toNat n h0
      have htiny : (0 ≤ k + t.low ∨ 10 ^ (-(k + t.low)).toNat ≤ n) ↔ -(t.low : Int) < (natText n).length + k := by
        have hl : 0 < (natText n).length := List.length_pos_iff.2 (natText_ne n)
        rw [← hlen]
        omega
      rw [htiny]
      have hl : 0 < (natText n).length := List.length_pos_iff.2 (natText_ne n)
      have hd : (natText n).all isDigit = true := List.all_eq_true.2 fun b hb => digitsF_digits b hb
      have hz : ∀ k, (List.replicate k (48 : UInt8)).all isDigit = true := fun k => List.all_eq_true.2 fun b hb => by rw [List.eq_of_mem_replicate hb]; decide
      have hsub : ∀ {x y : Bytes}, (x ++ y).all isDigit = true → x.all isDigit = true ∧ y.all isDigit = true := fun {x y} h => by simpa using h
      unfold decimalText
      simp only []
      generalize natText n = s at hl hd
      split
      · next h1 =>
        have := isNumber_form (neg := neg) (a := s ++ List.replicate k.toNat 48) (b := b! "0") (point := b! ".0") (exp := []) (c := []) (fun h => by rw [(List.append_eq_nil_iff.1 h).1] at hl; exact absurd hl (by decide))
          (by rw [List.all_append, hd, hz]; rfl) (by decide) (.inr rfl) (.inl rfl)
        simp only [List.append_nil, List.append_assoc, true_or, iff_true] at this
        rw [List.append_assoc, this]
        simp; omega
      · next h1 =>
        split
        · next h2 =>
          obtain ⟨g1, g2⟩ := hsub (x := s.take (s.length + k).toNat) (y := s.drop (s.length + k).toNat) (by rw [List.take_append_drop]; exact hd)
          have := isNumber_form (neg := neg) (point := b! "." ++ s.drop (s.length + k).toNat) (exp := []) (c := []) (by
            rw [ne_eq, List.take_eq_nil_iff]; rintro (h | h)
            · omega
            · rw [h] at hl; exact absurd hl (by decide)) g1 g2 (.inr rfl) (.inl rfl)
          simp only [List.append_nil, true_or, iff_true] at this
          rw [List.append_assoc, this]
          simp; omega
        · next h2 =>
          split
          · next h3 =>
            have := isNumber_form (neg := neg) (a := b! "0") (b := List.replicate (-(s.length + k)).toNat 48 ++ s) (point := b! "." ++ (List.replicate (-(s.length + k)).toNat 48 ++ s))
              (exp := []) (c := []) (by decide) (by decide) (by rw [List.all_append, hd, hz]; rfl) (.inr rfl) (.inl rfl)
            simp only [List.append_nil, true_or, iff_true] at this
            rw [List.append_assoc, show b! "0." = b! "0" ++ b! "." from rfl, List.append_assoc, this]
            simp; omega
          · next h3 =>
            have hne : s ≠ [] := List.length_pos_iff.1 hl
            split
            · next h4 =>
              have := isNumber_form (neg := neg) (a := s) (b := []) (point := []) (exp := b! "e" ++ intText (s.length + k - 1)) (c := intText (s.length + k - 1)) hne hd rfl
                (.inl rfl) (.inr rfl)
              rw [List.nil_append, intText_digits] at this
              rw [List.append_assoc, this]
              simp; omega
            · next h4 =>
              obtain ⟨g1, g2⟩ := hsub (x := s.take 1) (y := s.drop 1) (by rw [List.take_append_drop]; exact hd)
              have := isNumber_form (neg := neg) (point := b! "." ++ s.drop 1) (exp := b! "e" ++ intText (s.length + k - 1)) (c := intText (s.length + k - 1)) (by
                rw [ne_eq, List.take_eq_nil_iff]; rintro (h | h)
                · cases h
                · exact hne h) g1 g2 (.inr rfl) (.inr rfl)
              rw [intText_digits] at this
              rw [show s.take 1 ++ b! "." ++ s.drop 1 ++ b! "e" ++ intText (s.length + k - 1) = s.take 1 ++ ((b! "." ++ s.drop 1) ++ (b! "e" ++ intText (s.length + k - 1))) by simp, this]
              simp; omega

/-! ### C81 -/

theorem asFloat_of_any {d : Data} {x : Nat} {s : Bytes} (h : asAny d x = .ok (.number s)) (hf : IsFloat s) : asFloat d x = .ok (some s) := by
  simp only [asAny, asFloat, bind, Except.bind, pure, Except.pure] at h ⊢
  cases hr : d.raw x with
  | error => rw [hr] at h; cases h
  | ok r =>
    rw [hr] at h
    cases r with
    | number s' _ =>
      have h' : AnyV.number s' = .number s := Except.ok.inj h
      cases h'
      simp [(floatText_iff s).2 hf]
    | _ => cases h

/-- C81: a floating point number that was set is read back: the value is a number, and the text that `as_f32` and `as_f64` read stands for just the number that was set. -/
theorem C81_set {doc : Document} (h : Reachable doc) {x : Nat} (hx : Live doc x) (t : FloatTy) (v : FloatV) :
    ∃ d' s, setFloat t doc.data x v = .ok d' ∧ asAny d' x = .ok (.number s) ∧ asFloat d' x = .ok (some s) ∧ v.textIs s := by
  obtain ⟨u, hu⟩ := h.holds
  obtain ⟨w, hw⟩ := (hu.live_iff x).1 hx
  obtain ⟨d', _, _, _, h1, _⟩ := hu.editTree hw (.setNumber (floatFormat t v) t.hint)
  have he : doc.edit x (.setNumber (floatFormat t v) t.hint) = .ok { doc with data := d' } := by
    simp [Document.edit, h1, bind, Except.bind, pure, Except.pure]
  have ht := floatFormat_text t v
  exact ⟨d', _, h1, (C11_set_reads h hx rfl he).2.1, asFloat_of_any (C11_set_reads h hx rfl he).2.1 (textIs_isFloat ht), ht⟩

/-- C81 for numbers inserted into mappings. -/
theorem C81_insert {doc : Document} (h : Reachable doc) {x : Nat} (hx : Live doc x) {L : List (Bytes × Nat)} (hL : mapEntries doc.data x = .ok L)
    (key : Bytes) (t : FloatTy) (v : FloatV) :
    ∃ id d' s, mapInsertFloat t doc.data x key v = .ok (id, d') ∧ mapGet d' x key = .ok (some id) ∧ asAny d' id = .ok (.number s) ∧ asFloat d' id = .ok (some s) ∧ v.textIs s := by
  obtain ⟨id, d', h1, h2, h3, _⟩ := C14_insert h hx hL key (.number (floatFormat t v) t.hint)
  have ht := floatFormat_text t v
  exact ⟨id, d', _, h1, h3, h2, asFloat_of_any h2 (textIs_isFloat ht), ht⟩

/-- C81 for numbers pushed to sequences. -/
theorem C81_push {doc : Document} (h : Reachable doc) {x : Nat} (hx : Live doc x) {L : List Nat} (hL : seqValues doc.data x = .ok L) (t : FloatTy) (v : FloatV) :
    ∃ id d' s, seqPushFloat t doc.data x v = .ok (id, d') ∧ seqValues d' x = .ok (L ++ [id]) ∧ asAny d' id = .ok (.number s) ∧ asFloat d' id = .ok (some s) ∧ v.textIs s := by
  obtain ⟨id, d', h1, h2, _, h3, _⟩ := C19_push h hx hL (.number (floatFormat t v) t.hint)
  have ht := floatFormat_text t v
  exact ⟨id, d', _, h1, h3, h2, asFloat_of_any h2 (textIs_isFloat ht), ht⟩

/-- C81 is false for the document that is written and read again: 1e-7 in a block is read as a string, and in brackets it is read as two values or not accepted; and what is not a number, or
infinite, is read as a string. -/
theorem C81_reread_false :
    (((docOfText (b! "a: 1\n")).after 2 (.setNumber (floatFormat .f64 (.fin false 1 (-7))) .f64)).write = .ok (b! "a: 1e-7\n") ∧
      reread (b! "a: 1\n") 2 (.setNumber (floatFormat .f64 (.fin false 1 (-7))) .f64) 2 = .ok (.string (b! "1e-7"))) ∧
    (((docOfText (b! "[1]")).after 2 (.setNumber (floatFormat .f64 (.fin false 1 (-7))) .f64)).write = .ok (b! "[1e-7]") ∧
      ∃ doc, fromSlice (b! "[1e-7]") = .ok doc ∧
        Reads doc.data doc.root (.seq (.cons (.scalar (.number (b! "1e"))) (.cons (.scalar (.number (b! "-7"))) .nil)))) ∧
    reread (b! "[1, 2]") 2 (.setNumber (floatFormat .f64 (.fin false 1 (-7))) .f64) 2 = .error (.err 5 5 .badSequenceTerminator) ∧
    reread (b! "[1, 2]") 2 (.setNumber (floatFormat .f64 .nan) .f64) 2 = .ok (.string (b! "NaN")) ∧
    reread (b! "[1, 2]") 2 (.setNumber (floatFormat .f32 (.inf true)) .f32) 2 = .ok (.string (b! "-inf")) :=
  ⟨⟨by decide +kernel, by decide +kernel⟩, ⟨by decide +kernel, docOfText (b! "[1e-7]"), by decide +kernel, [2, 4], ⟨by decide, by decide⟩, 2, [4], rfl, ⟨by decide, rfl⟩,
    4, [], rfl, ⟨by decide, rfl⟩, rfl⟩, by decide +kernel, by decide +kernel, by decide +kernel⟩

/-- C81, for the document that is written and read again: just the numbers that are finite, and zero or (without the sign) not less than 1e-5 (`f64`) or 1e-6 (`f32`), have a text that is read
as a number. -/
theorem C81_number_iff (t : FloatTy) (v : FloatV) : isNumber (floatFormat t v) = true ↔ v.notTiny (match t with | .f32 => 6 | .f64 => 5) := by
  rw [isNumber_floatFormat]
  cases t <;> rfl

/-- C81: such a number is read back from the document that is written. -/
theorem C81_anywhere_partial {q : Mode} {doc doc' : Document} {x : Nat} {d' : Data} (h : Tidy q doc) (hx : Live doc x) (t : FloatTy) (v : FloatV)
    (hv : v.notTiny (match t with | .f32 => 6 | .f64 => 5)) (he : setFloat t doc.data x v = .ok d') (hd : doc' = { doc with data := d' }) (hn : NoHoles doc') :
    ∃ out doc2 p y s, doc'.write = .ok out ∧ fromSlice out = .ok doc2 ∧ Path doc'.data doc'.root p x ∧ Path doc2.data doc2.root p y ∧
      asAny doc2.data y = .ok (.number s) ∧ asFloat doc2.data y = .ok (some s) ∧ v.textIs s := by
  have he' : doc.edit x (.setNumber (floatFormat t v) t.hint) = .ok doc' := by
    show (do let d ← setFloat t doc.data x v; pure { doc with data := d }) = _
    rw [he, hd]; rfl
  obtain ⟨out, doc2, p, y, h1, h2, h3, h4, h5⟩ := h.set (op := .setNumber (floatFormat t v) t.hint) hx ((C81_number_iff t v).2 hv) rfl rfl he' hn
  have ht := floatFormat_text t v
  exact ⟨out, doc2, p, y, _, h1, h2, h3, h4, h5, asFloat_of_any h5 (textIs_isFloat ht), ht⟩

theorem SameValue.trans' {m : Nat} {j : Int} {n n' : Nat} {k k' : Int} (h : SameValue m j n k) (h' : SameValue m j n' k') : SameValue n k n' k' := by
  -- all three as multiples of the least power of ten
  unfold SameValue at *
  let l := min j (min k k')
  have e : ∀ (m : Nat) (j : Int) (n : Nat) (k : Int), l ≤ j → l ≤ k → (m * 10 ^ (j - min j k).toNat = n * 10 ^ (k - min j k).toNat ↔ m * 10 ^ (j - l).toNat = n * 10 ^ (k - l).toNat) := by
    intro m j n k h1 h2
    have e1 : (j - l).toNat = (j - min j k).toNat + (min j k - l).toNat := by omega
    have e2 : (k - l).toNat = (k - min j k).toNat + (min j k - l).toNat := by omega
    rw [e1, e2, Nat.pow_add, Nat.pow_add, ← Nat.mul_assoc, ← Nat.mul_assoc]
    exact (Nat.mul_left_inj (Nat.pos_iff_ne_zero.1 (Nat.pow_pos (by decide)))).symm
  have h1 := (e m j n k (by omega) (by omega)).1 h
  have h2 := (e m j n' k' (by omega) (by omega)).1 h'
  exact (e n k n' k' (by omega) (by omega)).2 (h1.symm.trans h2)

/-- A text stands for one number only. -/
theorem Denotes.unique {s : Bytes} {neg neg' : Bool} {n n' : Nat} {k k' : Int} (h : Denotes s neg n k) (h' : Denotes s neg' n' k') : neg = neg' ∧ SameValue n k n' k' := by
  obtain ⟨a, b, point, exp, m, e, h1, h2, h3, h4, h5⟩ := h
  obtain ⟨a', b', point', exp', m', e', g1, g2, g3, g4, g5⟩ := h'
  obtain ⟨x1, x2, x3⟩ := natOf_iff.1 h4
  obtain ⟨y1, y2, y3⟩ := natOf_iff.1 g4
  rw [List.all_append, Bool.and_eq_true] at x2 y2
  have hstart : ∀ {a b point exp : Bytes}, a ++ b ≠ [] → a.all isDigit = true → (point = [] ∧ b = [] ∨ point = b! "." ++ b) → (a ++ (point ++ exp)).head? ≠ some DASH := by
    intro a b point exp z1 z2 z3
    cases a with
    | cons c a =>
      simp only [List.all_cons, Bool.and_eq_true] at z2
      simp [(digit_ne z2.1).2.1]
    | nil =>
      rcases z3 with ⟨-, rfl⟩ | rfl
      · exact absurd rfl z1
      · simp [DASH]
  have s1 := hstart (exp := exp) x1 x2.1 h2
  have s2 := hstart (exp := exp') y1 y2.1 g2
  have hsign : neg = neg' ∧ a ++ (point ++ exp) = a' ++ (point' ++ exp') := by
    rw [h1] at g1
    cases neg <;> cases neg' <;> simp only [Bool.false_eq_true, if_false, if_true, List.nil_append] at g1
    · exact ⟨rfl, g1⟩
    · rw [g1] at s1; exact absurd rfl s1
    · rw [← g1] at s2; exact absurd rfl s2
    · exact ⟨rfl, List.append_cancel_left g1⟩
  refine ⟨hsign.1, ?_⟩
  have hexp : ∀ {exp : Bytes} {e : Int}, (exp = [] ∧ e = 0 ∨ ∃ x, exp = b! "e" ++ x ∧ decimal x = some e) → ∀ x ∈ exp.head?, isDigit x = false ∧ x ≠ 46 := by
    rintro exp e (⟨rfl, -⟩ | ⟨_, rfl, -⟩)
    · intro x hx; cases hx
    · intro x hx; cases hx; decide
  have hpoint : ∀ {b point exp : Bytes} {e : Int}, (point = [] ∧ b = [] ∨ point = b! "." ++ b) → (exp = [] ∧ e = 0 ∨ ∃ x, exp = b! "e" ++ x ∧ decimal x = some e) →
      ∀ x ∈ (point ++ exp).head?, isDigit x = false := by
    rintro b point exp e (⟨rfl, -⟩ | rfl) he
    · exact fun x hx => (hexp he x hx).1
    · intro x hx; cases hx; decide
  obtain ⟨a1, a2⟩ := takeWhile_glue x2.1 (hpoint h2 h3)
  obtain ⟨b1, b2⟩ := takeWhile_glue y2.1 (hpoint g2 g3)
  rw [hsign.2] at a1 a2
  obtain rfl : a = a' := a1.symm.trans b1
  have hr : point ++ exp = point' ++ exp' := a2.symm.trans b2
  have hb : b = b' ∧ exp = exp' := by
    have hno : ∀ {b exp exp' : Bytes} {e : Int}, (exp = [] ∧ e = 0 ∨ ∃ x, exp = b! "e" ++ x ∧ decimal x = some e) → exp ≠ b! "." ++ b ++ exp' := by
      rintro b exp exp' e he rfl
      exact (hexp he 46 rfl).2 rfl
    rcases h2 with ⟨rfl, rfl⟩ | rfl <;> rcases g2 with ⟨rfl, rfl⟩ | rfl
    · exact ⟨rfl, hr⟩
    · exact absurd hr (hno h3)
    · exact absurd hr.symm (hno g3)
    · have hr' : b ++ exp = b' ++ exp' := by simpa using hr
      obtain ⟨c1, c2⟩ := takeWhile_glue x2.2 (fun x hx => (hexp h3 x hx).1)
      obtain ⟨d1, d2⟩ := takeWhile_glue y2.2 (fun x hx => (hexp g3 x hx).1)
      rw [hr'] at c1 c2
      exact ⟨c1.symm.trans d1, c2.symm.trans d2⟩
  obtain ⟨rfl, rfl⟩ := hb
  obtain rfl : m = m' := Option.some.inj (h4.symm.trans g4)
  obtain rfl : e = e' := by
    rcases h3 with ⟨rfl, rfl⟩ | ⟨x, rfl, hx⟩ <;> rcases g3 with ⟨g, rfl⟩ | ⟨y, g, hy⟩
    · rfl
    · cases g
    · cases g
    · obtain rfl : x = y := List.append_cancel_left g
      exact Option.some.inj (hx.symm.trans hy)
  exact h5.trans' g5

/-! Examples. -/

/-- The texts for some numbers. -/
example : floatFormat .f64 (.fin false 1042 (-2)) = b! "10.42" ∧ floatFormat .f32 (.fin true 5 (-1)) = b! "-0.5" ∧ floatFormat .f64 (.fin false 1234 7) = b! "12340000000.0" ∧
    floatFormat .f64 (.fin false 1234 30) = b! "1.234e33" ∧ floatFormat .f64 (.fin false 1 (-5)) = b! "0.00001" ∧ floatFormat .f64 (.fin false 12 (-7)) = b! "1.2e-6" ∧
    floatFormat .f32 (.fin false 12 (-7)) = b! "0.0000012" ∧ floatFormat .f64 (.fin true 0 0) = b! "-0.0" := by decide +kernel

/-- Setting 10.42. -/
example : ∃ d', setFloat .f64 sample.data 4 (.fin false 1042 (-2)) = .ok d' ∧ asFloat d' 4 = .ok (some (b! "10.42")) ∧ Denotes (b! "10.42") false 1042 (-2) := by
  obtain ⟨d', s, h1, h2, h3, h4⟩ := C81_set sample_reachable sample_live_list .f64 (.fin false 1042 (-2))
  have hs : s = b! "10.42" := by
    have : (setFloat .f64 sample.data 4 (.fin false 1042 (-2))).bind (fun d => asAny d 4) = .ok (.number (b! "10.42")) := by decide +kernel
    rw [h1] at this
    exact AnyV.number.inj (Except.ok.inj (h2.symm.trans this))
  subst hs
  exact ⟨d', h1, h3, h4⟩

/-- The hypotheses of `C81_anywhere_partial`. -/
example : ∃ doc' d', setFloat .f64 edit4.data 4 (.fin false 1042 (-2)) = .ok d' ∧ doc' = { edit4 with data := d' } ∧ NoHoles doc' ∧
    (FloatV.fin false 1042 (-2)).notTiny 5 ∧ ¬ (FloatV.fin false 1 (-7)).notTiny 5 ∧ ¬ FloatV.nan.notTiny 5 :=
  ⟨_, (edit4.after 4 (.setNumber (b! "10.42") .f64)).data, by decide +kernel, rfl, noHoles_of (by decide), by simp [FloatV.notTiny], by simp [FloatV.notTiny], by simp [FloatV.notTiny]⟩

end Verif
