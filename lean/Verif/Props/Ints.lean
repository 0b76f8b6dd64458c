import Verif.GrammarDocs
import Verif.Props.Sets
import Verif.Props.Maps
import Verif.Props.Seqs
/-
Integers (C12, C13).
-/
namespace Verif

theorem digit_spec : ∀ k, k < 10 → isDigit (UInt8.ofNat (48 + k)) = true ∧ (UInt8.ofNat (48 + k)).toNat - 48 = k := by decide

theorem digitsVal_digitsF : ∀ {f n : Nat}, n < f → ∃ k, ∀ acc r, digitsVal acc (digitsF f n ++ r) = digitsVal (acc * 10 ^ k + n) r
  | 0, n, h => by omega
  | f + 1, n, h => by
    obtain ⟨h1, h2⟩ := digit_spec (n % 10) (by omega)
    by_cases hn : n < 10
    · refine ⟨1, fun acc r => ?_⟩
      rw [digitsF, if_pos hn, List.nil_append, List.singleton_append, digitsVal, if_pos h1, h2, Nat.pow_one, Nat.mod_eq_of_lt hn]
    · obtain ⟨k, hk⟩ := digitsVal_digitsF (f := f) (n := n / 10) (by omega)
      refine ⟨k + 1, fun acc r => ?_⟩
      rw [digitsF, if_neg hn, List.append_assoc, hk, List.singleton_append, digitsVal, if_pos h1, h2]
      congr 1
      rw [Nat.add_mul, Nat.mul_assoc, Nat.pow_succ]; omega

theorem digitsF_digits : ∀ {f n : Nat}, ∀ b ∈ digitsF f n, isDigit b = true
  | 0, n, b, h => by cases h
  | f + 1, n, b, h => by
    rw [digitsF, List.mem_append] at h
    rcases h with h | h
    · split at h
      · cases h
      · exact digitsF_digits b h
    · rw [List.mem_singleton] at h; subst h; exact (digit_spec (n % 10) (by omega)).1

theorem natText_ne (n : Nat) : natText n ≠ [] := by simp [natText, digitsF]

theorem natText_val (n : Nat) : digitsVal 0 (natText n) = some n := by
  obtain ⟨k, hk⟩ := digitsVal_digitsF (f := n + 1) (n := n) (by omega)
  have := hk 0 []
  rw [List.append_nil, Nat.zero_mul, Nat.zero_add] at this
  exact this

theorem natText_cons (n : Nat) : ∃ b r, natText n = b :: r ∧ isDigit b = true := by
  cases h : natText n with
  | nil => exact absurd h (natText_ne n)
  | cons b r => exact ⟨b, r, rfl, digitsF_digits b (by rw [← natText, h]; simp)⟩

theorem digit_ne {b : UInt8} (h : isDigit b = true) : b ≠ 43 ∧ b ≠ DASH ∧ b ≠ 46 := by
  refine ⟨?_, ?_, ?_⟩ <;> rintro rfl <;> revert h <;> decide

/-- Integers are read back from their text, where they fit. -/
theorem lexParse_intText (t : IntTy) (x : Int) : lexParse t (intText x) = if t.min ≤ x ∧ x ≤ t.max then some x else none := by
  have hif : (if t.has x = true then some x else none) = if t.min ≤ x ∧ x ≤ t.max then some x else none := by
    simp only [IntTy.has, Bool.and_eq_true, decide_eq_true_eq]
  rw [← hif]
  cases x with
  | ofNat n =>
    obtain ⟨b, r, h1, h2⟩ := natText_cons n
    obtain ⟨n1, n2, _⟩ := digit_ne h2
    have h3 := natText_val n
    rw [h1] at h3
    simp only [intText, h1, lexParse, beq_eq_false_iff_ne.2 n1, beq_eq_false_iff_ne.2 n2, Bool.false_and, Bool.false_eq_true, if_false, List.isEmpty_cons, h3,
      Int.ofNat_eq_natCast]
  | negSucc n =>
    have h3 := natText_val (n + 1)
    have he : (natText (n + 1)).isEmpty = false := by simpa using natText_ne (n + 1)
    cases hs : t.signed with
    | true =>
      simp only [intText, lexParse, show (DASH == 43) = false by decide, Bool.false_eq_true, if_false, beq_self_eq_true, hs, Bool.and_self, if_true, he, h3]
      rfl
    | false =>
      have hneg : t.has (Int.negSucc n) = false := by
        simp only [IntTy.has, IntTy.min, hs, Bool.false_eq_true, if_false]
        have : ¬ (0 : Int) ≤ Int.negSucc n := by omega
        simp [this]
      have hd : digitsVal 0 (DASH :: natText (n + 1)) = none := by rw [digitsVal, if_neg (by decide)]
      simp only [intText, lexParse, show (DASH == 43) = false by decide, Bool.false_eq_true, if_false, beq_self_eq_true, hs, Bool.and_false, List.isEmpty_cons,
        hd, hneg]

theorem asInt_of_any {t : IntTy} {d : Data} {id : Nat} {s : Bytes} (h : asAny d id = .ok (.number s)) : asInt t d id = .ok (lexParse t s) := by
  unfold asAny at h
  unfold asInt
  cases hr : d.raw id with
  | error e => rw [hr] at h; cases h
  | ok r => rw [hr] at h; cases r <;> simp_all [bind, Except.bind, pure, Except.pure]

/-! ### C12 -/

/-- The values of Rust's integer types. -/
def Fits (v : Int) : IntTy → Prop
  | .u8 => 0 ≤ v ∧ v ≤ 255
  | .u16 => 0 ≤ v ∧ v ≤ 65535
  | .u32 => 0 ≤ v ∧ v ≤ 4294967295
  | .u64 => 0 ≤ v ∧ v ≤ 18446744073709551615
  | .u128 => 0 ≤ v ∧ v ≤ 340282366920938463463374607431768211455
  | .i8 => -128 ≤ v ∧ v ≤ 127
  | .i16 => -32768 ≤ v ∧ v ≤ 32767
  | .i32 => -2147483648 ≤ v ∧ v ≤ 2147483647
  | .i64 => -9223372036854775808 ≤ v ∧ v ≤ 9223372036854775807
  | .i128 => -170141183460469231731687303715884105728 ≤ v ∧ v ≤ 170141183460469231731687303715884105727

instance (v : Int) (t : IntTy) : Decidable (Fits v t) := by cases t <;> (unfold Fits; infer_instance)

theorem fits_range (t : IntTy) (v : Int) : (t.min ≤ v ∧ v ≤ t.max) = Fits v t := by cases t <;> rfl

/-- C12, the ranges of the types (used by C12 and in the claims on serde). -/
theorem C12_ranges (t : IntTy) (v : Int) : t.has v = true ↔ Fits v t := by
  rw [← fits_range, IntTy.has, Bool.and_eq_true, decide_eq_true_eq, decide_eq_true_eq]

/-- C12: an integer that was set is read back by every integer accessor whose type it fits in, and by no other. -/
theorem C12_set {doc : Document} (h : Reachable doc) {x : Nat} (hx : Live doc x) (n m : IntTy) (v : Int) (_ : Fits v n) :
    ∃ d', setInt n doc.data x v = .ok d' ∧ asInt m d' x = .ok (if Fits v m then some v else none) := by
  obtain ⟨t, ht⟩ := h.holds
  obtain ⟨u, hu⟩ := (ht.live_iff x).1 hx
  obtain ⟨d', _, _, _, h1, _⟩ := ht.editTree hu (.setNumber (intText v) n.hint)
  refine ⟨d', h1, ?_⟩
  have he : doc.edit x (.setNumber (intText v) n.hint) = .ok { doc with data := d' } := by
    simp [Document.edit, h1, bind, Except.bind, pure, Except.pure]
  rw [asInt_of_any (C11_set_reads h hx rfl he).2.1, lexParse_intText]; simp only [fits_range]

/-- C12 for integers inserted into mappings. -/
theorem C12_insert {doc : Document} (h : Reachable doc) {x : Nat} (hx : Live doc x) {L : List (Bytes × Nat)} (hL : mapEntries doc.data x = .ok L)
    (key : Bytes) (n m : IntTy) (v : Int) (_ : Fits v n) :
    ∃ id d', mapInsertInt n doc.data x key v = .ok (id, d') ∧ mapGet d' x key = .ok (some id) ∧
      asInt m d' id = .ok (if Fits v m then some v else none) := by
  obtain ⟨id, d', h1, h2, h3, _⟩ := C14_insert h hx hL key (.number (intText v) n.hint)
  exact ⟨id, d', h1, h3, by rw [asInt_of_any h2, lexParse_intText]; simp only [fits_range]⟩

/-- C12 for integers pushed to sequences. -/
theorem C12_push {doc : Document} (h : Reachable doc) {x : Nat} (hx : Live doc x) {L : List Nat} (hL : seqValues doc.data x = .ok L)
    (n m : IntTy) (v : Int) (_ : Fits v n) :
    ∃ id d', seqPushInt n doc.data x v = .ok (id, d') ∧ seqValues d' x = .ok (L ++ [id]) ∧
      asInt m d' id = .ok (if Fits v m then some v else none) := by
  obtain ⟨id, d', h1, h2, _, h3, _⟩ := C19_push h hx hL (.number (intText v) n.hint)
  exact ⟨id, d', h1, h3, by rw [asInt_of_any h2, lexParse_intText]; simp only [fits_range]⟩

example : ∃ d', setInt .u8 sample.data 4 200 = .ok d' ∧ asInt .i8 d' 4 = .ok none ∧ asInt .i16 d' 4 = .ok (some 200) := by
  obtain ⟨d', h1, h2⟩ := C12_set sample_reachable sample_live_list .u8 .i8 200 (by decide)
  obtain ⟨d'', h3, h4⟩ := C12_set sample_reachable sample_live_list .u8 .i16 200 (by decide)
  rw [h1] at h3; cases h3
  exact ⟨d', h1, h2, h4⟩

example : IntTy.i64.min = -9223372036854775808 ∧ IntTy.u64.max = 18446744073709551615 := by decide

/-! ### C13 -/

theorem dropWhile_digits {s : Bytes} (h : ∀ b ∈ s, isDigit b = true) : s.dropWhile isDigit = [] ∧ s.takeWhile isDigit = s := by
  induction s with
  | nil => exact ⟨rfl, rfl⟩
  | cons b r ih =>
    have := ih fun c hc => h c (List.mem_cons_of_mem _ hc)
    simp [List.dropWhile, List.takeWhile, h b (by simp), this.1, this.2]

theorem isNumber_intText (x : Int) : isNumber (intText x) = true := by
  have key : ∀ n, (natText n).dropWhile isDigit = [] ∧ (natText n).takeWhile isDigit = natText n := fun n => dropWhile_digits digitsF_digits
  cases x with
  | ofNat n =>
    obtain ⟨b, r, h1, h2⟩ := natText_cons n
    have hne : ¬ (natText n).head? = some DASH := by rw [h1]; simpa using (digit_ne h2).2.1
    simp [isNumber, intText, hne, key, natText_ne]
  | negSucc n =>
    simp [isNumber, intText, key, natText_ne]

end Verif
