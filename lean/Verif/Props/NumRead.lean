import Verif.Props.Serde
import Verif.Props.Ints
/-
The numeric accessors on any value (C78).
-/
namespace Verif

/-- C78: an integer accessor gives `v` for a value if and only if the value is a number that is written as an optional sign and digits, which stand for `v`, and `v` is a value of the
type.  There may be no `-` if the type is unsigned, not even before a zero. -/
theorem C78_int {doc : Document} (h : Reachable doc) {x : Nat} (hx : Live doc x) (t : IntTy) (v : Int) :
    asInt t doc.data x = .ok (some v) ↔ ∃ s, asAny doc.data x = .ok (.number s) ∧ decimal s = some v ∧ Fits v t ∧ (Fits (-1) t ∨ s.head? ≠ some DASH) := by
  have hsig : t.signed = true ↔ Fits (-1) t := by cases t <;> decide
  constructor
  · intro hi
    obtain ⟨a, h1, -⟩ := C31_one_kind h hx
    simp only [asInt, bind, Except.bind, pure, Except.pure] at hi
    simp only [asAny, bind, Except.bind, pure, Except.pure] at h1 ⊢
    cases hr : doc.data.raw x with
    | error => rw [hr] at hi; cases hi
    | ok r =>
      rw [hr] at hi
      cases r with
      | number s hint =>
        have hi : lexParse t s = some v := by simpa using hi
        obtain ⟨k1, k2⟩ := lexParse_decimal hi
        refine ⟨s, by simp, k1, (C12_ranges t v).1 k2, ?_⟩
        cases hs : t.signed with
        | true => exact .inl (hsig.1 hs)
        | false =>
          refine .inr fun hd => ?_
          cases s with
          | nil => cases hd
          | cons b r =>
            cases hd
            have : digitsVal 0 (DASH :: r) = none := by rw [digitsVal, if_neg (by decide)]
            simp only [lexParse, hs, show (DASH == 43) = false by decide, Bool.and_false, Bool.false_eq_true, if_false, List.isEmpty_cons, this] at hi
            cases hi
      | _ => simp at hi
  · rintro ⟨s, h1, h2, h3, h4⟩
    rw [asInt_of_any h1, lexParse_of_decimal h2 ((C12_ranges t v).2 h3)]
    rcases h4 with h4 | h4
    · exact .inl (hsig.2 h4)
    · refine .inr ?_
      cases s with
      | nil => decide
      | cons b r => simpa [hd] using h4

/-- C78: the integer accessors always return; so they give nothing in all other cases. -/
theorem C78_total {doc : Document} (h : Reachable doc) {x : Nat} (hx : Live doc x) (t : IntTy) : ∃ r, asInt t doc.data x = .ok r := by
  obtain ⟨a, h1, -⟩ := C31_one_kind h hx
  simp only [asAny, asInt, bind, Except.bind, pure, Except.pure] at h1 ⊢
  cases hr : doc.data.raw x with
  | error => rw [hr] at h1; cases h1
  | ok r => cases r <;> exact ⟨_, rfl⟩

/-- C78: a floating point accessor gives the number that is written, if the value is a number and what is written is a floating point number, and nothing otherwise. -/
theorem C78_float {doc : Document} (h : Reachable doc) {x : Nat} (hx : Live doc x) :
    (∃ s, asAny doc.data x = .ok (.number s) ∧ IsFloat s ∧ asFloat doc.data x = .ok (some s)) ∨
      asFloat doc.data x = .ok none ∧ ∀ s, asAny doc.data x = .ok (.number s) → ¬ IsFloat s := by
  obtain ⟨a, h1, -⟩ := C31_one_kind h hx
  simp only [asAny, asFloat, bind, Except.bind, pure, Except.pure] at h1 ⊢
  cases hr : doc.data.raw x with
  | error => rw [hr] at h1; cases h1
  | ok r =>
    cases r with
    | number s hint =>
      cases hf : floatText s with
      | true => exact .inl ⟨s, rfl, (floatText_iff s).1 hf, by simp [hf]⟩
      | false =>
        refine .inr ⟨by simp [hf], fun s' hs => ?_⟩
        cases hs
        rw [← floatText_iff, hf]
        decide
    | _ => exact .inr ⟨rfl, fun s hs => by simp at hs⟩

/-- Numbers that are not written the way `set_*` writes them. -/
example : asInt .u8 (docOfText (b! "0255")).data 0 = .ok (some 255) ∧ asInt .u8 (docOfText (b! "256")).data 0 = .ok none ∧ asInt .u8 (docOfText (b! "-0")).data 0 = .ok none ∧
    asInt .i8 (docOfText (b! "-0")).data 0 = .ok (some 0) ∧ asInt .u8 (docOfText (b! "1e2")).data 0 = .ok none ∧ asInt .u8 (docOfText (b! "'1'")).data 0 = .ok none := by decide

example : asInt .i8 (docOfText (b! "-0128")).data 0 = .ok (some (-128)) :=
  (C78_int (doc := docOfText (b! "-0128")) (.parsed (inp := b! "-0128") ⟨20, by decide⟩) (x := 0) .self .i8 (-128)).2 ⟨b! "-0128", by decide, by decide, by decide, .inl (by decide)⟩
example : asFloat (docOfText (b! "-0128")).data 0 = .ok (some (b! "-0128")) := by
  rcases C78_float (doc := docOfText (b! "-0128")) (.parsed (inp := b! "-0128") ⟨20, by decide⟩) (x := 0) .self with ⟨s, h1, -, h3⟩ | ⟨h, -⟩
  · cases h1; exact h3
  · exact absurd h (by decide)

end Verif
