import Verif.Serde
/-
Which texts are those of floating point numbers: a specification (`IsFloat`), and that the model of `lexical_core` accepts just these.
-/
namespace Verif

/-- A sign, or none. -/
def signs : List Bytes := [[], b! "+", b! "-"]

/-- One or more digits. -/
def IsDigits (s : Bytes) : Prop := s ≠ [] ∧ ∀ c ∈ s, c ∈ b! "0123456789"

/-- The texts of floating point numbers: a sign or none; then `nan`, `inf` or `infinity` in any case; or digits, of which some may follow a point, and an exponent or
none. -/
def IsFloat (s : Bytes) : Prop :=
  ∃ sign t, s = sign ++ t ∧ sign ∈ signs ∧
    (t.map lower ∈ [b! "nan", b! "inf", b! "infinity"] ∨
      ∃ a b e, (t = a ++ e ∧ b = [] ∨ t = a ++ (b! "." ++ (b ++ e))) ∧ IsDigits (a ++ b) ∧
        (e = [] ∨ ∃ x sign n, e = x ++ (sign ++ n) ∧ x ∈ [b! "e", b! "E"] ∧ sign ∈ signs ∧ IsDigits n))

theorem digit_iff (c : UInt8) : isDigit c = true ↔ c ∈ b! "0123456789" := by
  have : ∀ i : Fin 256, isDigit (UInt8.ofNat i.val) = true ↔ UInt8.ofNat i.val ∈ b! "0123456789" := by decide +kernel
  have h := this ⟨c.toNat, c.toNat_lt⟩
  simpa using h

theorem unsign_split (s : Bytes) : ∃ sign ∈ signs, s = sign ++ unsign s := by
  unfold unsign
  split
  · next h =>
    cases s with
    | nil => exact absurd h (by decide)
    | cons b s =>
      simp only [List.headD_cons, Bool.or_eq_true, beq_iff_eq] at h
      refine ⟨[b], ?_, rfl⟩
      rcases h with rfl | rfl <;> decide
  · exact ⟨[], by decide, rfl⟩

theorem unsign_append {sign t : Bytes} (hs : sign ∈ signs) (h : ∀ b ∈ t.head?, b ≠ 43 ∧ b ≠ DASH) : unsign (sign ++ t) = t := by
  simp only [signs, List.mem_cons, List.not_mem_nil, or_false] at hs
  rcases hs with rfl | rfl | rfl
  · unfold unsign
    cases t with
    | nil => rfl
    | cons b t =>
      have := h b rfl
      simp [this]
  · rfl
  · rfl

theorem isDigit_not_sign {b : UInt8} (h : isDigit b = true) : b ≠ 43 ∧ b ≠ DASH ∧ b ≠ 46 ∧ b ≠ 101 ∧ b ≠ 69 := by
  refine ⟨?_, ?_, ?_, ?_, ?_⟩ <;> (rintro rfl; revert h; decide)

theorem takeWhile_glue {a r : Bytes} (ha : a.all isDigit = true) (hr : ∀ b ∈ r.head?, isDigit b = false) :
    (a ++ r).takeWhile isDigit = a ∧ (a ++ r).dropWhile isDigit = r := by
  induction a with
  | nil =>
    cases r with
    | nil => exact ⟨rfl, rfl⟩
    | cons b r => simp [hr b rfl]
  | cons x a ih =>
    simp only [List.all_cons, Bool.and_eq_true] at ha
    have := ih ha.2
    simp [ha.1, this]

theorem lower_head {t : Bytes} (h : t.map lower ∈ [b! "nan", b! "inf", b! "infinity"]) : ∀ b ∈ t.head?, b ≠ 43 ∧ b ≠ DASH := by
  cases t with
  | nil => intro b hb; cases hb
  | cons x t =>
    intro b hb
    cases hb
    simp only [List.map_cons, List.mem_cons, List.not_mem_nil, or_false, List.cons.injEq] at h
    constructor <;> (rintro rfl; rcases h with ⟨h, _⟩ | ⟨h, _⟩ | ⟨h, _⟩ <;> revert h <;> decide)

theorem eqIgnoreCase_names (t : Bytes) : (eqIgnoreCase t (b! "nan") || eqIgnoreCase t (b! "inf") || eqIgnoreCase t (b! "infinity")) = true ↔
    t.map lower ∈ [b! "nan", b! "inf", b! "infinity"] := by
  have e1 : (b! "nan").map lower = b! "nan" := by decide
  have e2 : (b! "inf").map lower = b! "inf" := by decide
  have e3 : (b! "infinity").map lower = b! "infinity" := by decide
  simp only [eqIgnoreCase, Bool.or_eq_true, beq_iff_eq, e1, e2, e3, List.mem_cons, List.not_mem_nil, or_false, or_assoc]

/-- The exponent. -/
theorem exp_iff (r : Bytes) : (r.isEmpty || ((r.headD 0 == 101 || r.headD 0 == 69) && !(unsign r.tail).isEmpty && (unsign r.tail).all isDigit)) = true ↔
    (r = [] ∨ ∃ x sign n, r = x ++ (sign ++ n) ∧ x ∈ [b! "e", b! "E"] ∧ sign ∈ signs ∧ IsDigits n) := by
  cases r with
  | nil => simp
  | cons b r =>
    simp only [List.isEmpty_cons, Bool.false_or, List.headD_cons, List.tail_cons, Bool.and_eq_true, Bool.or_eq_true, beq_iff_eq, Bool.not_eq_true',
      List.isEmpty_eq_false_iff, List.all_eq_true, digit_iff, reduceCtorEq, false_or]
    constructor
    · rintro ⟨⟨h1, h2⟩, h3⟩
      obtain ⟨sign, hs, e⟩ := unsign_split r
      refine ⟨[b], sign, unsign r, by rw [← e]; rfl, ?_, hs, h2, h3⟩
      rcases h1 with rfl | rfl <;> decide
    · rintro ⟨x, sign, n, e, hx, hs, hn1, hn2⟩
      have hh : ∀ b ∈ n.head?, b ≠ 43 ∧ b ≠ DASH := by
        intro b hb
        have := isDigit_not_sign ((digit_iff b).2 (hn2 b (List.mem_of_mem_head? hb)))
        exact ⟨this.1, this.2.1⟩
      simp only [List.mem_cons, List.not_mem_nil, or_false] at hx
      rcases hx with rfl | rfl
      all_goals
        injection e with e1 e2
        subst e1 e2
        simp only [List.append_eq]
        show (_ ∧ unsign (sign ++ n) ≠ []) ∧ ∀ x ∈ unsign (sign ++ n), _
        rw [unsign_append hs hh]
        exact ⟨⟨by decide, hn1⟩, hn2⟩

theorem exp_head {e : Bytes} (h : e = [] ∨ ∃ x sign n, e = x ++ (sign ++ n) ∧ x ∈ [b! "e", b! "E"] ∧ sign ∈ signs ∧ IsDigits n) :
    ∀ b ∈ e.head?, isDigit b = false ∧ b ≠ 46 ∧ b ≠ 43 ∧ b ≠ DASH := by
  rcases h with rfl | ⟨x, sign, n, rfl, hx, _⟩
  · intro b hb; cases hb
  · simp only [List.mem_cons, List.not_mem_nil, or_false] at hx
    rcases hx with rfl | rfl <;> (intro b hb; cases hb; decide)

theorem floatText_iff (s : Bytes) : floatText s = true ↔ IsFloat s := by
  unfold floatText
  simp only []
  constructor
  · intro h
    obtain ⟨sign, hs, e⟩ := unsign_split s
    refine ⟨sign, unsign s, e, hs, ?_⟩
    generalize unsign s = t at h
    split at h
    · next hc => exact .inl ((eqIgnoreCase_names t).1 hc)
    · right
      rw [Bool.and_eq_true, exp_iff] at h
      obtain ⟨h1, h2⟩ := h
      have ha : ∀ c ∈ t.takeWhile isDigit, c ∈ b! "0123456789" := fun c hc => (digit_iff c).1 (List.all_eq_true.1 List.all_takeWhile c hc)
      have et : t = t.takeWhile isDigit ++ t.dropWhile isDigit := List.takeWhile_append_dropWhile.symm
      generalize t.takeWhile isDigit = a at *
      generalize t.dropWhile isDigit = r at *
      by_cases hd : (r.headD 0 == 46) = true
      · rw [if_pos hd] at h1 h2
        obtain ⟨r', rfl⟩ : ∃ r', r = 46 :: r' := by
          cases r with
          | nil => exact absurd hd (by decide)
          | cons x r => exact ⟨r, by simp at hd; rw [hd]⟩
        simp only [List.tail_cons] at h1 h2
        have hb : ∀ c ∈ r'.takeWhile isDigit, c ∈ b! "0123456789" := fun c hc => (digit_iff c).1 (List.all_eq_true.1 List.all_takeWhile c hc)
        refine ⟨a, r'.takeWhile isDigit, r'.dropWhile isDigit, .inr ?_, ⟨?_, ?_⟩, h2⟩
        · rw [List.takeWhile_append_dropWhile]; exact et
        · intro hn
          rw [List.append_eq_nil_iff] at hn
          rw [hn.1, hn.2] at h1
          cases h1
        · intro c hc
          rcases List.mem_append.1 hc with hc | hc
          · exact ha c hc
          · exact hb c hc
      · rw [if_neg hd] at h1 h2
        refine ⟨a, [], r, .inl ⟨et, rfl⟩, ⟨?_, ?_⟩, h2⟩
        · rintro hn
          rw [List.append_nil] at hn
          rw [hn] at h1
          cases h1
        · rw [List.append_nil]; exact ha
  · rintro ⟨sign, t, rfl, hs, h⟩
    rcases h with h | ⟨a, b, e, ht, ⟨hab, hd⟩, he⟩
    · rw [unsign_append hs (lower_head h), if_pos ((eqIgnoreCase_names t).2 h)]
    · have hda : a.all isDigit = true := List.all_eq_true.2 fun c hc => (digit_iff c).2 (hd c (List.mem_append_left _ hc))
      have hdb : b.all isDigit = true := List.all_eq_true.2 fun c hc => (digit_iff c).2 (hd c (List.mem_append_right _ hc))
      have heh := exp_head he
      have hth : ∀ x ∈ t.head?, x ≠ 43 ∧ x ≠ DASH := by
        intro x hx
        cases a with
        | cons y a =>
          have : x = y := by rcases ht with ⟨rfl, _⟩ | rfl <;> (cases hx; rfl)
          subst this
          simp only [List.all_cons, Bool.and_eq_true] at hda
          have := isDigit_not_sign hda.1
          exact ⟨this.1, this.2.1⟩
        | nil =>
          rcases ht with ⟨rfl, rfl⟩ | rfl
          · exact absurd rfl hab
          · cases hx; decide
      rw [unsign_append hs hth]
      split
      · rfl
      · have hq : (!(a.isEmpty && b.isEmpty)) = true := by
          cases a with
          | cons => rfl
          | nil =>
            cases b with
            | nil => exact absurd rfl hab
            | cons => rfl
        rcases ht with ⟨rfl, rfl⟩ | rfl
        · obtain ⟨h1, h2⟩ := takeWhile_glue hda (fun x hx => (heh x hx).1)
          have hdot : ¬ (e.headD 0 == 46) = true := by
            cases e with
            | nil => decide
            | cons x e =>
              have := (heh x rfl).2.1
              simpa using this
          rw [h1, h2, if_neg hdot, if_neg hdot, hq, (exp_iff e).2 he]
          rfl
        · obtain ⟨h1, h2⟩ := takeWhile_glue (r := b! "." ++ (b ++ e)) hda (by intro x hx; cases hx; decide)
          obtain ⟨h3, h4⟩ := takeWhile_glue hdb (fun x hx => (heh x hx).1)
          have hdot : ((b! "." ++ (b ++ e)).headD 0 == 46) = true := rfl
          have htl : (b! "." ++ (b ++ e)).tail = b ++ e := rfl
          rw [h1, h2, if_pos hdot, if_pos hdot, htl, h3, h4, hq, (exp_iff e).2 he]
          rfl

instance (s : Bytes) : Decidable (IsFloat s) := decidable_of_iff _ (floatText_iff s)

end Verif
