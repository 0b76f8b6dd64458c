import Verif.Props.Where
import Verif.Props.Exact
import Verif.AgainBlock
/-
Setting a value of a document that was read, and reading what is written.
-/
namespace Verif

/-- `b` is after white space, an opening bracket, a comma or a colon. -/
def Apart (inp : Bytes) (b : Nat) : Prop := 0 < b ∧ (isWs (inp.getD (b - 1) 0) = true ∨ inp.getD (b - 1) 0 ∈ [LBR, LCB, COMMA, COLON])

section
variable {α : Type} {inp : Bytes} {V : View α}

theorem BlockRows.ends {fo : Bool} {c p : Nat} {v : Bytes} {hi n : Nat} (h : BlockRows inp fo c p v hi n) : hi = inp.length ∨ inp[hi]? = some NL := by
  induction h with
  | last _ h _ _ _ => exact h.2.2
  | final _ h _ _ _ => exact h.2.2
  | more _ _ _ _ _ _ ih => exact ih

/-- After a block scalar there is white space, a comment or nothing. -/
theorem BlockAt.ends {lo : Nat} {v : Bytes} {hi : Nat} (h : BlockAt inp lo v hi) (hw : isWs (inp.getD hi 0) = false) (hh : inp.getD hi 0 ≠ HASH) : hi = inp.length := by
  have hnl : inp[hi]? = some NL → False := fun h => by
    rw [List.getD_eq_getElem?_getD, h] at hw
    exact absurd hw (by decide)
  obtain ⟨fo, ch, h, n, w, h1, h2, h3, h4, h5, rfl⟩ := h
  cases h5 with
  | below _ _ h => exact h.ends.resolve_right hnl
  | nothing h => exact (FullGap.unique ⟨Gap.refl h.le.1, hw, hh⟩ h)
  | beside _ _ h _ _ => exact h.2.2.resolve_right hnl
  | both _ _ _ _ _ h => exact h.ends.resolve_right hnl

theorem slice_headD {lo hi : Nat} (h : lo < hi) : (slice inp lo hi).headD 0 = inp.getD lo 0 := by
  rw [slice, List.headD_eq_head?_getD, List.head?_take, if_neg (by omega), List.head?_drop, List.getD_eq_getElem?_getD]

/-- How the values in an inline collection start. -/
theorem Sits.flowStart {v : α} {lo hi : Nat} (h : Sits inp V .flow v lo hi) (hlt : lo < hi) : isCtl (inp.getD lo 0) = false := by
  cases h with
  | scalar _ _ _ h =>
    rw [← slice_headD hlt]
    have hne : slice inp lo hi ≠ [] := fun hn => by
      have := congrArg List.length hn
      rw [slice_length (by assumption)] at this
      simp at this
      omega
    generalize slice inp lo hi = s at *
    cases s with
    | nil => exact absurd rfl hne
    | cons b s =>
      by_cases hb : b = 0
      · exfalso
        subst hb
        cases h with
        | number h _ => exact (numChar_ws (isNumber_chars h 0 (List.mem_cons_self ..))).2 rfl
        | plain _ h =>
          unfold plainText at h
          simp only [Spot.inline, if_true, Bool.and_eq_true, Bool.not_eq_true', List.any_cons, Bool.or_eq_false_iff] at h
          exact absurd h.2.1.1 (by decide)
        | quoted h _ _ =>
          have := inQuotes_hd h
          rcases this with h | h <;> cases h
      · exact (h.starts hb).2.2.2.2 rfl
  | lines _ h =>
    have := h.atBlock
    unfold atBlock at this
    simp only [Bool.or_eq_true, beq_iff_eq] at this
    rcases this with h | h <;> rw [h] <;> decide
  | «open» _ _ _ h =>
    have : inp.getD lo 0 = DQ := by rw [List.getD_eq_getElem?_getD, ← List.head?_drop, h]; rfl
    rw [this]; decide
  | dashes _ h _ => exact absurd rfl h
  | keys _ h _ => exact absurd rfl h.1
  | brackets _ h _ _ => rw [List.getD_eq_getElem?_getD, h]; decide
  | braces _ h _ _ => rw [List.getD_eq_getElem?_getD, h]; decide

/-- Two values in an inline collection that are not directly after each other. -/
theorem Sits.notNext {v : α} {lo b : Nat} (h : Sits inp V .flow v lo b) (ha : Apart inp b) (hlt : b < inp.length) (hw : isWs (inp.getD b 0) = false) (hh : inp.getD b 0 ≠ HASH)
    (hc : isCtl (inp.getD b 0) = false) : False := by
  obtain ⟨hb, ha⟩ := ha
  have hlast : ∀ {s : Bytes} {c : UInt8}, slice inp lo b = s → s.getLast? = some c → inp.getD (b - 1) 0 = c := by
    intro s c hs hc
    subst hs
    rcases Nat.lt_or_ge lo b with h | h
    · rw [Swap.slice_last h (by omega)] at hc
      rw [List.getD_eq_getElem?_getD, hc]; rfl
    · rw [slice_none h] at hc; cases hc
  cases h with
  | scalar _ _ _ h =>
    generalize hs : slice inp lo b = s at h
    cases h with
    | number h _ =>
      rcases List.eq_nil_or_concat s with rfl | ⟨s, c, rfl⟩
      · exact absurd h (by decide)
      · have h1 := isNumber_chars h c (by simp)
        rw [hlast (c := c) hs (by simp)] at ha
        rw [number_ws h1] at ha
        have h2 := (numChar_ne h1).2.2
        simp only [List.mem_cons, List.not_mem_nil, or_false] at ha
        rcases ha with ha | rfl | rfl | rfl | rfl
        · cases ha
        · exact absurd h1 (by decide)
        · exact absurd h1 (by decide)
        · exact absurd h1 (by decide)
        · exact absurd h1 (by decide)
    | plain _ h =>
      unfold plainText at h
      simp only [Spot.inline, if_true, Bool.and_eq_true] at h
      have h := h.2.2
      rw [List.headD_eq_head?_getD, List.head?_drop, ← List.getD_eq_getElem?_getD, hc] at h
      cases h
    | quoted h _ _ =>
      rcases h.ends.2 with h | h | h <;> rw [hlast hs h] at ha <;> exact absurd ha (by decide)
  | lines _ h => have := h.ends hw hh; omega
  | «open» _ _ _ h => omega
  | dashes _ h _ => exact absurd rfl h
  | keys _ h _ => exact absurd rfl h.1
  | brackets _ _ _ h =>
    have := h.closes
    rw [Nat.add_sub_cancel, List.getD_eq_getElem?_getD, this] at ha
    exact absurd ha (by decide)
  | braces _ _ _ h =>
    have := h.closes
    rw [Nat.add_sub_cancel, List.getD_eq_getElem?_getD, this] at ha
    exact absurd ha (by decide)

end

/-- The text `new`, which is to be read as `a`, fits in the place from `b` to `d` (`flow`: in an inline collection).  `E` is the end of the outermost inline collection around the
place, or `d`. -/
structure FitsIn (inp : Bytes) (flow : Bool) (b d E : Nat) (new : Bytes) (a : AnyV) : Prop where
  /-- With what follows, it is read as `a`. -/
  token : Token flow (inp.drop d) new a
  nul : new.headD 0 ≠ 0
  /-- The place, and the inline collections it is in, are followed by the end of the line. -/
  line : ∀ g, FullGap inp E g → NL ∈ slice inp d g ∨ g = inp.length
  /-- The place is apart from what is before it, and no block scalar is replaced in an inline collection. -/
  apart : flow = true → Apart inp b ∧ atBlock inp b = false
  /-- What is a key after a missing value is a key still. -/
  keys : ∀ c k lo q, inp[c]? = some COLON → FullGap inp (c + 1) lo → lo < b → FirstKey inp k lo q → ∃ k' q', FirstKey (inp.take b ++ new ++ inp.drop d) k' lo q'

theorem cut3 {inp : Bytes} {b d : Nat} (hbd : b ≤ d) : inp.take b ++ slice inp b d ++ inp.drop d = inp := by
  have h1 : inp.take b = slice inp 0 b := by simp [slice]
  rw [h1, slice_append (Nat.zero_le _) hbd, slice, Nat.sub_zero, List.drop_zero, List.take_append_drop]

/-- The conditions for another scalar in the place of a value. -/
theorem FitsIn.hole {inp : Bytes} {flow : Bool} {b d E : Nat} {new : Bytes} {a : AnyV} (h : FitsIn inp flow b d E new a) (hbd : b < d) (hd : d ≤ inp.length) (hw : isWs (inp.getD b 0) = false)
    (hh : inp.getD b 0 ≠ HASH) (h0 : inp.getD b 0 ≠ 0) (hc : flow = true → isCtl (inp.getD b 0) = false) :
    Hole (inp.take b) (slice inp b d) new (inp.drop d) E flow := by
  have hcut := cut3 (inp := inp) (Nat.le_of_lt hbd)
  have hlb : (inp.take b).length = b := by rw [List.length_take]; omega
  have hld : (inp.take b ++ slice inp b d).length = d := by rw [List.length_append, slice_length hd, hlb]; omega
  have hsl : (slice inp b d ++ inp.drop d).headD 0 = inp.getD b 0 := by
    rw [← slice_headD hbd]
    cases hs : slice inp b d with
    | nil =>
      have := congrArg List.length hs
      rw [slice_length hd] at this
      simp at this
      omega
    | cons c s => rfl
  have hnew : (new ++ inp.drop d).headD 0 = new.headD 0 := by
    have := h.nul
    cases new with
    | nil => exact absurd rfl this
    | cons c s => rfl
  have hst := h.token.starts h.nul
  refine ⟨⟨⟨?_, ?_, ?_⟩, ⟨?_, ?_, ?_⟩, ?_⟩, h.nul, fun hf => ⟨hst.2.2.1, hst.2.2.2.1, hst.2.2.2.2 hf⟩, ?_, ?_, ?_⟩
  · rw [hsl]; exact hw
  · rw [hsl]; exact hh
  · rw [hsl]; exact h0
  · rw [hnew]; exact hst.1
  · rw [hnew]; exact hst.2.1
  · rw [hnew]; exact h.nul
  · rw [← List.append_assoc, hcut, hlb, ← List.append_assoc]
    exact h.keys
  · rw [hcut, hld]
    exact h.line
  · intro hf
    rw [hcut, hlb]
    exact (h.apart hf).2
  · intro hf α V v lo hi hs
    rw [hcut] at hs
    rw [hlb]
    rintro rfl
    exact hs.notNext (h.apart hf).1 (by omega) hw hh (hc hf)

mutual
theorem Tree.content_erase : ∀ t : Tree Nat, t.erase.content = t.content
  | .leaf _ _ _ => rfl
  | .node _ _ true _ _ items => by simp only [Tree.erase, Tree.content, Items.entriesC_erase items]
  | .node _ _ false _ _ items => by simp only [Tree.erase, Tree.content, Items.elemsC_erase items]
theorem Items.entriesC_erase : ∀ is : Items Nat, is.erase.entriesC = is.entriesC
  | .nil => rfl
  | .cons _ _ _ v rest => by simp only [Items.erase, Items.entriesC, Tree.content_erase v, Items.entriesC_erase rest]
theorem Items.elemsC_erase : ∀ is : Items Nat, is.erase.elemsC = is.elemsC
  | .nil => rfl
  | .cons _ _ _ v rest => by simp only [Items.erase, Items.elemsC, Tree.content_erase v, Items.elemsC_erase rest]
end

end Verif
