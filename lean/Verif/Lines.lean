import Verif.LaidEdits
import Verif.Props.Nest
/-
Texts of plain lines: helper lemmas for C90.
-/
namespace Verif

/-- A byte of a plain line: not NUL, no quotes, no opening brackets, no marks of block scalars.  Either all bytes are ASCII (`ascii`), or there are no comments. -/
def lineByte (ascii : Bool) (b : UInt8) : Bool :=
  b != 0 && b != DQ && b != SQ && b != LBR && b != LCB && b != PIPE && b != GT && (if ascii then b < 0x80 else b != HASH)

/-- There is no white space at the end of a line. -/
def noTrail : Bytes → Bool
  | [] => true
  | a :: r => !(isOtherWs a && r.head? == some NL) && noTrail r

/-- Plain lines: see `lineByte` and `noTrail`.  The last line ends with a line break. -/
structure Lines (ascii : Bool) (inp : Bytes) : Prop where
  bytes : ∀ b ∈ inp, lineByte ascii b = true
  trail : noTrail inp = true
  last : inp.getLast? = some NL

theorem noTrail_append : ∀ {x y : Bytes}, noTrail x = true → noTrail y = true → (y.head? = some NL → ∀ a, x.getLast? = some a → isOtherWs a = false) → noTrail (x ++ y) = true
  | [], _, _, hy, _ => hy
  | [a], y, _, hy, hj => by
    rw [List.singleton_append, noTrail, hy]
    cases hn : (y.head? == some NL) with
    | false => simp
    | true => rw [hj (by simpa using hn) a rfl]; rfl
  | a :: b :: r, y, hx, hy, hj => by
    rw [noTrail, Bool.and_eq_true] at hx
    rw [List.cons_append, noTrail, noTrail_append hx.2 hy (fun h c hc => hj h c (by rw [List.getLast?_cons_cons]; exact hc))]
    rw [Bool.and_true]
    exact hx.1

theorem noTrail_right : ∀ {x y : Bytes}, noTrail (x ++ y) = true → noTrail y = true
  | [], _, h => h
  | a :: r, y, h => by
    rw [List.cons_append, noTrail, Bool.and_eq_true] at h
    exact noTrail_right h.2

theorem noTrail_left : ∀ {x y : Bytes}, noTrail (x ++ y) = true → noTrail x = true
  | [], _, _ => rfl
  | [a], _, _ => by simp [noTrail]
  | a :: b :: r, y, h => by
    rw [List.cons_append, noTrail, Bool.and_eq_true] at h
    rw [noTrail, noTrail_left (x := b :: r) h.2, Bool.and_true]
    exact h.1

theorem noTrail_mid : ∀ {x y : Bytes}, noTrail (x ++ y) = true → y.head? = some NL → ∀ a, x.getLast? = some a → isOtherWs a = false
  | [], _, _, _, _, h => by cases h
  | [a], y, h, hy, b, hb => by
    obtain rfl : a = b := by simpa using hb
    rw [List.singleton_append, noTrail, hy] at h
    rw [Bool.and_eq_true] at h
    have h1 := h.1
    cases hw : isOtherWs a with
    | false => rfl
    | true => rw [hw] at h1; exact absurd h1 (by decide)
  | a :: b :: r, y, h, hy, c, hc => by
    rw [List.cons_append, noTrail, Bool.and_eq_true] at h
    exact noTrail_mid (x := b :: r) h.2 hy c (by rw [List.getLast?_cons_cons] at hc; exact hc)

theorem lineEnds_nl : ∀ {r : Bytes}, noTrail r = true → r.getLast? = some NL → lineEnds r = true → r.head? = some NL
  | [], _, h, _ => by cases h
  | b :: r, h, hl, he => by
    rw [noTrail, Bool.and_eq_true] at h
    by_cases hb : isOtherWs b = true
    · exfalso
      cases r with
      | nil =>
        obtain rfl : b = NL := by simpa using hl
        exact absurd hb (by decide)
      | cons c r =>
        have := lineEnds_nl h.2 (by rw [List.getLast?_cons_cons] at hl; exact hl) (by
          unfold lineEnds at he ⊢
          rw [List.dropWhile_cons, if_pos hb] at he
          exact he)
        have h1 := h.1
        rw [this, hb] at h1
        simp at h1
    · unfold lineEnds at he
      rw [List.dropWhile_cons, if_neg hb] at he
      simpa using he

theorem getLast?_right {x y : Bytes} (h : y ≠ []) : (x ++ y).getLast? = y.getLast? := by
  rw [List.getLast?_append]
  cases hy : y.getLast? with
  | none => exact absurd (List.getLast?_eq_none_iff.mp hy) h
  | some b => rfl

namespace Lines

variable {ascii : Bool} {inp : Bytes} (H : Lines ascii inp)
include H

theorem not {b : UInt8} (h : lineByte ascii b = false) : b ∉ inp := fun hm => by rw [H.bytes b hm] at h; cases h

theorem nul : (0 : UInt8) ∉ inp := H.not (by cases ascii <;> decide)
theorem dq : DQ ∉ inp := H.not (by cases ascii <;> decide)
theorem sq : SQ ∉ inp := H.not (by cases ascii <;> decide)
theorem lbr : LBR ∉ inp := H.not (by cases ascii <;> decide)
theorem lcb : LCB ∉ inp := H.not (by cases ascii <;> decide)
theorem pipe : PIPE ∉ inp := H.not (by cases ascii <;> decide)
theorem gt : GT ∉ inp := H.not (by cases ascii <;> decide)

theorem utf8 : validUtf8 inp = true ∨ HASH ∉ inp := by
  cases ascii with
  | false => exact .inr (H.not (by decide))
  | true =>
    refine .inl (valid_of_ascii fun c hc => ?_)
    have := H.bytes c hc
    simp only [lineByte, Bool.and_eq_true, if_true, decide_eq_true_eq] at this
    exact this.2

theorem followed : Verif.followed inp = true := by
  have key : ∀ s : Bytes, PIPE ∉ s → GT ∉ s → Verif.followed s = true := by
    intro s h1 h2
    induction s with
    | nil => rfl
    | cons b s ih =>
      rw [Verif.followed, ih (fun h => h1 (List.mem_cons_of_mem _ h)) (fun h => h2 (List.mem_cons_of_mem _ h))]
      have a1 : b ≠ PIPE := fun h => h1 (by rw [h]; exact List.mem_cons_self ..)
      have a2 : b ≠ GT := fun h => h2 (by rw [h]; exact List.mem_cons_self ..)
      simp [a1, a2]
  exact key inp H.pipe H.gt

/-- A text on one line, with nothing but white space after it on the line. -/
theorem ends {lo hi : Nat} (h1 : lo < hi) (h2 : hi ≤ inp.length) (h3 : NL ∉ slice inp lo hi) (h4 : lineEnds (inp.drop hi) = true) : inp[hi]? = some NL := by
  have hs := H.trail
  rw [← List.take_append_drop hi inp] at hs
  rcases Nat.lt_or_ge hi inp.length with h | h
  · have hne : inp.drop hi ≠ [] := fun h0 => by
      have := congrArg List.length h0
      rw [List.length_drop] at this
      simp at this
      omega
    have := lineEnds_nl (noTrail_right hs) (by
      have hl := H.last
      rw [← List.take_append_drop hi inp, getLast?_right hne] at hl
      exact hl) h4
    rw [List.head?_drop] at this
    exact this
  · exfalso
    obtain rfl : hi = inp.length := by omega
    refine h3 ?_
    have hl := H.last
    rw [slice_drop]
    have hne : inp.drop lo ≠ [] := fun h0 => by
      have := congrArg List.length h0
      rw [List.length_drop] at this
      simp at this
      omega
    rw [← List.take_append_drop lo inp, getLast?_right hne] at hl
    exact List.mem_of_getLast? hl

end Lines

theorem isNumber_nl {s : Bytes} (h : isNumber s = true) : NL ∉ s := fun hm => by
  exact absurd (isNumber_chars h _ hm) (by decide)

theorem slice_sub {inp : Bytes} {lo hi : Nat} {b : UInt8} (h : b ∈ slice inp lo hi) : b ∈ inp := List.mem_of_mem_drop (List.mem_of_mem_take h)

mutual
/-- Every value ends at the end of a line. -/
theorem Lies.lineEnd {ascii : Bool} {inp : Bytes} (H : Lines ascii inp) {s : Spot} {a : Nat} {t : Tree Unit} {e : Nat} : Lies inp s a t e → s ≠ .flow → t.nested → inp[e]? = some NL
  | .scalar (sc := sc) (lo := lo) (hi := hi) h1 h2 h3 h4 h5, hs, hn => by
    rw [Tree.nested, h5] at hn
    have hlt : lo < hi := by
      rcases Nat.lt_or_ge lo hi with h | h
      · exact h
      · rw [slice_none h] at hn; exact absurd rfl hn.1
    have hfl : Spot.inline s = false := by cases s <;> first | rfl | exact absurd rfl hs
    rw [hfl] at h4
    generalize sc.value = av at h4
    cases h4 with
    | number g1 g2 => exact H.ends hlt h3 (isNumber_nl g1) g2
    | plain _ g2 =>
      unfold plainText at g2
      simp only [Bool.false_eq_true, if_false, Bool.and_eq_true, Bool.not_eq_true', List.contains_eq_mem, decide_eq_false_iff_not, beq_iff_eq] at g2
      exact H.ends hlt h3 g2.2.1.1.1 (head_lineEnds g2.2.1.2)
    | quoted g1 _ _ =>
      exfalso
      have hm : hd (slice inp lo hi) ∈ inp := by
        cases hsl : slice inp lo hi with
        | nil => rw [hsl] at hn; exact absurd rfl hn.1
        | cons b r => exact slice_sub (lo := lo) (hi := hi) (by rw [hsl]; exact List.mem_cons_self ..)
      rcases inQuotes_hd g1 with h | h
      · rw [h] at hm; exact H.dq hm
      · rw [h] at hm; exact H.sq hm
  | .open (lo := lo) h1 h2 h3 h4 h5, hs, hn => by
    exfalso
    exact H.dq (List.mem_of_mem_drop (i := lo) (by rw [h3]; exact List.mem_cons_self ..))
  | .lines (lo := lo) h1 h2 h3 h4 h5, hs, hn => by
    exfalso
    obtain ⟨folded, chomp, hh, n, w, g1, g2, g3, -⟩ := h2
    have hm : (if folded then GT else PIPE) ∈ inp := slice_sub (lo := lo) (hi := hh) (by rw [g3]; exact List.mem_cons_self ..)
    cases folded
    · exact H.pipe hm
    · exact H.gt hm
  | .empty _ _ _, hs, hn => by
    rw [Tree.nested] at hn
    exact absurd rfl hn.1
  | .dashes _ _ h3, hs, hn => by
    rw [Tree.nested] at hn
    exact LiesRows.lineEnd H h3 hn.2
  | .keys _ _ h3, hs, hn => by
    rw [Tree.nested] at hn
    exact LiesRows.lineEnd H h3 hn.2
  | .brackets _ _ _ _ _, hs, hn => by rw [Tree.nested] at hn; exact hn.elim
  | .braces _ _ _ _ _, hs, hn => by rw [Tree.nested] at hn; exact hn.elim
theorem LiesRows.lineEnd {ascii : Bool} {inp : Bytes} (H : Lines ascii inp) {m : Bool} {c : Nat} {first : Bool} {ip : Bytes} {lo : Nat} {items : Items Unit} {e : Nat} {m' : Bool} {c' : Nat} :
    LiesRows inp m c first ip lo items e → items.nested m' c' → inp[e]? = some NL
  | .last _ _ _ h4 _ _, hn => by
    rw [Items.nested] at hn
    exact Lies.lineEnd H h4 (Spot.item_ne _ _) hn.2.1
  | .more _ _ _ _ _ h6, hn => by
    rw [Items.nested] at hn
    exact LiesRows.lineEnd H h6 hn.2.2
end

mutual
theorem Tree.nested_erase : ∀ {t : Tree Nat}, t.nested → t.erase.nested
  | .leaf _ _ _, h => by rw [Tree.erase, Tree.nested]; rw [Tree.nested] at h; exact h
  | .node _ _ _ _ (.inline _ _) _, h => by rw [Tree.nested] at h; exact h.elim
  | .node _ _ _ _ .block items, h => by
    rw [Tree.nested] at h
    rw [Tree.erase, Tree.nested, Items.erase_nil]
    exact ⟨h.1, Items.nested_erase h.2⟩
theorem Items.nested_erase {m : Bool} {c : Nat} : ∀ {items : Items Nat}, items.nested m c → items.erase.nested m c
  | .nil, _ => by rw [Items.erase, Items.nested]; trivial
  | .cons _ _ _ v _, h => by
    rw [Items.nested] at h
    rw [Items.erase, Items.nested]
    refine ⟨?_, Tree.nested_erase h.2.1, Items.nested_erase h.2.2⟩
    cases v with
    | leaf => rw [Tree.erase, Tree.inside]; trivial
    | node => have := h.1; rw [Tree.inside] at this; rw [Tree.erase, Tree.inside]; exact this
end

theorem LiesTo.lineEnd {ascii : Bool} {inp : Bytes} (H : Lines ascii inp) {t : Tree Nat} (ht : t.nested) {x : Nat} {u : Tree Nat} (hf : t.find x = some u) {e : Nat} (h : LiesTo inp u.erase e) :
    inp[e]? = some NL := by
  obtain ⟨s, a, hs, hl⟩ := h
  exact hl.lineEnd H hs (Tree.nested_erase (Tree.nested_find ht hf))

/-! ### Changed texts -/

theorem noTrail_free : ∀ {s : Bytes}, NL ∉ s → noTrail s = true
  | [], _ => rfl
  | a :: r, h => by
    rw [noTrail, noTrail_free (fun hm => h (List.mem_cons_of_mem _ hm)), Bool.and_true]
    have : r.head? ≠ some NL := fun hr => h (List.mem_cons_of_mem _ (List.mem_of_head? hr))
    simp [this]

/-- A part of the text is replaced. -/
theorem Lines.swap {ascii : Bool} {inp : Bytes} (H : Lines ascii inp) {d e : Nat} {y : Bytes} (hz : inp[e]? = some NL) (hb : ∀ b ∈ y, lineByte ascii b = true) (hy : noTrail y = true)
    (hj : y.head? = some NL → inp[d]? = some NL) (hl : ∀ a, (inp.take d ++ y).getLast? = some a → isOtherWs a = false) : Lines ascii (inp.take d ++ y ++ inp.drop e) := by
  have hz' : (inp.drop e).head? = some NL := by rw [List.head?_drop]; exact hz
  have hne : inp.drop e ≠ [] := fun h => by rw [h] at hz'; cases hz'
  have ht := H.trail
  refine ⟨fun b hm => ?_, ?_, ?_⟩
  · rw [List.mem_append, List.mem_append] at hm
    rcases hm with (hm | hm) | hm
    · exact H.bytes b (List.mem_of_mem_take hm)
    · exact hb b hm
    · exact H.bytes b (List.mem_of_mem_drop hm)
  · refine noTrail_append (noTrail_append ?_ hy ?_) ?_ (fun _ => hl)
    · rw [← List.take_append_drop d inp] at ht; exact noTrail_left ht
    · intro h a ha
      rw [← List.take_append_drop d inp] at ht
      exact noTrail_mid ht (by rw [List.head?_drop]; exact hj h) a ha
    · rw [← List.take_append_drop e inp] at ht; exact noTrail_right ht
  · rw [getLast?_right hne]
    have := H.last
    rw [← List.take_append_drop e inp, getLast?_right hne] at this
    exact this

/-- What is before a line break is not white space. -/
theorem Lines.before {ascii : Bool} {inp : Bytes} (H : Lines ascii inp) {d : Nat} (h : inp[d]? = some NL) : ∀ a, (inp.take d).getLast? = some a → isOtherWs a = false := by
  have ht := H.trail
  rw [← List.take_append_drop d inp] at ht
  exact noTrail_mid ht (by rw [List.head?_drop]; exact h)

/-! ### Headers -/

/-- Where the white space and the comments at the start end does not depend on what follows. -/
theorem wsGo_same : ∀ (c : Bool) (x y z : Bytes), (wsGo c (x ++ y)).1 < x.length → (wsGo c (x ++ z)).1 = (wsGo c (x ++ y)).1
  | _, [], _, _, h => by simp at h
  | true, b :: x, y, z, h => by
    simp only [wsGo, List.cons_append] at h ⊢
    split
    · next hb => rw [if_pos hb] at h; simp only [List.length_cons] at h; simp only [wsGo_same false x y z (by omega)]
    · next hb => rw [if_neg hb] at h; simp only [List.length_cons] at h; simp only [wsGo_same true x y z (by omega)]
  | false, b :: x, y, z, h => by
    simp only [wsGo, List.cons_append] at h ⊢
    split
    · next hb => rw [if_pos hb] at h; simp only [List.length_cons] at h; simp only [wsGo_same true x y z (by omega)]
    · next hb =>
      rw [if_neg hb] at h
      split
      · next hb => rw [if_pos hb] at h; simp only [List.length_cons] at h; simp only [wsGo_same false x y z (by omega)]
      · next hb =>
        rw [if_neg hb] at h
        split
        · next hb => rw [if_pos hb] at h; simp only [List.length_cons] at h; simp only [wsGo_same false x y z (by omega)]
        · rfl

theorem hasHeader_drop {inp : Bytes} {r : Nat} (h : FullGap inp 0 r) : hasHeader inp = (((inp.drop r).headD 0 == PCT) || (inp.drop r).take 3 == [DASH, DASH, DASH]) := by
  have : skipBlank false inp = inp.drop r := by rw [skipBlank_eq, ← h.eq, wsEnd]; simp
  rw [hasHeader, this]

theorem fullGap_same {inp : Bytes} {r b : Nat} (h : FullGap inp 0 r) (hr : r < b) (hb : b ≤ inp.length) (y : Bytes) : FullGap (inp.take b ++ y) 0 r := by
  have h1 := h.eq
  rw [wsEnd, List.drop_zero, Nat.zero_add, ← List.take_append_drop b inp] at h1
  have h2 := wsGo_same false (inp.take b) (inp.drop b) y (by rw [h1, List.length_take]; omega)
  rw [h1] at h2
  have := FullGap.ws (inp := inp.take b ++ y) (n := 0) (Nat.zero_le _)
  rw [wsEnd, List.drop_zero, Nat.zero_add, h2] at this
  exact this

/-- The start of a text that is the same up to `b`, where its first line still goes on. -/
theorem header_same {inp : Bytes} (hh : hasHeader inp = false) {r b : Nat} (h : FullGap inp 0 r) (hr : r < b) (hb : b ≤ inp.length) {y : Bytes}
    (hj : r + 3 ≤ b ∨ (∃ j, r ≤ j ∧ j < r + 3 ∧ j < b ∧ inp.getD j 0 ≠ DASH) ∨ b < r + 3 ∧ y.headD 0 ≠ DASH) : hasHeader (inp.take b ++ y) = false := by
  rw [hasHeader_drop (fullGap_same h hr hb y)]
  rw [hasHeader_drop h, Bool.or_eq_false_iff] at hh
  have hlb : (inp.take b).length = b := by rw [List.length_take]; omega
  have get : ∀ j, r + j < b → ((inp.take b ++ y).drop r)[j]? = (inp.drop r)[j]? := by
    intro j hj
    rw [List.getElem?_drop, List.getElem?_drop, List.getElem?_append_left (by rw [hlb]; exact hj), List.getElem?_take, if_pos hj]
  rw [Bool.or_eq_false_iff]
  constructor
  · rw [List.headD_eq_head?_getD, List.head?_eq_getElem?, get 0 (by omega), ← List.head?_eq_getElem?, ← List.headD_eq_head?_getD]
    exact hh.1
  · rw [beq_eq_false_iff_ne]
    intro he
    have at3 : ∀ j, j < 3 → ((inp.take b ++ y).drop r)[j]? = some DASH := by
      intro j hj
      have := congrArg (·[j]?) he
      simp only [List.getElem?_take, if_pos hj] at this
      rw [this]
      match j, hj with
      | 0, _ => rfl
      | 1, _ => rfl
      | 2, _ => rfl
    rcases hj with hj | ⟨j, h1, h2, h3, h4⟩ | ⟨h1, h2⟩
    · have := hh.2
      rw [beq_eq_false_iff_ne] at this
      apply this
      rw [← he]
      apply List.ext_getElem?
      intro j
      rw [List.getElem?_take, List.getElem?_take]
      split
      · rw [get j (by omega)]
      · rfl
    · have := at3 (j - r) (by omega)
      rw [get _ (by omega), List.getElem?_drop, show r + (j - r) = j by omega] at this
      rw [List.getD_eq_getElem?_getD, this] at h4
      exact h4 rfl
    · have := at3 (b - r) (by omega)
      rw [List.getElem?_drop, show r + (b - r) = b by omega, List.getElem?_append_right (by omega), hlb, Nat.sub_self, ← List.head?_eq_getElem?] at this
      rw [List.headD_eq_head?_getD, this] at h2
      exact h2 rfl

section
variable {α : Type} {inp : Bytes} {V : View α}

theorem RowAt.lt {c : Nat} {first : Bool} {l : List (Option Bytes × α)} {lo : Nat} {s : Spot} {y : α} {p : Nat} (h : RowAt inp V c first l lo s y p) : lo < p := by
  induction h with
  | head h1 h2 => have := Head.lt h1; have := h2.le; omega
  | tail h1 h2 h3 h4 _ ih => have := Head.lt h1; have := h2.le; have := h3.le; have := h4.le; omega

theorem CellAt.le {l : List (Option Bytes × α)} {n : Nat} {y : α} {p : Nat} (h : CellAt inp V l n y p) : n ≤ p := by
  induction h with
  | head h1 h2 => have := h1.le; have := h2.le; omega
  | tail h1 h2 h3 h4 _ ih =>
    have := h1.le; have := h2.le; have := h3.le
    obtain ⟨c, h5, h6⟩ := h4
    have hc := (by
      split at h5
      · exact h5.le.1
      · exact Nat.le_of_eq h5.symm : _ ≤ c)
    rcases h6 with ⟨-, -, h6⟩ | ⟨-, -, -, h6⟩
    · split at h6
      · omega
      · have := h6.2.le; omega
    · have := h6.le; omega

theorem ItemAt.lt {x : α} {lo : Nat} {s : Spot} {y : α} {p : Nat} (h : ItemAt inp V x lo s y p) : lo < p := by
  cases h with
  | dashes _ h => exact h.lt
  | keys _ h => exact h.lt
  | brackets _ _ h1 h2 => have := h1.le; have := h2.le; omega
  | braces _ _ h1 h2 => have := h1.le; have := h2.le; omega

theorem Within.le {s : Spot} {x : α} {lo : Nat} {s' : Spot} {y : α} {p : Nat} (h : Within inp V s x lo s' y p) : lo ≤ p := by
  induction h with
  | here => exact Nat.le_refl _
  | item h _ ih => have := h.lt; omega

/-- The first bytes of a collection are before its items. -/
theorem ItemAt.start {x : α} {lo : Nat} {s : Spot} {y : α} {p : Nat} (h1 : LBR ∉ inp) (h2 : LCB ∉ inp) (h : ItemAt inp V x lo s y p) :
    lo + 3 ≤ p ∨ ∃ j, lo ≤ j ∧ j < lo + 3 ∧ j < p ∧ inp.getD j 0 ≠ DASH := by
  have key : ∀ {c : Nat} {l : List (Option Bytes × α)}, RowAt inp V c true l lo s y p → ∃ k a b, Head inp true k lo a ∧ FullGap inp a b ∧ b ≤ p := by
    intro c l h
    cases h with
    | head h1 h2 => exact ⟨_, _, _, h1, h2, Nat.le_refl _⟩
    | tail h1 h2 h3 h4 h5 => exact ⟨_, _, _, h1, h2, by have := h3.le; have := h4.le; have := h5.lt; omega⟩
  have row : (∃ k a b, Head inp true k lo a ∧ FullGap inp a b ∧ b ≤ p) → lo + 3 ≤ p ∨ ∃ j, lo ≤ j ∧ j < lo + 3 ∧ j < p ∧ inp.getD j 0 ≠ DASH := by
    rintro ⟨k, a, b, g1, g2, g3⟩
    cases k with
    | none =>
      obtain ⟨g4, g5, rfl⟩ := g1
      have g5 := g5 rfl
      right
      refine ⟨lo + 1, by omega, by omega, ?_, fun h => by rw [h] at g5; cases g5⟩
      rcases Nat.lt_or_ge (lo + 1) p with h | h
      · exact h
      · exfalso
        obtain rfl : lo + 1 = b := by have := g2.le; omega
        rw [g2.2.1] at g5; cases g5
    | some k =>
      obtain ⟨q, rfl, g4⟩ := g1
      simp only [if_true] at g4
      have := g2.le
      rcases Nat.lt_or_ge q (lo + 3) with h | h
      · exact .inr ⟨q, g4.1, h, by omega, by rw [List.getD_eq_getElem?_getD, g4.2.1]; exact (by decide : COLON ≠ DASH)⟩
      · exact .inl (by omega)
  cases h with
  | dashes _ h => exact row (key h)
  | keys _ h => exact row (key h)
  | brackets _ h _ _ => exact absurd (List.mem_of_getElem? h) h1
  | braces _ h _ _ => exact absurd (List.mem_of_getElem? h) h2

/-- The text of a value is replaced: there is no header afterwards if there was none before. -/
theorem Within.header (h1 : LBR ∉ inp) (h2 : LCB ∉ inp) (hh : hasHeader inp = false) {s : Spot} {x : α} {r : Nat} {s' : Spot} {y : α} {b : Nat} (h : Within inp V s x r s' y b)
    (hg : FullGap inp 0 r) (hb : b < inp.length) {z : Bytes} (hz : isWs (z.headD 0) = false ∧ z.headD 0 ≠ HASH) (h3 : z.headD 0 ≠ PCT) (h4 : z.take 3 ≠ [DASH, DASH, DASH]) :
    hasHeader (inp.take b ++ z) = false := by
  cases h with
  | here =>
    rcases hg.1 with ⟨-, -, g⟩
    rcases g with g | ⟨g1, g2⟩
    · rw [slice, List.drop_zero, Nat.sub_zero] at g
      rw [hasHeader_gap g hz, startsHeader]
      simp only [Bool.or_eq_false_iff, beq_eq_false_iff_ne]
      exact ⟨h3, h4⟩
    · omega
  | item g1 g2 =>
    have := g2.le
    have := g1.lt
    refine header_same hh hg (by omega) (Nat.le_of_lt hb) ?_
    rcases g1.start h1 h2 with h | ⟨j, j1, j2, j3, j4⟩
    · exact .inl (by omega)
    · exact .inr (.inl ⟨j, j1, j2, by omega, j4⟩)
end

end Verif
