import Verif.After
import Verif.Shove
import Verif.AgainLines
import Verif.SwapRules
/-
Lines with others after them: if they are exchanged for others that start alike, every value before them is where it was.
-/
namespace Verif

/-- After the lines `x` comes `t`, or `t'` instead. -/
structure Joint (x t t' : Bytes) : Prop where
  last : x.getLast? = some NL
  start : isIndicator (t.headD 0) = false ∧ isCtl (t.headD 0) = false
  start' : isIndicator (t'.headD 0) = false ∧ t'.headD 0 ≠ COLON ∧ t'.headD 0 ≠ 0
  dash : t.headD 0 = DASH ↔ t'.headD 0 = DASH
  /-- No key in quotes ends in `t`. -/
  quotes : ∀ n, t[n]? = some COLON → 0 < n ∧ t.getD (n - 1) 0 ≠ DQ ∧ t.getD (n - 1) 0 ≠ SQ ∧ t.getD (n - 1) 0 ≠ 0
  key : ∀ k q, FirstKey t k 0 q → ∃ k' q', FirstKey t' k' 0 q'

theorem InQuotes.ends {s v : Bytes} (h : InQuotes s v) : s ≠ [] ∧ (s.getLast? = some DQ ∨ s.getLast? = some SQ ∨ s.getLast? = some 0) := by
  cases h with
  | single s => exact ⟨by simp [quoteSingle], .inr (.inl (by unfold quoteSingle; rw [List.getLast?_append]; rfl))⟩
  | double h1 h2 =>
    refine ⟨by simp, ?_⟩
    rw [List.getLast?_append]
    rcases h2 with rfl | rfl
    · exact .inl rfl
    · exact .inr (.inr rfl)

namespace Joint

variable {x t t' : Bytes} (H : Joint x t t')
include H

theorem tail : Tail x [] := ⟨H.last, rfl, .inl rfl⟩

theorem ne : t ≠ [] := by
  rintro rfl
  exact absurd H.start.2 (by decide)

theorem ne' : t' ≠ [] := by
  rintro rfl
  exact H.start'.2.2 rfl

theorem whole : Whole x := .inr H.last

omit H in
theorem get {n : Nat} (h : n < x.length) : (x ++ t')[n]? = (x ++ t)[n]? := by rw [append_get h, append_get h]

omit H in
theorem getD {n : Nat} (h : n < x.length) : (x ++ t').getD n 0 = (x ++ t).getD n 0 := by rw [append_getD h, append_getD h]

omit H in
theorem slice {a b : Nat} (h : b ≤ x.length) : Verif.slice (x ++ t') a b = Verif.slice (x ++ t) a b := by rw [append_slice h, append_slice h]

omit H in
theorem column {n : Nat} (h : n ≤ x.length) : columnAt (x ++ t') n = columnAt (x ++ t) n := by rw [append_column h, append_column h]

omit H in
theorem breaks {a b : Nat} (h : b ≤ x.length) : breaksIn (x ++ t') a b = breaksIn (x ++ t) a b := by
  unfold breaksIn
  rw [slice h]

omit H in
theorem at0 (x t : Bytes) : (x ++ t).getD x.length 0 = t.headD 0 := by
  have := sh_getD x t 0 0
  rw [Nat.add_zero] at this
  rw [this]
  cases t <;> rfl

theorem lt_length {n : Nat} (h : n ≤ x.length) : n < (x ++ t).length := by
  have := List.length_pos_iff.2 H.ne
  rw [List.length_append]
  omega

theorem lt_length' {n : Nat} (h : n ≤ x.length) : n < (x ++ t').length := by
  have := List.length_pos_iff.2 H.ne'
  rw [List.length_append]
  omega

theorem ws' : isWs (t'.headD 0) = false ∧ t'.headD 0 ≠ HASH := by
  have := H.start'.1
  simp only [isIndicator, Bool.or_eq_false_iff, beq_eq_false_iff_ne] at this
  exact ⟨this.1.1.1.1.1.1.1, this.1.1.1.1.1.1.2⟩

theorem stop : stopWs t := by
  have := H.start.1
  simp only [isIndicator, Bool.or_eq_false_iff, beq_eq_false_iff_ne] at this
  have hd' : hd t = t.headD 0 := by cases t <;> rfl
  unfold stopWs
  rw [hd']
  exact ⟨this.1.1.1.1.1.1.1, this.1.1.1.1.1.1.2⟩

theorem full {a b : Nat} (h : FullGap (x ++ t) a b) (hb : b ≤ x.length) : FullGap (x ++ t') a b := by
  have hl := H.lt_length hb
  have hl' := H.lt_length' hb
  obtain ⟨⟨h1, h2, h3⟩, h4⟩ := h
  refine ⟨⟨h1, by omega, .inl ?_⟩, ?_⟩
  · rw [slice hb]
    rcases h3 with h3 | h3
    · exact h3
    · omega
  · rcases Nat.lt_or_ge b x.length with hlt | hge
    · rw [getD hlt]; exact h4
    · rw [show b = x.length by omega, at0]
      exact H.ws'

/-! ### Scalars -/

omit H in
theorem tokenBack {fl : Bool} {r s : Bytes} {a : AnyV} (hr : NL ∈ r) (h : Token fl (r ++ t) s a) : Token fl r s a := by
  have h0 : ∀ d, (r ++ t).headD d = r.headD d := fun d => by
    cases r with
    | nil => cases hr
    | cons b r => rfl
  cases h with
  | number h1 h2 => exact .number h1 (by rw [h0, Tail.lineEnds hr] at h2; exact h2)
  | plain h1 h2 =>
    refine .plain h1 ?_
    unfold plainText at h2 ⊢
    rw [h0, h0, Tail.dashes_after hr] at h2
    exact h2
  | quoted h1 h2 h3 => exact .quoted h1 (by rw [h0] at h2; exact h2) (by rw [h0] at h3; exact h3)

theorem token {fl : Bool} {lo hi : Nat} {a : AnyV} (hlo : lo ≤ hi) (hhi : hi ≤ x.length) (h : Token fl ((x ++ t).drop hi) (Verif.slice (x ++ t) lo hi) a) :
    Token fl ((x ++ t').drop hi) (Verif.slice (x ++ t') lo hi) a := by
  rcases Nat.lt_or_ge hi x.length with hlt | hge
  · rw [List.drop_append_of_le_length hhi, append_slice hhi] at h ⊢
    have hm := H.tail.mem_drop hlt
    exact Tail.token hm (tokenBack hm h)
  · exfalso
    have he : hi = x.length := by omega
    subst he
    rw [List.drop_left, append_slice (Nat.le_refl _)] at h
    obtain ⟨s1, s2⟩ := H.start
    have hn : (t.headD NL == NL) = false := by
      rw [beq_eq_false_iff_ne]
      intro h
      have hne := H.ne
      cases t with
      | nil => exact hne rfl
      | cons b t =>
        have h' : b = NL := h
        subst h'
        rw [List.headD_cons] at s1
        exact absurd s1 (by decide)
    have hs : ∀ b, (Verif.slice x lo x.length).getLast? = some b → b = NL := by
      intro b hb
      rcases Nat.lt_or_ge lo x.length with hl | hl
      · have : Verif.slice x lo x.length = x.drop lo := by
          unfold Verif.slice
          rw [List.take_of_length_le (by rw [List.length_drop]; omega)]
        rw [this, H.tail.dropLast hl] at hb
        exact (Option.some.inj hb).symm
      · have : Verif.slice x lo x.length = [] := by
          unfold Verif.slice
          rw [show x.length - lo = 0 by omega, List.take_zero]
        rw [this] at hb
        cases hb
    generalize Verif.slice x lo x.length = s at h hs
    cases h with
    | number h1 _ =>
      rcases List.eq_nil_or_concat s with rfl | ⟨s, b, rfl⟩
      · exact absurd h1 (by decide)
      · have := hs b (by simp)
        subst this
        rcases isNumber_chars h1 NL (by simp) with h | h <;> exact absurd h (by decide)
    | plain _ h2 =>
      unfold plainText at h2
      cases fl with
      | true => rw [if_pos rfl, s2, Bool.and_false, Bool.and_false] at h2; cases h2
      | false => rw [if_neg (by decide), hn] at h2; simp at h2
    | quoted h1 _ _ =>
      obtain ⟨-, h⟩ := h1.ends
      rcases h with h | h | h <;> exact absurd (hs _ h) (by decide)

/-! ### Block scalars -/

theorem line {a b : Nat} (h : LineAt (x ++ t) a b) (hb : b ≤ x.length) : LineAt (x ++ t') a b := by
  obtain ⟨h1, h2, h3⟩ := h
  have hl := H.lt_length hb
  refine ⟨h1, by rw [slice hb]; exact h2, .inr ?_⟩
  rcases h3 with h3 | h3
  · omega
  · rcases Nat.lt_or_ge b x.length with hlt | hge
    · rw [get hlt]; exact h3
    · exfalso
      have : (x ++ t).getD x.length 0 = NL := by rw [List.getD_eq_getElem?_getD, show x.length = b by omega, h3]; rfl
      rw [at0] at this
      have s1 := H.start.1
      rw [this] at s1
      exact absurd s1 (by decide)

theorem rows {fo : Bool} {c p : Nat} {v : Bytes} {hi n q : Nat} (h : BlockRows (x ++ t) fo c p v hi n) (hg : FullGap (x ++ t) hi q) (hq : q ≤ x.length) :
    BlockRows (x ++ t') fo c p v hi n := by
  induction h with
  | last h1 h2 h3 h4 h5 =>
    obtain rfl := h4.unique hg
    have hl := h4.le
    have := h2.1
    rw [← breaks (t' := t') hq]
    exact .last (H.lt_length' (by omega)) (H.line h2 (by omega)) (by rw [slice (by omega)]; exact h3) (H.full h4 hq) (by rw [column hq]; exact h5)
  | final h1 h2 h3 h4 h5 =>
    have := h4.unique hg
    have := H.lt_length hq
    omega
  | more h1 h2 h3 h4 h5 h6 ih =>
    have hl := h4.le
    have := h2.1
    have := h6.le
    have := hg.le
    rw [← breaks (t' := t') (by omega)]
    exact .more (H.lt_length' (by omega)) (H.line h2 (by omega)) (by rw [slice (by omega)]; exact h3) (H.full h4 (by omega)) (by rw [column (by omega)]; exact h5) (ih hg)

theorem blockBody {fo : Bool} {h : Nat} {v : Bytes} {hi n q : Nat} (hb : BlockBody (x ++ t) fo h v hi n) (hg : FullGap (x ++ t) hi q) (hq : q ≤ x.length) :
    BlockBody (x ++ t') fo h v hi n := by
  have hl := hg.le
  have hlt := H.lt_length hq
  cases hb with
  | below h1 h2 h3 =>
    have := h3.le
    have h4 := H.rows h3 hg hq
    rw [← column (t' := t') (by omega)] at h4
    exact .below (H.full h1 (by omega)) (by rw [breaks (by omega)]; exact h2) h4
  | nothing h1 h2 =>
    have := h1.unique hg
    omega
  | beside h1 h2 h3 h4 h5 =>
    have := h5.unique hg
    omega
  | @both q' e p _ _ _ _ h1 h2 h3 h4 h5 h6 =>
    have := h6.le
    have h7 := h5.le
    have h8 := H.rows h6 hg hq
    rw [← column (t' := t') (by omega)] at h8
    have hq' : q' ≤ x.length := by
      rcases Nat.lt_or_ge x.length q' with h9 | h9
      · exfalso
        have h10 := h3.1
        have h11 : h < x.length ∨ h = x.length := by omega
        rcases h11 with h11 | h11
        · have := H.tail.breaksPos h11
          have h12 : breaksIn x h x.length ≤ breaksIn (x ++ t) h q' := by
            unfold breaksIn
            rw [← append_slice (t := t) (Nat.le_refl _)]
            unfold Verif.slice
            exact (List.take_sublist_take_left (by omega)).count_le _
          omega
        · subst h11
          have h12 := h1.eq
          unfold wsEnd at h12
          rw [List.drop_left] at h12
          have h13 := wsGo_append (w := []) (by simp) H.stop
          rw [List.nil_append] at h13
          rw [h13, List.length_nil] at h12
          omega
      · exact h9
    exact .both (H.full h1 hq') (by rw [breaks hq']; exact h2) (H.line h3 (by omega)) (by rw [slice (by omega)]; exact h4) (H.full h5 (by omega)) h8

theorem block {lo : Nat} {v : Bytes} {hi q : Nat} (h : BlockAt (x ++ t) lo v hi) (hg : FullGap (x ++ t) hi q) (hq : q ≤ x.length) : BlockAt (x ++ t') lo v hi := by
  obtain ⟨fo, ch, h, n, w, h1, h2, h3, h4, h5, rfl⟩ := h
  have h6 := h5.le
  have h7 := hg.le
  have h8 : h < x.length := by
    rcases Nat.lt_or_ge h x.length with h8 | h8
    · exact h8
    · exfalso
      have he : h = x.length := by omega
      have h9 := Swap.slice_last (x := x ++ t) h1 h2
      rw [h3, he, append_get (by have := H.tail.pos; omega), H.tail.lastGet] at h9
      revert h9
      cases fo <;> cases ch <;> decide
  exact ⟨fo, ch, h, n, w, h1, Nat.le_of_lt (H.lt_length' (by omega)), by rw [slice (by omega)]; exact h3, by rw [getD h8]; exact h4, H.blockBody h5 hg hq, rfl⟩

/-! ### Keys -/

theorem next {n : Nat} {b : UInt8} (hn : n < x.length) (h : (x ++ t)[n]? = some b) (hb : b ≠ NL) : n + 1 < x.length := by
  rw [append_get hn] at h
  exact H.tail.next h hb

theorem keyEnd {p : Nat} (hp : p < x.length) : KeyEnd (x ++ t') p ↔ KeyEnd (x ++ t) p := by
  unfold KeyEnd
  rw [get hp]
  constructor
  · rintro ⟨h1, h2⟩
    rw [getD (H.next hp h1 (by decide))] at h2
    exact ⟨h1, h2⟩
  · rintro ⟨h1, h2⟩
    rw [getD (H.next hp h1 (by decide))]
    exact ⟨h1, h2⟩

theorem firstKey {k : Bytes} {lo q : Nat} (h : FirstKey (x ++ t) k lo q) (hq : q < x.length) : FirstKey (x ++ t') k lo q := by
  obtain ⟨h1, h2, h3⟩ := h
  refine ⟨h1, by rw [get hq]; exact h2, ?_⟩
  rw [slice (by omega), getD (by omega), H.keyEnd hq]
  rcases h3 with h3 | ⟨h3, h4, h5, h6, h7, h8⟩
  · exact .inl h3
  · refine .inr ⟨h3, h4, ?_, h6, h7, fun p hp1 hp2 => by rw [H.keyEnd (by omega)]; exact h8 p hp1 hp2⟩
    have hd : ∀ t, dashes ((x ++ t).drop lo) = dashes (x.drop lo) := fun t => by
      have := Tail.dashes_after (t := t) (H.tail.mem_drop (n := lo) (by omega)) []
      rw [List.drop_append_of_le_length (by omega)]
      simpa only [List.nil_append] using this
    rw [hd] at h5 ⊢
    exact h5

/-- A key that starts before `t` ends before it. -/
theorem firstKeyIn {k : Bytes} {lo q : Nat} (h : FirstKey (x ++ t) k lo q) (hlo : lo < x.length) : q < x.length := by
  obtain ⟨h1, h2, h3⟩ := h
  rcases Nat.lt_or_ge q x.length with hq | hq
  · exact hq
  · exfalso
    obtain ⟨n, rfl⟩ := Nat.exists_eq_add_of_le hq
    rcases h3 with h3 | ⟨h3, -, -, h4, -⟩
    · have hl := (List.getElem?_eq_some_iff.1 h2).1
      rw [sh_get] at h2
      obtain ⟨h5, h6⟩ := H.quotes n h2
      obtain ⟨m, rfl⟩ : ∃ m, n = m + 1 := ⟨n - 1, by omega⟩
      have h7 := Swap.slice_last (x := x ++ t) (a := lo) (b := x.length + (m + 1)) (by omega) (by omega)
      rw [show x.length + (m + 1) - 1 = x.length + m by omega, sh_get] at h7
      rw [List.getD_eq_getElem?_getD, Nat.add_sub_cancel, ← h7] at h6
      rcases h3.ends.2 with h | h | h <;> rw [h] at h6
      · exact h6.1 rfl
      · exact h6.2.1 rfl
      · exact h6.2.2 rfl
    · apply h4
      rw [← h3]
      have := H.tail.pos
      refine mem_slice (x := x.length - 1) ?_ (by omega) (by omega)
      rw [append_get (by omega)]
      exact H.tail.lastGet

theorem head {first : Bool} {k : Option Bytes} {lo a : Nat} (h : Head (x ++ t) first k lo a) (ha : a ≤ x.length) : a < x.length ∧ Head (x ++ t') first k lo a := by
  cases k with
  | none =>
    obtain ⟨h1, h2, rfl⟩ := h
    have := H.next (by omega) h1 (by decide)
    exact ⟨this, by rw [get (by omega)]; exact h1, by rw [getD this]; exact h2, rfl⟩
  | some k =>
    obtain ⟨q, rfl, h⟩ := h
    cases first with
    | true => exact ⟨H.next (by omega) h.2.1 (by decide), q, rfl, H.firstKey h (by omega)⟩
    | false =>
      obtain ⟨h1, h2, h3, h4⟩ := h
      exact ⟨H.next (by omega) h2 (by decide), q, rfl, h1, by rw [get (by omega)]; exact h2, by rw [slice (by omega)]; exact h3, h4⟩

omit H in
theorem cellHead {k : Option Bytes} {lo a : Nat} (h : CellHead (x ++ t) k lo a) (ha : a ≤ x.length) : CellHead (x ++ t') k lo a := by
  cases k with
  | none => exact h
  | some k =>
    obtain ⟨q, h1, h2, rfl, h3, h4⟩ := h
    exact ⟨q, h1, by rw [get (by omega)]; exact h2, rfl, by rw [slice (by omega)]; exact h3, h4⟩

theorem columnEnd (t : Bytes) : columnAt (x ++ t) x.length = 0 := by
  rw [append_column (Nat.le_refl _)]
  exact H.tail.columnLen

theorem goes {m : Bool} {c q : Nat} (hq : q ≤ x.length) (h : ¬ Goes (x ++ t) m c q) : ¬ Goes (x ++ t') m c q := by
  rcases Nat.lt_or_ge q x.length with hlt | hge
  · unfold Goes at h ⊢
    rw [column hq, get hlt, getD hlt]
    exact h
  · have he : q = x.length := by omega
    subst he
    unfold Goes at h ⊢
    rw [H.columnEnd] at h ⊢
    rintro ⟨rfl, h'⟩
    apply h
    refine ⟨rfl, ?_⟩
    cases m with
    | true =>
      rw [if_pos rfl, at0]
      have s2 := H.start.2
      simp only [isCtl, Bool.or_eq_false_iff, beq_eq_false_iff_ne] at s2
      exact ⟨s2.1.1.1.2, s2.2⟩
    | false =>
      rw [if_neg (by decide)] at h' ⊢
      have h0 := sh_get x t' 0
      rw [Nat.add_zero] at h0
      rw [h0] at h'
      have hd' : t'.headD 0 = DASH := by
        cases t' with
        | nil => cases h'
        | cons b t' => exact Option.some.inj h'
      have hd := H.dash.2 hd'
      have h0 := sh_get x t 0
      rw [Nat.add_zero] at h0
      rw [h0]
      cases t with
      | nil => exact absurd hd (by decide)
      | cons b t => exact congrArg some hd

theorem nextCell {m blk : Bool} {e : Nat} {last : Bool} {start n : Nat} (hn : n < x.length) (h : NextCell (x ++ t) m blk e last start n) :
    (∃ q, FullGap (x ++ t) e q ∧ q < x.length) ∧ NextCell (x ++ t') m blk e last start n := by
  obtain ⟨c, h1, h2⟩ := h
  rcases h2 with ⟨h2, h3, h4⟩ | ⟨h2, h3, h4, h5⟩
  · have hcn : c < n := by
      split at h4
      · omega
      · have := h4.2.le; omega
    refine ⟨⟨c, ?_, by omega⟩, c, ?_, .inl ⟨h2, by rw [get (by omega)]; exact h3, ?_⟩⟩
    · split at h1
      · exact h1
      · subst h1
        have hl := (List.getElem?_eq_some_iff.1 h3).1
        have hg : (x ++ t).getD c 0 = COMMA := by rw [List.getD_eq_getElem?_getD, h3]; rfl
        exact ⟨Gap.refl (by omega), by rw [hg]; decide, by rw [hg]; decide⟩
    · split
      · next hm => rw [if_pos hm] at h1; exact H.full h1 (by omega)
      · next hm => rw [if_neg hm] at h1; exact h1
    · split
      · next hm => rw [if_pos hm] at h4; exact h4
      · next hm => rw [if_neg hm] at h4; exact ⟨h4.1, H.full h4.2 (by omega)⟩
  · have := h5.le
    have hc : c < x.length := by
      split at h1
      · rw [h1.unique h5]; exact hn
      · omega
    refine ⟨⟨n, h5, hn⟩, c, ?_, .inr ⟨h2, by rw [get hc]; exact h3, h4, H.full h5 (by omega)⟩⟩
    split
    · next hm => rw [if_pos hm] at h1; exact H.full h1 (by omega)
    · next hm => rw [if_neg hm] at h1; exact h1

end Joint

mutual
theorem Sits.joint {α : Type} {x t t' : Bytes} {V : View α} (H : Joint x t t') {s : Spot} {v : α} {lo hi q : Nat} :
    Sits (x ++ t) V s v lo hi → FullGap (x ++ t) hi q → q ≤ x.length → Sits (x ++ t') V s v lo hi
  | .scalar h1 h2 h3 h4, hg, hq => by
    have := hg.le
    exact .scalar h1 h2 (Nat.le_of_lt (H.lt_length' (by omega))) (H.token h2 (by omega) h4)
  | .lines h1 h2, hg, hq => .lines h1 (H.block h2 hg hq)
  | .open h1 h2 h3 h4, hg, hq => by
    have := hg.le
    have := H.lt_length hq
    omega
  | .empty h1 h2 h3, hg, hq => by
    have := hg.le
    rw [← Joint.column (t' := t') (by omega)] at h3
    rcases Nat.lt_or_ge lo x.length with hlo | hlo
    · exact .empty h1 (H.firstKey h2 (H.firstKeyIn h2 hlo)) h3
    · have he : lo = x.length := by omega
      subst he
      obtain ⟨j, rfl⟩ := Nat.exists_eq_add_of_le h2.1
      obtain ⟨k', q', h4⟩ := H.key _ _ ((sh_firstKey (p := x) (lo := 0)).1 h2)
      exact .empty h1 ((sh_firstKey (p := x) (lo := 0)).2 h4) h3
  | .dashes h1 h2 h3, hg, hq => by
    have h4 := h3.le
    have h5 := hg.le
    have := h3.joint H hg hq
    rw [← Joint.column (t' := t') (by omega)] at this
    exact .dashes h1 h2 this
  | .keys h1 h2 h3, hg, hq => by
    have h4 := h3.le
    have h5 := hg.le
    have := h3.joint H hg hq
    rw [← Joint.column (t' := t') (by omega)] at this h2
    exact .keys h1 h2 this
  | .brackets h1 h2 h3 h4, hg, hq => by
    have h5 := h4.le
    have h6 := hg.le
    have h7 := h3.le
    exact .brackets h1 (by rw [Joint.get (by omega)]; exact h2) (H.full h3 (by omega)) (h4.joint H (by omega))
  | .braces h1 h2 h3 h4, hg, hq => by
    have h5 := h4.le
    have h6 := hg.le
    have h7 := h3.le
    exact .braces h1 (by rw [Joint.get (by omega)]; exact h2) (H.full h3 (by omega)) (h4.joint H (by omega))
theorem Rows.joint {α : Type} {x t t' : Bytes} {V : View α} (H : Joint x t t') {c : Nat} {first : Bool} {l : List (Option Bytes × α)} {lo hi q : Nat} :
    Rows (x ++ t) V c first l lo hi → FullGap (x ++ t) hi q → q ≤ x.length → Rows (x ++ t') V c first l lo hi
  | .last h1 h2 h3 h4 h5 h6, hg, hq => by
    obtain rfl := h5.unique hg
    have h7 := h4.le
    have h8 := h3.le
    have h9 := h2.lt
    have h10 := hg.le
    exact .last (by rw [Joint.column (by omega)]; exact h1) (H.head h2 (by omega)).2 (H.full h3 (by omega)) (h4.joint H hg hq) (H.full hg hq) (H.goes hq h6)
  | .more h1 h2 h3 h4 h5 h6, hg, hq => by
    have h7 := h4.le
    have h8 := h3.le
    have h9 := h2.lt
    have h10 := hg.le
    have h11 := h6.le
    have h12 := h5.le
    exact .more (by rw [Joint.column (by omega)]; exact h1) (H.head h2 (by omega)).2 (H.full h3 (by omega)) (h4.joint H h5 (by omega)) (H.full h5 (by omega))
      (h6.joint H hg hq)
theorem Cells.joint {α : Type} {x t t' : Bytes} {V : View α} (H : Joint x t t') {m last : Bool} {l : List (Option Bytes × α)} {n hi : Nat} :
    Cells (x ++ t) V m last l n hi → hi < x.length → Cells (x ++ t') V m last l n hi
  | .none h, hq => .none (by rw [Joint.get hq]; exact h)
  | .final h1 h2 h3 h4 h5 h6, hq => by
    have h7 := h4.le
    have h8 := h3.le
    have h9 := h2.le
    have h10 := h5.le
    exact .final (by unfold Opens; rw [Joint.getD (by omega)]; exact h1) (Joint.cellHead h2 (by omega)) (H.full h3 (by omega)) (h4.joint H h5 (by omega))
      (H.full h5 (by omega)) (by rw [Joint.get hq]; exact h6)
  | .cell (start := start) h1 h2 h3 h4 h5 h6, hq => by
    have h7 := h4.le
    have h8 := h3.le
    have h9 := h2.le
    have h10 := h6.le
    obtain ⟨⟨q, h11, h12⟩, h13⟩ := H.nextCell (by omega) h5
    have h14 := h11.le
    refine .cell (by unfold Opens; rw [Joint.getD (by omega)]; exact h1) (Joint.cellHead h2 (by omega)) (H.full h3 (by omega)) (h4.joint H h11 (by omega))
      (?_ : NextCell _ _ _ _ _ start _) (h6.joint H hq)
    unfold atBlock at h13 ⊢
    rw [Joint.getD (by omega)]
    exact h13
end

end Verif
