import Verif.Join
/-
Another text after the first part of a text: the values in the first part are where they were, if both go on with something else than white space.
-/
namespace Verif

/-- The text starts with something else than white space, a comment or a NUL byte. -/
structure Solid (y : Bytes) : Prop where
  ws : isWs (y.headD 0) = false
  hash : y.headD 0 ≠ HASH
  nul : y.headD 0 ≠ 0

theorem Solid.ne {y : Bytes} (h : Solid y) : y ≠ [] := by
  rintro rfl
  exact h.nul rfl

theorem Solid.nl {y : Bytes} (h : Solid y) : y.headD 0 ≠ NL := fun h1 => by
  have := h.ws
  rw [h1] at this
  exact absurd this (by decide)

theorem Solid.append {y : Bytes} (h : Solid y) (z : Bytes) : Solid (y ++ z) := by
  have hne := h.ne
  cases y with
  | nil => exact absurd rfl hne
  | cons b y => exact ⟨h.ws, h.hash, h.nul⟩

/-- After `x` comes `y`, or `y'` instead. -/
structure Ahead (x y y' : Bytes) : Prop where
  old : Solid y
  new : Solid y'
  /-- After a colon, what could be taken for a key before still can be. -/
  keys : ∀ a k lo q, (x ++ y)[a]? = some COLON → FullGap (x ++ y) (a + 1) lo → lo < x.length → FirstKey (x ++ y) k lo q → ∃ k' q', FirstKey (x ++ y') k' lo q'

namespace Ahead

variable {x y y' : Bytes} (H : Ahead x y y')
include H

theorem lt_length {n : Nat} (h : n ≤ x.length) : n < (x ++ y).length := by
  have := List.length_pos_iff.2 H.old.ne
  rw [List.length_append]
  omega

theorem lt_length' {n : Nat} (h : n ≤ x.length) : n < (x ++ y').length := by
  have := List.length_pos_iff.2 H.new.ne
  rw [List.length_append]
  omega

theorem full {a b : Nat} (h : FullGap (x ++ y) a b) (hb : b ≤ x.length) : FullGap (x ++ y') a b := by
  have hl := H.lt_length hb
  have hl' := H.lt_length' hb
  obtain ⟨⟨h1, h2, h3⟩, h4⟩ := h
  refine ⟨⟨h1, by omega, .inl ?_⟩, ?_⟩
  · rw [Joint.slice hb]
    rcases h3 with h3 | h3
    · exact h3
    · omega
  · rcases Nat.lt_or_ge b x.length with hlt | hge
    · rw [Joint.getD hlt]; exact h4
    · rw [show b = x.length by omega, Joint.at0]
      exact ⟨H.new.ws, H.new.hash⟩

/-! ### Scalars -/

omit H in
theorem lineEnds_mem {r y : Bytes} (hy : Solid y) (h : lineEnds (r ++ y) = true) : NL ∈ r := by
  induction r with
  | nil =>
    exfalso
    have hne := hy.ne
    cases y with
    | nil => exact hne rfl
    | cons b y =>
      have h1 := hy.ws
      have h2 := hy.nl
      simp only [List.headD_cons] at h1 h2
      have h3 : isOtherWs b = false := by
        unfold isWs at h1
        simp only [Bool.or_eq_false_iff] at h1
        exact h1.1
      simp only [lineEnds, List.nil_append, List.dropWhile_cons, h3, Bool.false_eq_true, if_false, List.headD_cons, beq_iff_eq] at h
      exact h2 h
  | cons b r ih =>
    by_cases hb : isOtherWs b = true
    · refine List.mem_cons_of_mem _ (ih ?_)
      simpa only [lineEnds, List.cons_append, List.dropWhile_cons, hb, if_true] using h
    · simp only [lineEnds, List.cons_append, List.dropWhile_cons, hb, if_false, List.headD_cons, beq_iff_eq, Bool.false_eq_true] at h
      rw [h]
      exact List.mem_cons_self ..

theorem token {fl : Bool} {lo hi : Nat} {a : AnyV} (hhi : hi < x.length) (h : Token fl ((x ++ y).drop hi) (slice (x ++ y) lo hi) a) :
    Token fl ((x ++ y').drop hi) (slice (x ++ y') lo hi) a := by
  rw [List.drop_append_of_le_length (Nat.le_of_lt hhi), append_slice (Nat.le_of_lt hhi)] at h ⊢
  have hr : x.drop hi ≠ [] := by
    intro h
    have := congrArg List.length h
    rw [List.length_drop] at this
    simp at this
    omega
  generalize x.drop hi = r at h hr
  generalize slice x lo hi = s at h
  have h0 : ∀ (y' : Bytes) d, (r ++ y').headD d = r.headD d := fun y' d => by
    cases r with
    | nil => exact absurd rfl hr
    | cons b r => rfl
  cases h with
  | number h1 h2 =>
    refine .number h1 ?_
    cases fl with
    | true => rw [if_pos rfl, h0] at h2 ⊢; exact h2
    | false =>
      rw [if_neg (by decide)] at h2 ⊢
      have hm := lineEnds_mem H.old h2
      rw [Tail.lineEnds hm] at h2 ⊢
      exact h2
  | plain h1 h2 =>
    refine .plain h1 ?_
    unfold plainText at h2 ⊢
    rw [h0, h0] at h2 ⊢
    cases fl with
    | true => exact h2
    | false =>
      rw [if_neg (by decide)] at h2 ⊢
      have hm : NL ∈ r := by
        cases r with
        | nil => exact absurd rfl hr
        | cons b r =>
          simp only [Bool.and_eq_true, List.headD_cons, beq_iff_eq] at h2
          rw [h2.2.1.2]
          exact List.mem_cons_self ..
      rw [Tail.dashes_after hm] at h2 ⊢
      exact h2
  | quoted h1 h2 h3 => exact .quoted h1 (by rw [h0] at h2 ⊢; exact h2) (by rw [h0] at h3 ⊢; exact h3)

/-! ### Block scalars -/

theorem line {a b : Nat} (h : LineAt (x ++ y) a b) (hb : b < x.length) : LineAt (x ++ y') a b := by
  obtain ⟨h1, h2, h3⟩ := h
  have hl := H.lt_length (Nat.le_of_lt hb)
  refine ⟨h1, by rw [Joint.slice (Nat.le_of_lt hb)]; exact h2, .inr ?_⟩
  rcases h3 with h3 | h3
  · omega
  · rw [Joint.get hb]; exact h3

theorem rows {fo : Bool} {c p : Nat} {v : Bytes} {hi n q : Nat} (h : BlockRows (x ++ y) fo c p v hi n) (hg : FullGap (x ++ y) hi q) (hh : hi < x.length) (hq : q ≤ x.length) :
    BlockRows (x ++ y') fo c p v hi n := by
  induction h with
  | last h1 h2 h3 h4 h5 =>
    obtain rfl := h4.unique hg
    have hl := h4.le
    have := h2.1
    rw [← Joint.breaks (t' := y') hq]
    exact .last (H.lt_length' (by omega)) (H.line h2 (by omega)) (by rw [Joint.slice (by omega)]; exact h3) (H.full h4 hq) (by rw [Joint.column hq]; exact h5)
  | final h1 h2 h3 h4 h5 =>
    have := h4.unique hg
    have := H.lt_length hq
    omega
  | more h1 h2 h3 h4 h5 h6 ih =>
    have hl := h4.le
    have := h2.1
    have := h6.le
    have := hg.le
    rw [← Joint.breaks (t' := y') (by omega)]
    exact .more (H.lt_length' (by omega)) (H.line h2 (by omega)) (by rw [Joint.slice (by omega)]; exact h3) (H.full h4 (by omega)) (by rw [Joint.column (by omega)]; exact h5) (ih hg hh)

theorem blockBody {fo : Bool} {h : Nat} {v : Bytes} {hi n q : Nat} (hb : BlockBody (x ++ y) fo h v hi n) (hg : FullGap (x ++ y) hi q) (hh : hi < x.length) (hq : q ≤ x.length) :
    BlockBody (x ++ y') fo h v hi n := by
  have hl := hg.le
  have hlt := H.lt_length hq
  cases hb with
  | below h1 h2 h3 =>
    have := h3.le
    have h4 := H.rows h3 hg hh hq
    rw [← Joint.column (t' := y') (by omega)] at h4
    exact .below (H.full h1 (by omega)) (by rw [Joint.breaks (by omega)]; exact h2) h4
  | nothing h1 h2 =>
    have := h1.unique hg
    omega
  | beside h1 h2 h3 h4 h5 =>
    have := h5.unique hg
    omega
  | @both q' e p _ _ _ _ h1 h2 h3 h4 h5 h6 =>
    have := h6.le
    have h7 := h5.le
    have h8 := H.rows h6 hg hh hq
    rw [← Joint.column (t' := y') (by omega)] at h8
    have hq' : q' ≤ e := by
      rcases Nat.lt_or_ge e q' with h9 | h9
      · exfalso
        have := Swap.lineNl (by omega) h3 h9
        have h10 := h3.1
        have h12 : breaksIn (x ++ y) e q' ≤ breaksIn (x ++ y) h q' := by
          unfold breaksIn
          rw [← slice_append h10 (Nat.le_of_lt h9), List.count_append]
          omega
        omega
      · exact h9
    exact .both (H.full h1 (by omega)) (by rw [Joint.breaks (by omega)]; exact h2) (H.line h3 (by omega)) (by rw [Joint.slice (by omega)]; exact h4) (H.full h5 (by omega)) h8

theorem block {lo : Nat} {v : Bytes} {hi q : Nat} (h : BlockAt (x ++ y) lo v hi) (hg : FullGap (x ++ y) hi q) (hh : hi < x.length) (hq : q ≤ x.length) :
    BlockAt (x ++ y') lo v hi := by
  obtain ⟨fo, ch, h, n, w, h1, h2, h3, h4, h5, rfl⟩ := h
  have h6 := h5.le
  exact ⟨fo, ch, h, n, w, h1, Nat.le_of_lt (H.lt_length' (by omega)), by rw [Joint.slice (by omega)]; exact h3, by rw [Joint.getD (by omega)]; exact h4, H.blockBody h5 hg hh hq, rfl⟩

/-! ### Keys -/

theorem keyEnd {p : Nat} (hp : p < x.length) : KeyEnd (x ++ y') p ↔ KeyEnd (x ++ y) p := by
  unfold KeyEnd
  rw [Joint.get hp]
  rcases Nat.lt_or_ge (p + 1) x.length with h | h
  · rw [Joint.getD h]
  · rw [show p + 1 = x.length by omega, Joint.at0, Joint.at0, H.old.ws, H.new.ws]
    have h1 := H.old.nul
    have h2 := H.new.nul
    simp only [h1, h2]

theorem firstKey {k : Bytes} {lo q : Nat} (h : FirstKey (x ++ y) k lo q) (hq : q < x.length) : FirstKey (x ++ y') k lo q := by
  obtain ⟨h1, h2, h3⟩ := h
  refine ⟨h1, by rw [Joint.get hq]; exact h2, ?_⟩
  rw [Joint.slice (by omega), Joint.getD (by omega), H.keyEnd hq]
  rcases h3 with h3 | ⟨h3, h4, h5, h6, h7, h8⟩
  · exact .inl h3
  · refine .inr ⟨h3, h4, ?_, h6, h7, fun p hp1 hp2 => by rw [H.keyEnd (by omega)]; exact h8 p hp1 hp2⟩
    have hd : ∀ z : Bytes, dashes ((x ++ z).drop lo) = ((x ++ z).getD lo 0 == DASH && isWs ((x ++ z).getD (lo + 1) 0)) := fun z => by
      unfold dashes
      rw [List.getD_eq_getElem?_getD, List.getD_eq_getElem?_getD, ← List.head?_drop, List.headD_eq_head?_getD, List.tail_drop, List.headD_eq_head?_getD, List.head?_drop, List.head?_drop]
    rw [hd] at h5 ⊢
    rw [Joint.getD (by omega)]
    rcases Nat.lt_or_ge (lo + 1) x.length with h | h
    · rw [Joint.getD h]; exact h5
    · rw [show q = lo by omega] at h2
      have : (x ++ y).getD lo 0 = COLON := by rw [List.getD_eq_getElem?_getD, h2]; rfl
      rw [this]
      rfl

theorem head {first : Bool} {k : Option Bytes} {lo a : Nat} (h : Head (x ++ y) first k lo a) (ha : a ≤ x.length) : Head (x ++ y') first k lo a := by
  cases k with
  | none =>
    obtain ⟨h1, h2, rfl⟩ := h
    refine ⟨by rw [Joint.get (by omega)]; exact h1, fun hf => ?_, rfl⟩
    rcases Nat.lt_or_ge (lo + 1) x.length with h | h
    · rw [Joint.getD h]; exact h2 hf
    · have := h2 hf
      rw [show lo + 1 = x.length by omega, Joint.at0, H.old.ws] at this
      cases this
  | some k =>
    obtain ⟨q, rfl, h⟩ := h
    cases first with
    | true => exact ⟨q, rfl, H.firstKey h (by omega)⟩
    | false =>
      obtain ⟨h1, h2, h3, h4⟩ := h
      exact ⟨q, rfl, h1, by rw [Joint.get (by omega)]; exact h2, by rw [Joint.slice (by omega)]; exact h3, h4⟩

omit H in
theorem goes {m : Bool} {c q : Nat} (hq : q < x.length) (h : ¬ Goes (x ++ y) m c q) : ¬ Goes (x ++ y') m c q := by
  unfold Goes at h ⊢
  rw [Joint.column (Nat.le_of_lt hq), Joint.get hq, Joint.getD hq]
  exact h

/-- The next item starts at most where `y` starts. -/
theorem nextCell {m blk : Bool} {e : Nat} {last : Bool} {start n : Nat} (hc : y'.headD 0 ≠ COMMA) (he : e < x.length) (hn : n ≤ x.length) (h : NextCell (x ++ y) m blk e last start n) :
    (∃ q, FullGap (x ++ y) e q ∧ q ≤ x.length) ∧ NextCell (x ++ y') m blk e last start n := by
  obtain ⟨c, h1, h2⟩ := h
  rcases h2 with ⟨h2, h3, h4⟩ | ⟨h2, h3, h4, h5⟩
  · have hcn : c < n := by
      split at h4
      · omega
      · have := h4.2.le; omega
    refine ⟨⟨c, ?_, by omega⟩, c, ?_, .inl ⟨h2, by rw [Joint.get (by omega)]; exact h3, ?_⟩⟩
    · split at h1
      · exact h1
      · subst h1
        have hl := (List.getElem?_eq_some_iff.1 h3).1
        have hg : (x ++ y).getD c 0 = COMMA := by rw [List.getD_eq_getElem?_getD, h3]; rfl
        exact ⟨Gap.refl (by omega), by rw [hg]; decide, by rw [hg]; decide⟩
    · split
      · next hm => rw [if_pos hm] at h1; exact H.full h1 (by omega)
      · next hm => rw [if_neg hm] at h1; exact h1
    · split
      · next hm => rw [if_pos hm] at h4; exact h4
      · next hm => rw [if_neg hm] at h4; exact ⟨h4.1, H.full h4.2 (by omega)⟩
  · have := h5.le
    have hcx : c ≤ x.length := by
      split at h1
      · rw [h1.unique h5]; exact hn
      · omega
    refine ⟨⟨n, h5, hn⟩, c, ?_, .inr ⟨h2, ?_, h4, H.full h5 (by omega)⟩⟩
    · split
      · next hm => rw [if_pos hm] at h1; exact H.full h1 (by omega)
      · next hm => rw [if_neg hm] at h1; exact h1
    · rcases Nat.lt_or_ge c x.length with hlt | hge
      · rw [Joint.get hlt]; exact h3
      · intro h6
        have h7 : (x ++ y').getD x.length 0 = COMMA := by rw [List.getD_eq_getElem?_getD, show x.length = c by omega, h6]; rfl
        rw [Joint.at0] at h7
        exact hc h7

/-- The next item starts before `y`. -/
theorem nextCellIn {m blk : Bool} {e : Nat} {last : Bool} {start n : Nat} (hn : n < x.length) (h : NextCell (x ++ y) m blk e last start n) :
    (∃ q, FullGap (x ++ y) e q ∧ q < x.length) ∧ NextCell (x ++ y') m blk e last start n := by
  have he := h.le
  obtain ⟨c, h1, h2⟩ := h
  rcases h2 with ⟨h2, h3, h4⟩ | ⟨h2, h3, h4, h5⟩
  · have hcn : c < n := by
      split at h4
      · omega
      · have := h4.2.le; omega
    refine ⟨⟨c, ?_, by omega⟩, c, ?_, .inl ⟨h2, by rw [Joint.get (by omega)]; exact h3, ?_⟩⟩
    · split at h1
      · exact h1
      · subst h1
        have hl := (List.getElem?_eq_some_iff.1 h3).1
        have hg : (x ++ y).getD c 0 = COMMA := by rw [List.getD_eq_getElem?_getD, h3]; rfl
        exact ⟨Gap.refl (by omega), by rw [hg]; decide, by rw [hg]; decide⟩
    · split
      · next hm => rw [if_pos hm] at h1; exact H.full h1 (by omega)
      · next hm => rw [if_neg hm] at h1; exact h1
    · split
      · next hm => rw [if_pos hm] at h4; exact h4
      · next hm => rw [if_neg hm] at h4; exact ⟨h4.1, H.full h4.2 (by omega)⟩
  · have := h5.le
    have hcx : c < x.length := by
      split at h1
      · rw [h1.unique h5]; exact hn
      · omega
    refine ⟨⟨n, h5, hn⟩, c, ?_, .inr ⟨h2, ?_, h4, H.full h5 (by omega)⟩⟩
    · split
      · next hm => rw [if_pos hm] at h1; exact H.full h1 (by omega)
      · next hm => rw [if_neg hm] at h1; exact h1
    · rw [Joint.get hcx]; exact h3

end Ahead

/-- The value of a key is after a colon. -/
def AfterColon (inp : Bytes) (s : Spot) (lo : Nat) : Prop := ∀ c, s = .under c → ∃ a, inp[a]? = some COLON ∧ FullGap inp (a + 1) lo

theorem AfterColon.flow {inp : Bytes} {lo : Nat} : AfterColon inp .flow lo := nofun

theorem AfterColon.item {inp : Bytes} {first : Bool} {k : Option Bytes} {lo a b c : Nat} (h : Head inp first k lo a) (hg : FullGap inp a b) :
    AfterColon inp (.item c k) b := by
  cases k with
  | none => exact nofun
  | some k =>
    obtain ⟨q, rfl, h⟩ := h
    refine fun _ _ => ⟨q, ?_, hg⟩
    cases first with
    | true => exact h.2.1
    | false => exact h.2.1

mutual
theorem Sits.before {α : Type} {x y y' : Bytes} {V : View α} (H : Ahead x y y') {s : Spot} {v : α} {lo hi q : Nat} :
    Sits (x ++ y) V s v lo hi → FullGap (x ++ y) hi q → hi < x.length → q ≤ x.length → (s = .flow ∨ q < x.length) → AfterColon (x ++ y) s lo → Sits (x ++ y') V s v lo hi
  | .scalar h1 h2 h3 h4, hg, hh, hq, hs, hk => .scalar h1 h2 (Nat.le_of_lt (H.lt_length' (by omega))) (H.token hh h4)
  | .lines h1 h2, hg, hh, hq, hs, hk => .lines h1 (H.block h2 hg hh hq)
  | .open h1 h2 h3 h4, hg, hh, hq, hs, hk => by
    have := H.lt_length (Nat.le_refl _)
    omega
  | .empty h1 h2 h3, hg, hh, hq, hs, hk => by
    rw [← Joint.column (t' := y') (by omega)] at h3
    obtain ⟨a, h5, h6⟩ := hk _ rfl
    obtain ⟨k', q', h4⟩ := H.keys a _ _ _ h5 h6 hh h2
    exact .empty h1 h4 h3
  | .dashes h1 h2 h3, hg, hh, hq, hs, hk => by
    have h4 := h3.le
    have := h3.before H hg (hs.resolve_left h2)
    rw [← Joint.column (t' := y') (by omega)] at this
    exact .dashes h1 h2 this
  | .keys h1 h2 h3, hg, hh, hq, hs, hk => by
    have h4 := h3.le
    have := h3.before H hg (hs.resolve_left h2.1)
    rw [← Joint.column (t' := y') (by omega)] at this h2
    exact .keys h1 h2 this
  | .brackets h1 h2 h3 h4, hg, hh, hq, hs, hk => by
    have h5 := h4.le
    have h7 := h3.le
    exact .brackets h1 (by rw [Joint.get (by omega)]; exact h2) (H.full h3 (by omega)) (h4.before H (by omega))
  | .braces h1 h2 h3 h4, hg, hh, hq, hs, hk => by
    have h5 := h4.le
    have h7 := h3.le
    exact .braces h1 (by rw [Joint.get (by omega)]; exact h2) (H.full h3 (by omega)) (h4.before H (by omega))
theorem Rows.before {α : Type} {x y y' : Bytes} {V : View α} (H : Ahead x y y') {c : Nat} {first : Bool} {l : List (Option Bytes × α)} {lo hi q : Nat} :
    Rows (x ++ y) V c first l lo hi → FullGap (x ++ y) hi q → q < x.length → Rows (x ++ y') V c first l lo hi
  | .last h1 h2 h3 h4 h5 h6, hg, hq => by
    obtain rfl := h5.unique hg
    have h7 := h4.le
    have h8 := h3.le
    have h9 := h2.lt
    have h10 := hg.le
    exact .last (by rw [Joint.column (by omega)]; exact h1) (H.head h2 (by omega)) (H.full h3 (by omega)) (h4.before H hg (by omega) (by omega) (.inr hq) (.item h2 h3))
      (H.full hg (by omega)) (Ahead.goes hq h6)
  | .more h1 h2 h3 h4 h5 h6, hg, hq => by
    have h7 := h4.le
    have h8 := h3.le
    have h9 := h2.lt
    have h10 := hg.le
    have h11 := h6.le
    have h12 := h5.le
    exact .more (by rw [Joint.column (by omega)]; exact h1) (H.head h2 (by omega)) (H.full h3 (by omega)) (h4.before H h5 (by omega) (by omega) (.inr (by omega)) (.item h2 h3))
      (H.full h5 (by omega)) (h6.before H hg hq)
theorem Cells.before {α : Type} {x y y' : Bytes} {V : View α} (H : Ahead x y y') {m last : Bool} {l : List (Option Bytes × α)} {n hi : Nat} :
    Cells (x ++ y) V m last l n hi → hi < x.length → Cells (x ++ y') V m last l n hi
  | .none h, hq => .none (by rw [Joint.get hq]; exact h)
  | .final h1 h2 h3 h4 h5 h6, hq => by
    have h7 := h4.le
    have h8 := h3.le
    have h9 := h2.le
    have h10 := h5.le
    exact .final (by unfold Opens; rw [Joint.getD (by omega)]; exact h1) (Joint.cellHead h2 (by omega)) (H.full h3 (by omega))
      (h4.before H h5 (by omega) (by omega) (.inl rfl) .flow) (H.full h5 (by omega)) (by rw [Joint.get hq]; exact h6)
  | .cell (start := start) h1 h2 h3 h4 h5 h6, hq => by
    have h7 := h4.le
    have h8 := h3.le
    have h9 := h2.le
    have h10 := h6.le
    obtain ⟨⟨q, h11, h12⟩, h13⟩ := H.nextCellIn (by omega) h5
    have h14 := h11.le
    refine .cell (by unfold Opens; rw [Joint.getD (by omega)]; exact h1) (Joint.cellHead h2 (by omega)) (H.full h3 (by omega)) (h4.before H h11 (by omega) (by omega) (.inl rfl) .flow)
      (?_ : NextCell _ _ _ _ _ start _) (h6.before H hq)
    unfold atBlock at h13 ⊢
    rw [Joint.getD (by omega)]
    exact h13
end

end Verif
