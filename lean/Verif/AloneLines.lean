import Verif.Alone
import Verif.PutInner
import Verif.PutDocs
/-
The text of a block scalar without what is around it: helper lemmas for C91.
-/
namespace Verif

theorem full_line (x : Bytes) : FullGap (x ++ [NL]) x.length (x.length + 1) := by
  have := @sh_full x [NL] 0 1
  rw [Nat.add_zero] at this
  exact this.2 ⟨⟨by omega, by simp, .inl rfl⟩, by decide, by decide⟩

theorem breaks_line (x : Bytes) : breaksIn (x ++ [NL]) x.length (x.length + 1) = 1 := by
  have := sh_breaks x (y := [NL]) (a := 0) (b := 1)
  rw [Nat.add_zero] at this
  rw [this]; rfl

namespace LastLine

variable {x t : Bytes}

theorem line {a b : Nat} (h : LineAt (x ++ t) a b) (hb : b ≤ x.length) (hl : b < (x ++ t).length) : LineAt (x ++ [NL]) a b := by
  obtain ⟨h1, h2, h3⟩ := h
  refine ⟨h1, by rw [Joint.slice hb]; exact h2, .inr ?_⟩
  rcases Nat.lt_or_ge b x.length with h | h
  · rw [Joint.get h]; exact h3.resolve_left (by omega)
  · obtain rfl : b = x.length := by omega
    simp

/-- The lines of a block scalar after which something follows, with only a line break after them. -/
theorem rows {fo : Bool} {c p : Nat} {v : Bytes} {hi n q : Nat} (h : BlockRows (x ++ t) fo c p v hi n) (hg : FullGap (x ++ t) hi q) (hq : q < (x ++ t).length) (hx : hi = x.length) :
    n = breaksIn (x ++ t) hi q ∧ BlockRows (x ++ [NL]) fo c p v hi 1 := by
  induction h with
  | @last p e _ _ h1 h2 h3 h4 h5 =>
    obtain rfl := h4.unique hg
    have hl := h4.le
    have := h2.1
    refine ⟨rfl, ?_⟩
    have hb : breaksIn (x ++ [NL]) e (x.length + 1) = 1 := by rw [hx]; exact breaks_line x
    rw [← hb]
    exact .last (by simp; omega) (line h2 (by omega) (by omega)) (by rw [Joint.slice (by omega)]; exact h3) (by rw [hx]; exact full_line x) (by rw [columnAt_nl]; omega)
  | final h1 h2 h3 h4 h5 =>
    have := h4.unique hg
    omega
  | @more p e q' hi n t' v h1 h2 h3 h4 h5 h6 ih =>
    have hl := h4.le
    have := h2.1
    have h7 := h6.le
    have := hg.le
    have hlt : q' < x.length := by
      rcases Nat.lt_or_ge q' x.length with h | h
      · exact h
      · obtain rfl : q' = hi := by omega
        rcases h6.ends with h8 | h8
        · omega
        · have := h4.2.1
          rw [List.getD_eq_getElem?_getD, h8] at this
          exact absurd this (by decide)
    obtain ⟨g1, g2⟩ := ih hg hx
    refine ⟨g1, ?_⟩
    rw [← Joint.breaks (t' := [NL]) (by omega)]
    exact .more (by simp; omega) (line h2 (by omega) (by omega)) (by rw [Joint.slice (by omega)]; exact h3) (Inner.full h4 hlt) (by rw [Joint.column (by omega)]; exact h5) g2

theorem start {fo : Bool} {c p e : Nat} {v : Bytes} {hi n q : Nat} (h : BlockRows (x ++ t) fo c p v hi n) (h4 : FullGap (x ++ t) e p) (hg : FullGap (x ++ t) hi q) (hq : q < (x ++ t).length) (hx : hi = x.length) : p < x.length := by
  have h7 := h.le
  have := hg.le
  rcases Nat.lt_or_ge p x.length with h' | h'
  · exact h'
  · obtain rfl : p = hi := by omega
    rcases h.ends with h8 | h8
    · omega
    · have := h4.2.1
      rw [List.getD_eq_getElem?_getD, h8] at this
      exact absurd this (by decide)

theorem body {fo : Bool} {h : Nat} {v : Bytes} {hi n q : Nat} (hb : BlockBody (x ++ t) fo h v hi n) (hg : FullGap (x ++ t) hi q) (hq : q < (x ++ t).length) (hx : hi = x.length) :
    n = breaksIn (x ++ t) hi q ∧ h < x.length ∧ BlockBody (x ++ [NL]) fo h v hi 1 := by
  have hl := hg.le
  cases hb with
  | below h1 h2 h3 =>
    have := h3.le
    have h5 := start h3 h1 hg hq hx
    obtain ⟨g1, g2⟩ := rows h3 hg hq hx
    rw [← Joint.column (t' := [NL]) (by omega)] at g2
    have := h1.le
    exact ⟨g1, by omega, .below (Inner.full h1 h5) (by rw [Joint.breaks (by omega)]; exact h2) g2⟩
  | nothing h1 h2 =>
    have := h1.unique hg
    omega
  | beside h1 h2 h3 h4 h5 =>
    have := h5.unique hg
    omega
  | @both q' e p _ _ _ _ h1 h2 h3 h4 h5 h6 =>
    have := h6.le
    have h7 := h5.le
    have h8 := start h6 h5 hg hq hx
    obtain ⟨g1, g2⟩ := rows h6 hg hq hx
    rw [← Joint.column (t' := [NL]) (by omega)] at g2
    have hq' : q' ≤ e := by
      rcases Nat.lt_or_ge e q' with h9 | h9
      · exfalso
        have := Swap.lineNl (by omega) h3 h9
        have h10 := h3.1
        have h12 : breaksIn (x ++ t) e q' ≤ breaksIn (x ++ t) h q' := by
          unfold breaksIn
          rw [← slice_append h10 (Nat.le_of_lt h9), List.count_append]
          omega
        omega
      · exact h9
    have := h1.le
    have := h3.1
    exact ⟨g1, by omega, .both (Inner.full h1 (by omega)) (by rw [Joint.breaks (by omega)]; exact h2) (line h3 (by omega) (by omega)) (by rw [Joint.slice (by omega)]; exact h4) (Inner.full h5 h8) g2⟩

/-- A block scalar after which something follows, with only a line break after it. -/
theorem block {lo : Nat} {v : Bytes} {hi q : Nat} (h : BlockAt (x ++ t) lo v hi) (hg : FullGap (x ++ t) hi q) (hq : q < (x ++ t).length) (hx : hi = x.length)
    (hn : slice (x ++ t) lo (lo + 2) ∈ [b! "|-", b! ">-"] ∨ breaksIn (x ++ t) hi q = 1) : BlockAt (x ++ [NL]) lo v hi := by
  obtain ⟨fo, ch, h, n, w, h1, h2, h3, h4, h5, rfl⟩ := h
  have h6 := h5.le
  obtain ⟨g1, g2, g3⟩ := body h5 hg hq hx
  refine ⟨fo, ch, h, 1, w, h1, by simp; omega, by rw [Joint.slice (by omega)]; exact h3, by rw [Joint.getD (by omega)]; exact h4, g3, ?_⟩
  rcases hn with hn | hn
  · have h7 : (x ++ t)[lo + 1]? = some DASH := by
      simp only [List.mem_cons, List.not_mem_nil, or_false] at hn
      have : (slice (x ++ t) lo (lo + 2))[1]? = some DASH := by rcases hn with hn | hn <;> (rw [hn]; rfl)
      simpa [slice, List.getElem?_drop] using this
    have hlen := congrArg List.length h3
    rw [slice_length h2] at hlen
    have : ch = .strip := by
      cases ch with
      | strip => rfl
      | clip =>
        simp [Chomp.text] at hlen
        have := (h4 rfl).1
        rw [show h = lo + 1 by omega, List.getD_eq_getElem?_getD, h7] at this
        exact absurd rfl this
      | keep =>
        simp [Chomp.text] at hlen
        have h8 : (slice (x ++ t) lo h)[1]? = some DASH := by
          rw [show h = lo + 2 by omega]
          simpa [slice, List.getElem?_drop] using h7
        rw [h3] at h8
        exact absurd h8 (by cases fo <;> decide)
    subst this
    rfl
  · rw [g1, hn]

end LastLine

end Verif
