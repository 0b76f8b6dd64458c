import Verif.BlockTail
/-
A new item at the end of a block collection anywhere in a text: helper lemmas for C87.
-/
namespace Verif

mutual
/-- The value can be followed by an item of a collection that it is in, in column `c` (`m`: of a mapping): it does not end with a block scalar (or with one that keeps no line breaks, see `Strips`), and the item
is not taken for one of its own.  If it ends with a missing value (`f`: this is allowed), this is one of a mapping that is not to the left of column `c`; `p` is the column of the collection that it is in.
The lines of the block scalar are further to the right than column `k`. -/
def Tree.tailOk {α : Type} (c : Nat) (m f : Bool) (p : Nat) (t : Tree α) (k : Nat := c) : Prop :=
  match t with
  | .leaf _ _ sc => (sc.write = [] → f = true ∧ c ≤ p) ∧ (sc.write.headD 0 ≠ PIPE ∧ sc.write.headD 0 ≠ GT ∨ Strips k sc.write sc.value)
  | .node _ _ m' ind .block items => (ind = c → m' = false ∧ m = true) ∧ items.tailOk c m f ind k
  | .node _ _ _ _ (.inline _ _) _ => True
def Items.tailOk {α : Type} (c : Nat) (m f : Bool) (p : Nat) (l : Items α) (k : Nat := c) : Prop :=
  match l with
  | .nil => True
  | .cons _ _ _ v .nil => v.tailOk c m f p k
  | .cons _ _ _ _ rest => rest.tailOk c m f p k
end

/-- The value ends at `e`, not in an inline collection. -/
def LiesTo (inp : Bytes) (v : Tree Unit) (e : Nat) : Prop := ∃ s a, s ≠ .flow ∧ Lies inp s a v e

/-- After `x` comes `y`, or `y'` instead: this starts with a line break, and the first thing on the new line is at `n`, in column `c`; `f`: it is a key. -/
structure Under (x y y' : Bytes) (n c : Nat) (f : Bool) : Prop where
  ne : y ≠ []
  nl : y'.head? = some NL
  gap : FullGap (x ++ y') x.length n
  col : columnAt (x ++ y') n = c
  keys : KeysStay x y y'
  first : f = true → ∃ k q, FirstKey (x ++ y') k n q

theorem NL_ws : isWs NL = true := by decide

theorem Items.tailOk_cons {α : Type} {c : Nat} {m f : Bool} {p0 k : Nat} {i : α} {p : Bytes} {key : RStr} {v : Tree α} {rest : Items α} (hr : rest.isNil = false) (h : (Items.cons i p key v rest).tailOk c m f p0 k) : rest.tailOk c m f p0 k := by
  cases rest with
  | nil => cases hr
  | cons => simpa only [Items.tailOk] using h

theorem LiesRows.notNil {inp : Bytes} {m : Bool} {c : Nat} {first : Bool} {ip : Bytes} {lo : Nat} {items : Items Unit} {e : Nat} (h : LiesRows inp m c first ip lo items e) : items.isNil = false := by
  cases h <;> rfl

theorem LiesRows.ends_lt {inp : Bytes} {m : Bool} {c : Nat} {first : Bool} {ip : Bytes} {lo : Nat} {items : Items Unit} {e : Nat} (h : LiesRows inp m c first ip lo items e) : lo < e := by
  cases h with
  | last _ h2 _ h4 =>
    obtain ⟨lo, hi, k1, k2, k3, -⟩ := h4.sits
    have := h2.lt
    have := k1.le
    rcases k3 with ⟨-, k3⟩ | ⟨-, k3, -⟩ <;> omega
  | more _ h2 _ h4 h5 h6 =>
    obtain ⟨lo, hi, k1, k2, k3, -⟩ := h4.sits
    have := h2.lt
    have := k1.le
    have := h5.le
    obtain ⟨_, _, k4, _⟩ := h6.sits
    rcases k3 with ⟨-, k3⟩ | ⟨-, k3, -⟩ <;> omega

namespace Under

variable {x y y' : Bytes} {n c : Nat} {f : Bool} (U : Under x y y' n c f)
include U

theorem head' : y'.headD 0 = NL := by rw [List.headD_eq_head?_getD, U.nl]; rfl

theorem lt : x.length < n := by
  rcases Nat.lt_or_ge x.length n with h | h
  · exact h
  · have := U.gap.le
    obtain rfl : n = x.length := by omega
    have := U.gap.2.1
    rw [Joint.at0, U.head'] at this
    exact absurd this (by decide)

theorem token {lo : Nat} {a : AnyV} (hlo : lo < x.length) (h : Token false ((x ++ y).drop x.length) (slice (x ++ y) lo x.length) a) :
    Token false ((x ++ y').drop x.length) (slice (x ++ y') lo x.length) a := by
  have hlen : (slice x lo x.length).length = x.length - lo := slice_length (Nat.le_refl _)
  rw [List.drop_left, append_slice (Nat.le_refl _)] at h ⊢
  generalize slice x lo x.length = s at h hlen
  have hh := U.head'
  have hne := U.ne
  cases h with
  | number h1 h2 =>
    refine .number h1 ?_
    rw [if_neg (by decide)]
    cases y' with
    | nil => exact absurd hh (by decide)
    | cons b r =>
      obtain rfl : b = NL := hh
      rfl
  | plain h1 h2 =>
    refine .plain h1 ?_
    unfold plainText at h2 ⊢
    rw [if_neg (by decide)] at h2 ⊢
    simp only [Bool.and_eq_true, beq_iff_eq, Bool.not_eq_true'] at h2 ⊢
    refine ⟨h2.1, ⟨h2.2.1.1, ?_⟩, ?_⟩
    · cases y' with
      | nil => rfl
      | cons b r => exact hh
    · match s, hlen with
      | [], hlen => simp at hlen; omega
      | [b], _ =>
        have h3 := h2.2.1.2
        have h4 := h2.2.2
        cases y with
        | nil => exact absurd rfl hne
        | cons b' r =>
          obtain rfl : b' = NL := h3
          have h5 : (b == DASH && isWs NL) = false := h4
          rw [NL_ws, Bool.and_true] at h5
          show (b == DASH && _) = false
          rw [h5]; rfl
      | b :: b' :: s, _ => exact h2.2.2
  | quoted h1 h2 h3 => exact .quoted h1 (by rw [hh]; decide) (by rw [hh]; intro; decide)

end Under

theorem Lies.rows {inp : Bytes} {s : Spot} {a lo hi c : Nat} {m : Bool} {pre : Bytes} {items : Items Unit} (hg : FullGap inp a lo) (hp : pre = slice inp a lo) (hc : columnAt inp lo = c)
    (hs : s ≠ .flow) (hk : m = true → s.allows c) (hr : LiesRows inp m c true [] lo items hi) : Lies inp s a (.node () pre m c .block items) hi := by
  subst hp
  subst hc
  cases m with
  | false => exact .dashes hg hs hr
  | true => exact .keys hg (hk rfl) hr

mutual
theorem Lies.restG {x y y' : Bytes} {n c0 c : Nat} {m f : Bool} (U : Under x y y' n c0 f) (hm : ∀ m' ind, (ind = c → m' = false ∧ m = true) → ¬ Goes (x ++ y') m' ind n) (hc0 : f = true → c0 = c) {k : Nat} (hcl : c0 ≤ k) (hf : followed (x ++ y) = true) {s : Spot} {a : Nat} {t : Tree Unit}
    {e p : Nat} : Lies (x ++ y) s a t e → e = x.length → s ≠ .flow → t.tailOk c m f p k → (∀ c', s = .under c' → c' = p) → a ≤ x.length ∧ Lies (x ++ y') s a t x.length
  | .scalar (lo := lo) h1 h2 h3 h4 h5, he, hs, ht, hp => by
    subst he
    rw [Tree.tailOk] at ht
    have hlt : lo < x.length := by
      rcases Nat.lt_or_ge lo x.length with h | h
      · exact h
      · exfalso
        rw [List.drop_left, slice_none h] at h4
        obtain rfl : lo = x.length := by omega
        have hw := h1.2.1
        rw [Joint.at0] at hw
        have hy := U.ne
        have hi : s.inline = false := by cases s <;> first | rfl | exact absurd rfl hs
        rw [hi] at h4
        generalize Scalar.value _ = av at h4
        generalize hsl : ([] : Bytes) = e at h4
        cases h4 with
        | number h1 =>
          subst hsl
          exact absurd h1 (by decide)
        | plain h1 h2 =>
          unfold plainText at h2
          rw [if_neg (by decide)] at h2
          simp only [Bool.and_eq_true, beq_iff_eq] at h2
          cases y with
          | nil => exact hy rfl
          | cons b r =>
            obtain rfl : b = NL := h2.2.1.2
            have hw : isWs NL = false := hw
            exact absurd hw (by decide)
        | quoted h1 => subst hsl; rcases inQuotes_hd h1 with h | h <;> cases h
    have hi : s.inline = false := by cases s <;> first | rfl | exact absurd rfl hs
    have := h1.le
    refine ⟨by omega, ?_⟩
    rw [← Joint.slice (t' := y') (by omega)]
    refine .scalar (Inner.full h1 hlt) h2 (by simp) ?_ (by rw [h5]; exact (Joint.slice (Nat.le_refl _)).symm)
    rw [hi] at h4 ⊢
    exact U.token hlt h4
  | .open h1 h2 h3 h4 h5, he, hs, ht, hp => by
    have := List.length_pos_iff.2 U.ne
    rw [List.length_append] at he
    omega
  | .lines (lo := lo) (hi := hi) h1 h2 h3 h4 h5, he, hs, ht, hp => by
    rw [Tree.tailOk] at ht
    have hb := h2.atBlock
    have hl := h2.bounds
    have h5 := h5.resolve_right (by rw [hf]; rintro ⟨h, -⟩; cases h)
    have hlt : lo < x.length := by omega
    have hg := h1.le
    rcases ht.2 with ht | ht
    · rw [h5, slice_headD hl.1] at ht
      unfold atBlock at hb
      rw [beq_eq_false_iff_ne.2 ht.1, beq_eq_false_iff_ne.2 ht.2] at hb
      cases hb
    · rw [h5, h3] at ht
      refine ⟨by omega, ?_⟩
      have hB := NewTail.block U.ne U.nl U.gap h2 (by rw [U.col]; exact hcl) he ht
      rw [← Joint.slice (t' := y') (by omega)]
      subst he
      exact .lines (Inner.full h1 hlt) hB h3 (by simp) (.inl (by rw [h5]; exact (Joint.slice (Nat.le_refl _)).symm))
  | .empty (c := c1) h1 h2 h3, he, hs, ht, hp => by
    rw [Tree.tailOk] at ht
    subst he
    obtain ⟨hf, hc⟩ := ht.1 rfl
    obtain ⟨key, q, hk⟩ := U.first hf
    have := hp c1 rfl
    exact ⟨Nat.le_refl _, .empty U.gap hk (by rw [U.col, hc0 hf]; omega)⟩
  | .dashes (lo := lo) h1 h2 h3, he, hs, ht, hp => by
    rw [Tree.tailOk] at ht
    have hlt := h3.ends_lt
    rw [he] at hlt
    have k2 := (h3.restG U hm hc0 hcl hf he ht.2).1
    have := h1.le
    refine ⟨by omega, ?_⟩
    rw [← Joint.slice (t' := y') (by omega)]
    rw [← Joint.column (t' := y') (by omega)] at k2 ht ⊢
    exact .dashes (Inner.full h1 hlt) h2 (k2 (hm _ _ ht.1))
  | .keys (lo := lo) h1 h2 h3, he, hs, ht, hp => by
    rw [Tree.tailOk] at ht
    have hlt := h3.ends_lt
    rw [he] at hlt
    have k2 := (h3.restG U hm hc0 hcl hf he ht.2).1
    have := h1.le
    refine ⟨by omega, ?_⟩
    rw [← Joint.slice (t' := y') (by omega)]
    rw [← Joint.column (t' := y') (by omega)] at k2 ht h2 ⊢
    exact .keys (Inner.full h1 hlt) h2 (k2 (hm _ _ ht.1))
  | .brackets (lo := lo) h1 h2 h3 h4 h5, he, hs, ht, hp => by
    have h7 := h4.le
    have h8 := h3.le
    have := h1.le
    refine ⟨by omega, ?_⟩
    have h9 := h4.inner U.keys hf (by omega)
    rw [← Joint.slice (t' := y') (by omega)] at h9
    rw [← Joint.slice (t' := y') (by omega), ← he]
    exact .brackets (Inner.full h1 (by omega)) (by rw [Joint.get (by omega)]; exact h2) (Inner.full h3 (by omega)) h9 h5
  | .braces (lo := lo) h1 h2 h3 h4 h5, he, hs, ht, hp => by
    have h7 := h4.le
    have h8 := h3.le
    have := h1.le
    refine ⟨by omega, ?_⟩
    have h9 := h4.inner U.keys hf (by omega)
    rw [← Joint.slice (t' := y') (by omega)] at h9
    rw [← Joint.slice (t' := y') (by omega), ← he]
    exact .braces (Inner.full h1 (by omega)) (by rw [Joint.get (by omega)]; exact h2) (Inner.full h3 (by omega)) h9 h5
theorem LiesRows.restG {x y y' : Bytes} {n c0 c : Nat} {m f : Bool} (U : Under x y y' n c0 f) (hm : ∀ m' ind, (ind = c → m' = false ∧ m = true) → ¬ Goes (x ++ y') m' ind n) (hc0 : f = true → c0 = c) {k : Nat} (hcl : c0 ≤ k) (hf : followed (x ++ y) = true) {m' : Bool} {c' : Nat}
    {first : Bool} {ip : Bytes} {lo : Nat} {items : Items Unit} {e : Nat} : LiesRows (x ++ y) m' c' first ip lo items e → e = x.length → items.tailOk c m f c' k →
    (¬ Goes (x ++ y') m' c' n → LiesRows (x ++ y') m' c' first ip lo items x.length) ∧
      ∀ l E, LiesRows (x ++ y') m' c' false (slice (x ++ y') x.length n) n l E → LiesRows (x ++ y') m' c' first ip lo (items.append l) E
  | .last h1 h2 h3 h4 h5 h6, he, ht => by
    rw [Items.tailOk] at ht
    obtain ⟨k1, k4⟩ := h4.restG U hm hc0 hcl hf he (Spot.item_ne _ _) ht (by
      intro c0 hc0
      unfold Spot.item at hc0
      split at hc0
      · exact (Spot.under.inj hc0).symm
      · cases hc0)
    have h8 := h2.lt
    have hw : isWs (y'.headD 0) = true := by rw [U.head']; decide
    refine ⟨fun hg => ?_, fun l E hl => ?_⟩
    · exact .last (by rw [Joint.column (by omega)]; exact h1) (Inner.head' h2 k1 hw) (by rw [h3]; exact (Joint.slice (by omega)).symm) k4 U.gap hg
    · exact .more (by rw [Joint.column (by omega)]; exact h1) (Inner.head' h2 k1 hw) (by rw [h3]; exact (Joint.slice (by omega)).symm) k4 U.gap hl
  | .more (lo' := lo') h1 h2 h3 h4 h5 h6, he, ht => by
    obtain ⟨k2, k3⟩ := h6.restG U hm hc0 hcl hf he (Items.tailOk_cons h6.notNil ht)
    have hlt := h6.ends_lt
    have h7 := h4.le
    have h8 := h2.lt
    have h9 := h5.le
    have hs := h4.inner U.keys hf h5 (by omega) (.item h2)
    have hsl : ∀ e0, slice (x ++ y') e0 lo' = slice (x ++ y) e0 lo' := fun _ => Joint.slice (by omega)
    refine ⟨fun hg => ?_, fun l E hl => ?_⟩
    · exact .more (by rw [Joint.column (by omega)]; exact h1) (Inner.head h2 (by omega)) (by rw [h3]; exact (Joint.slice (by omega)).symm) hs (Inner.full h5 (by omega)) (by rw [hsl]; exact k2 hg)
    · exact .more (by rw [Joint.column (by omega)]; exact h1) (Inner.head h2 (by omega)) (by rw [h3]; exact (Joint.slice (by omega)).symm) hs (Inner.full h5 (by omega)) (by rw [hsl]; exact k3 l E hl)
end

theorem Under.notGoes {x y y' : Bytes} {n c : Nat} {m f : Bool} (U : Under x y y' n c f) (hm : (x ++ y')[n]? = some DASH → m = false) (m' : Bool) (ind : Nat) (h : ind = c → m' = false ∧ m = true) :
    ¬ Goes (x ++ y') m' ind n := by
  rintro ⟨g1, g2⟩
  rw [U.col] at g1
  obtain ⟨rfl, rfl⟩ := h g1.symm
  cases hm g2

theorem Lies.rest {x y y' : Bytes} {n c : Nat} {m f : Bool} (U : Under x y y' n c f) (hm : (x ++ y')[n]? = some DASH → m = false) (hf : followed (x ++ y) = true) {s : Spot} {a : Nat} {t : Tree Unit}
    {e p : Nat} (h : Lies (x ++ y) s a t e) : e = x.length → s ≠ .flow → t.tailOk c m f p → (∀ c', s = .under c' → c' = p) → a ≤ x.length ∧ Lies (x ++ y') s a t x.length :=
  h.restG U (U.notGoes hm) (fun _ => rfl) (Nat.le_refl _) hf

theorem LiesRows.rest {x y y' : Bytes} {n c : Nat} {m f : Bool} (U : Under x y y' n c f) (hm : (x ++ y')[n]? = some DASH → m = false) (hf : followed (x ++ y) = true) {m' : Bool} {c' : Nat}
    {first : Bool} {ip : Bytes} {lo : Nat} {items : Items Unit} {e : Nat} (h : LiesRows (x ++ y) m' c' first ip lo items e) : e = x.length → items.tailOk c m f c' →
    (¬ Goes (x ++ y') m' c' n → LiesRows (x ++ y') m' c' first ip lo items x.length) ∧
      ∀ l E, LiesRows (x ++ y') m' c' false (slice (x ++ y') x.length n) n l E → LiesRows (x ++ y') m' c' first ip lo (items.append l) E :=
  h.restG U (U.notGoes hm) (fun _ => rfl) (Nat.le_refl _) hf

end Verif
