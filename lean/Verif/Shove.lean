import Verif.ExactRules
import Verif.ExactLead
/-
A text put after whole lines: every value is where it was, moved by the length of the lines.
-/
namespace Verif

/-- `p` is nothing, or ends with a line break. -/
def Whole (p : Bytes) : Prop := p = [] ∨ p.getLast? = some NL

section
variable {p y : Bytes}

theorem sh_len (p y : Bytes) : (p ++ y).length = p.length + y.length := List.length_append

theorem sh_get (p y : Bytes) (n : Nat) : (p ++ y)[p.length + n]? = y[n]? := by
  rw [List.getElem?_append_right (by omega), Nat.add_sub_cancel_left]

theorem sh_getD (p y : Bytes) (n : Nat) (d : UInt8) : (p ++ y).getD (p.length + n) d = y.getD n d := by
  rw [List.getD_eq_getElem?_getD, List.getD_eq_getElem?_getD, sh_get]

theorem sh_drop (p y : Bytes) (n : Nat) : (p ++ y).drop (p.length + n) = y.drop n := by
  rw [← List.drop_drop, List.drop_left]

theorem sh_slice (p y : Bytes) (a b : Nat) : slice (p ++ y) (p.length + a) (p.length + b) = slice y a b := by
  unfold slice
  rw [sh_drop, show p.length + b - (p.length + a) = b - a by omega]

theorem sh_breaks (p y : Bytes) (a b : Nat) : breaksIn (p ++ y) (p.length + a) (p.length + b) = breaksIn y a b := by
  unfold breaksIn
  rw [sh_slice]

theorem sh_col (hp : Whole p) (n : Nat) : columnAt (p ++ y) (p.length + n) = columnAt y n := by
  unfold columnAt
  have h0 : p.reverse.takeWhile (· != NL) = [] := by
    rcases hp with rfl | hp
    · rfl
    · obtain ⟨a, rfl⟩ := List.getLast?_eq_some_iff.1 hp
      rw [List.reverse_append]
      rfl
  rw [List.take_append, List.take_of_length_le (by omega), Nat.add_sub_cancel_left, List.reverse_append, List.takeWhile_append, h0]
  split
  · next h =>
    rw [List.append_nil]
    rw [(List.takeWhile_sublist _).eq_of_length h]
  · rfl

theorem sh_full {a b : Nat} : FullGap (p ++ y) (p.length + a) (p.length + b) ↔ FullGap y a b := by
  unfold FullGap Gap
  rw [sh_slice, sh_getD, sh_len]
  constructor
  · rintro ⟨⟨h1, h2, h3⟩, h4⟩
    exact ⟨⟨by omega, by omega, h3.imp_right fun h => ⟨by omega, h.2⟩⟩, h4⟩
  · rintro ⟨⟨h1, h2, h3⟩, h4⟩
    exact ⟨⟨by omega, by omega, h3.imp_right fun h => ⟨by omega, h.2⟩⟩, h4⟩

theorem sh_full1 {a b : Nat} (h : FullGap y (a + 1) b) : FullGap (p ++ y) (p.length + a + 1) (p.length + b) := sh_full (a := a + 1).2 h

theorem sh_line {a b : Nat} (h : LineAt y a b) : LineAt (p ++ y) (p.length + a) (p.length + b) := by
  unfold LineAt at h ⊢
  rw [sh_slice, sh_get, sh_len]
  exact ⟨by omega, h.2.1, h.2.2.imp_left fun h => by omega⟩

theorem sh_rows (hp : Whole p) {fo : Bool} {c a : Nat} {v : Bytes} {hi n : Nat} (h : BlockRows y fo c a v hi n) :
    BlockRows (p ++ y) fo c (p.length + a) v (p.length + hi) n := by
  induction h with
  | last h1 h2 h3 h4 h5 =>
    rw [← sh_breaks p]
    exact .last (by rw [sh_len]; omega) (sh_line h2) (by rw [sh_slice]; exact h3) (sh_full.2 h4) (by rw [sh_col hp]; exact h5)
  | final h1 h2 h3 h4 h5 =>
    rw [← sh_breaks p]
    rw [← sh_full (p := p)] at h4
    rw [← sh_col hp] at h5
    simp only [← sh_len] at h4 h5 ⊢
    exact .final (by rw [sh_len]; omega) (sh_line h2) (by rw [sh_slice]; exact h3) h4 h5
  | more h1 h2 h3 h4 h5 _ ih =>
    rw [← sh_breaks p]
    exact .more (by rw [sh_len]; omega) (sh_line h2) (by rw [sh_slice]; exact h3) (sh_full.2 h4) (by rw [sh_col hp]; exact h5) ih

theorem sh_body (hp : Whole p) {fo : Bool} {h : Nat} {v : Bytes} {hi n : Nat} (hb : BlockBody y fo h v hi n) :
    BlockBody (p ++ y) fo (p.length + h) v (p.length + hi) n := by
  cases hb with
  | below h1 h2 h3 =>
    have := sh_rows hp h3
    rw [← sh_col hp] at this
    exact .below (sh_full.2 h1) (by rw [sh_breaks]; exact h2) this
  | nothing h1 h2 =>
    rw [← sh_full (p := p)] at h1
    rw [← sh_breaks p] at h2 ⊢
    simp only [← sh_len] at h1 h2 ⊢
    exact .nothing h1 h2
  | beside h1 h2 h3 h4 h5 =>
    rw [← sh_full (p := p)] at h5
    rw [← sh_breaks p]
    simp only [← sh_len] at h5 ⊢
    exact .beside (sh_full.2 h1) (by rw [sh_breaks]; exact h2) (sh_line h3) (by rw [sh_slice]; exact h4) h5
  | both h1 h2 h3 h4 h5 h6 =>
    have := sh_rows hp h6
    rw [← sh_col hp] at this
    exact .both (sh_full.2 h1) (by rw [sh_breaks]; exact h2) (sh_line h3) (by rw [sh_slice]; exact h4) (sh_full.2 h5) this

theorem sh_block (hp : Whole p) {lo : Nat} {v : Bytes} {hi : Nat} (h : BlockAt y lo v hi) : BlockAt (p ++ y) (p.length + lo) v (p.length + hi) := by
  obtain ⟨fo, ch, h, n, w, h1, h2, h3, h4, h5, rfl⟩ := h
  exact ⟨fo, ch, p.length + h, n, w, by omega, by rw [sh_len]; omega, by rw [sh_slice]; exact h3, by rw [sh_getD]; exact h4, sh_body hp h5, rfl⟩

theorem sh_keyEnd {n : Nat} : KeyEnd (p ++ y) (p.length + n) ↔ KeyEnd y n := by
  unfold KeyEnd
  rw [sh_get, show p.length + n + 1 = p.length + (n + 1) from rfl, sh_getD]

theorem sh_firstKey {k : Bytes} {lo q : Nat} : FirstKey (p ++ y) k (p.length + lo) (p.length + q) ↔ FirstKey y k lo q := by
  unfold FirstKey
  rw [sh_get, sh_slice, sh_getD, sh_drop, sh_keyEnd]
  have hall : (∀ n, p.length + lo ≤ n → n < p.length + q → ¬ KeyEnd (p ++ y) n) ↔ ∀ n, lo ≤ n → n < q → ¬ KeyEnd y n := by
    constructor
    · intro h n h1 h2
      rw [← sh_keyEnd (p := p)]
      exact h _ (by omega) (by omega)
    · intro h n h1 h2
      obtain ⟨j, rfl⟩ := Nat.exists_eq_add_of_le (show p.length ≤ n by omega)
      rw [sh_keyEnd]
      exact h _ (by omega) (by omega)
  rw [hall, Nat.add_le_add_iff_left]

theorem sh_head {first : Bool} {k : Option Bytes} {lo a : Nat} (h : Head y first k lo a) : Head (p ++ y) first k (p.length + lo) (p.length + a) := by
  cases k with
  | none =>
    obtain ⟨h1, h2, rfl⟩ := h
    refine ⟨by rw [sh_get]; exact h1, ?_, rfl⟩
    rw [show p.length + lo + 1 = p.length + (lo + 1) from rfl, sh_getD]
    exact h2
  | some k =>
    obtain ⟨q, rfl, h⟩ := h
    refine ⟨p.length + q, rfl, ?_⟩
    cases first with
    | true => exact sh_firstKey.2 h
    | false =>
      obtain ⟨h1, h2, h3, h4⟩ := h
      exact ⟨by omega, by rw [sh_get]; exact h2, by rw [sh_slice]; exact h3, h4⟩

theorem sh_goes (hp : Whole p) {m : Bool} {c q : Nat} : Goes (p ++ y) m c (p.length + q) ↔ Goes y m c q := by
  unfold Goes
  rw [sh_col hp, sh_getD, sh_get]

theorem sh_cellHead {k : Option Bytes} {lo a : Nat} (h : CellHead y k lo a) : CellHead (p ++ y) k (p.length + lo) (p.length + a) := by
  cases k with
  | none => rw [show a = lo from h]; exact rfl
  | some k =>
    obtain ⟨q, h1, h2, rfl, h3⟩ := h
    exact ⟨p.length + q, by omega, by rw [sh_get]; exact h2, rfl, by rw [sh_slice]; exact h3⟩

theorem sh_opens {m : Bool} {n : Nat} (h : Opens y m n) : Opens (p ++ y) m (p.length + n) := by
  unfold Opens
  rw [sh_getD]
  exact h

theorem sh_nextCell {m blk : Bool} {e : Nat} {last : Bool} {start n : Nat} (h : NextCell y m blk e last start n) :
    NextCell (p ++ y) m blk (p.length + e) last (p.length + start) (p.length + n) := by
  obtain ⟨c, h1, h2⟩ := h
  refine ⟨p.length + c, ?_, ?_⟩
  · split
    · next hm => rw [if_pos hm] at h1; exact sh_full.2 h1
    · next hm => rw [if_neg hm] at h1; rw [h1]
  · rw [sh_get]
    refine h2.imp (fun ⟨h2, h3, h4⟩ => ⟨h2, h3, ?_⟩) (fun ⟨h2, h3, h4, h5⟩ => ⟨h2, h3, ?_, sh_full.2 h5⟩)
    · split
      · next hm => rw [if_pos hm] at h4; exact ⟨by omega, by omega⟩
      · next hm => rw [if_neg hm] at h4; exact ⟨by omega, sh_full1 h4.2⟩
    · rw [h4]; split <;> rfl

theorem sh_atBlock {n : Nat} : atBlock (p ++ y) (p.length + n) = atBlock y n := by
  unfold atBlock
  rw [sh_getD]

end

mutual
theorem Sits.shove {α : Type} {p y : Bytes} {V : View α} (hp : Whole p) {s : Spot} {v : α} {lo hi : Nat} :
    Sits y V s v lo hi → Sits (p ++ y) V s v (p.length + lo) (p.length + hi)
  | .scalar h1 h2 h3 h4 => .scalar h1 (by omega) (by rw [sh_len]; omega) (by rw [sh_drop, sh_slice]; exact h4)
  | .lines h1 h2 => .lines h1 (sh_block hp h2)
  | .open h1 h2 h3 h4 => by
    rw [← sh_len]
    exact .open h1 (by rw [sh_len]; omega) h3 (by rw [sh_drop]; exact h4)
  | .empty h1 h2 h3 => .empty h1 (sh_firstKey.2 h2) (by rw [sh_col hp]; exact h3)
  | .dashes h1 h2 h3 => by
    have := h3.shove hp
    rw [← sh_col hp] at this
    exact .dashes h1 h2 this
  | .keys h1 h2 h3 => by
    have := h3.shove hp
    rw [← sh_col hp] at this h2
    exact .keys h1 h2 this
  | .brackets h1 h2 h3 h4 => .brackets h1 (by rw [sh_get]; exact h2) (sh_full1 h3) (h4.shove hp)
  | .braces h1 h2 h3 h4 => .braces h1 (by rw [sh_get]; exact h2) (sh_full1 h3) (h4.shove hp)
theorem Rows.shove {α : Type} {p y : Bytes} {V : View α} (hp : Whole p) {c : Nat} {first : Bool} {l : List (Option Bytes × α)} {lo hi : Nat} :
    Rows y V c first l lo hi → Rows (p ++ y) V c first l (p.length + lo) (p.length + hi)
  | .last h1 h2 h3 h4 h5 h6 => .last (by rw [sh_col hp]; exact h1) (sh_head h2) (sh_full.2 h3) (h4.shove hp) (sh_full.2 h5) (by rw [sh_goes hp]; exact h6)
  | .more h1 h2 h3 h4 h5 h6 => .more (by rw [sh_col hp]; exact h1) (sh_head h2) (sh_full.2 h3) (h4.shove hp) (sh_full.2 h5) (h6.shove hp)
theorem Cells.shove {α : Type} {p y : Bytes} {V : View α} (hp : Whole p) {m last : Bool} {l : List (Option Bytes × α)} {n hi : Nat} :
    Cells y V m last l n hi → Cells (p ++ y) V m last l (p.length + n) (p.length + hi)
  | .none h => .none (by rw [sh_get]; exact h)
  | .final h1 h2 h3 h4 h5 h6 => .final (sh_opens h1) (sh_cellHead h2) (sh_full.2 h3) (h4.shove hp) (sh_full.2 h5) (by rw [sh_get]; exact h6)
  | .cell h1 h2 h3 h4 h5 h6 => .cell (sh_opens h1) (sh_cellHead h2) (sh_full.2 h3) (h4.shove hp) (by
      rw [sh_atBlock]
      exact sh_nextCell h5) (h6.shove hp)
end

end Verif
