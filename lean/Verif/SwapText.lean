import Verif.SwapRules
import Verif.ShiftDoc
/-
Whole texts after an exchange of white space and comments.
-/
namespace Verif

mutual
/-- What is `Clear` is there. -/
theorem Clear.sits {α : Type} {inp : Bytes} {n m : Nat} {V : View α} : ∀ {s : Spot} {x : α} {lo hi : Nat}, Clear inp n m V s x lo hi → Sits inp V s x lo hi
  | _, _, _, _, .scalar h1 h2 h3 h4 _ => .scalar h1 h2 h3 h4
  | _, _, _, _, .lines h1 h2 _ => .lines h1 h2
  | _, _, _, _, .open h1 h2 h3 h4 _ => .open h1 h2 h3 h4
  | _, _, _, _, .empty h1 h2 h3 _ => .empty h1 h2 h3
  | _, _, _, _, .dashes h1 h2 h3 => .dashes h1 h2 h3.rows
  | _, _, _, _, .keys h1 h2 h3 => .keys h1 h2 h3.rows
  | _, _, _, _, .brackets h1 h2 h3 h4 => .brackets h1 h2 h3 h4.cells
  | _, _, _, _, .braces h1 h2 h3 h4 => .braces h1 h2 h3 h4.cells
theorem ClearRows.rows {α : Type} {inp : Bytes} {n m : Nat} {V : View α} : ∀ {c : Nat} {first : Bool} {l : List (Option Bytes × α)} {lo hi : Nat},
    ClearRows inp n m V c first l lo hi → Rows inp V c first l lo hi
  | _, _, _, _, _, .last h1 h2 h3 h4 h5 h6 => .last h1 h2.1 h3 h4.sits h5 h6
  | _, _, _, _, _, .more h1 h2 h3 h4 h5 h6 => .more h1 h2.1 h3 h4.sits h5 h6.rows
theorem ClearCells.cells {α : Type} {inp : Bytes} {n m : Nat} {V : View α} : ∀ {map last : Bool} {l : List (Option Bytes × α)} {lo hi : Nat},
    ClearCells inp n m V map last l lo hi → Cells inp V map last l lo hi
  | _, _, _, _, _, .none h1 => .none h1
  | _, _, _, _, _, .final h1 h2 h3 h4 h5 h6 => .final h1 h2.1 h3 h4.sits h5 h6
  | _, _, _, _, _, .cell h1 h2 h3 h4 h5 h6 => .cell h1 h2.1 h3 h4.sits h5 h6.cells
end

theorem ClearText.accepts {x : Bytes} {n m : Nat} {c : Content} : ClearText x n m c → Accepts x c
  | ⟨lo, hi, h1, h2, h3, h4⟩ => ⟨lo, hi, h1, h2, h3.sits, h4⟩

namespace Swap

variable {line : Bool} {p t t' q : Bytes} (H : Swap line p t t' q)
include H

theorem start : Ok line p t (Verif.wsEnd (p ++ (t ++ q)) 0) ∧ Verif.wsEnd (p ++ (t' ++ q)) 0 = f line p t t' (Verif.wsEnd (p ++ (t ++ q)) 0) := by
  rcases H.wsEndB (Nat.zero_le _) with ⟨h1, h2⟩ | ⟨h1, h2⟩
  · exact ⟨.inl (.inl h1), by rw [f_bef (.inl h1)]; exact h2⟩
  · exact ⟨.inr h1, by rw [f_aft h1]; exact h2⟩

omit H in
theorem peek_getD (x : Bytes) (k : Nat) : peekAt x k = x.getD k 0 := by
  unfold peekAt
  rw [List.headD_eq_head?_getD, List.head?_drop, List.getD_eq_getElem?_getD]

omit H in
theorem getD_some {x : Bytes} {k : Nat} {b : UInt8} (h : x.getD k 0 = b) (hb : b ≠ 0) : x[k]? = some b := by
  rw [List.getD_eq_getElem?_getD] at h
  cases hx : x[k]? with
  | none => rw [hx] at h; exact absurd h.symm hb
  | some c => rw [hx] at h; exact congrArg some h

theorem header (h : hasHeader (p ++ (t ++ q)) = true) : hasHeader (p ++ (t' ++ q)) = true := by
  obtain ⟨h1, h2⟩ := H.start
  rw [hasHeader_peek] at h ⊢
  rw [h2]
  generalize Verif.wsEnd (p ++ (t ++ q)) 0 = w at h1 h
  simp only [Bool.or_eq_true, Bool.and_eq_true, beq_iff_eq, peek_getD] at h ⊢
  have step : ∀ {k : Nat} {b : UInt8}, isWs b = false → Ok line p t k → (p ++ (t ++ q)).getD k 0 = b → (p ++ (t' ++ q)).getD (f line p t t' k) 0 = b := fun hb hk h => by
    rw [H.getD (by rw [h]; exact hb) hk, h]
  rcases h with h | ⟨⟨h3, h4⟩, h5⟩
  · exact .inl (step (by decide) h1 h)
  · obtain ⟨g1, g2⟩ := H.next (getD_some h3 (by decide)) (by decide) h1
    obtain ⟨g3, g4⟩ := H.next (getD_some h4 (by decide)) (by decide) g1
    have g5 := step (by decide) g1 h4
    have g6 := step (by decide) g3 h5
    rw [g4, g2] at g6
    rw [g2] at g5
    exact .inr ⟨⟨step (by decide) h1 h3, g5⟩, g6⟩

theorem noHeader (h : hasHeader (p ++ (t ++ q)) = false) : hasHeader (p ++ (t' ++ q)) = false := by
  cases h1 : hasHeader (p ++ (t' ++ q)) with
  | false => rfl
  | true => rw [H.symm.header h1] at h; cases h

theorem text {c : Content} (h : ClearText (p ++ (t ++ q)) p.length (p.length + t.length) c) (hh : hasHeader (p ++ (t ++ q)) = false) :
    ClearText (p ++ (t' ++ q)) p.length (p.length + t'.length) c := by
  obtain ⟨lo, hi, h1, h2, h3, h4⟩ := h
  have ht := H.noHeader hh
  have hs : ∀ x : Bytes, skipBlank false x = x.drop (Verif.wsEnd x 0) := fun x => by
    rw [skipBlank_eq, Verif.wsEnd, List.drop_zero, Nat.zero_add]
  rw [body_eq hh, hs] at h2
  have hw := wsEnd_le (inp := p ++ (t ++ q)) (Nat.zero_le _)
  have hlo : lo = Verif.wsEnd (p ++ (t ++ q)) 0 := by
    have := congrArg List.length h2
    rw [List.length_drop, List.length_drop] at this
    omega
  obtain ⟨h5, h6⟩ := H.start
  have hf := FullGap.ws (inp := p ++ (t ++ q)) (n := 0) (Nat.zero_le _)
  rw [← hlo] at h5 h6 hf
  obtain ⟨g1, g2⟩ := H.clear h3 h5 hf.2.1
  obtain ⟨-, -, g3⟩ := H.gap g1 h4
  rw [H.len] at g3
  refine ⟨_, _, ?_, ?_, g2, g3⟩
  · rw [← h6]
    exact wsEnd_le (Nat.zero_le _)
  · rw [body_eq ht, hs, h6]

end Swap
end Verif
