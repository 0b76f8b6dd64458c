import Verif.Shift
import Verif.Keep
import Verif.AgainNext
import Verif.ExactDocs
/-
White space and comments put before a text: the parser does on the longer text what it does on the shorter one.
-/
namespace Verif

/-- `g` put before what precedes the value. -/
def Tree.addPre (g : Bytes) : Tree Unit → Tree Unit
  | .leaf i p s => .leaf i (g ++ p) s
  | .node i p m ind k items => .node i (g ++ p) m ind k items

theorem shifted {g : Bytes} (x : Bytes) (hg : g = [] ∨ g.getLast? = some NL) : Shifted (g ++ x) x g.length where
  len := List.length_append
  drop n := by rw [← List.drop_drop, List.drop_left]
  indent n := by
    unfold indentFrom countIndent
    rw [List.take_append, List.take_of_length_le (by omega), Nat.add_sub_cancel_left]
    rcases hg with rfl | hg
    · rfl
    · obtain ⟨a, rfl⟩ := List.getLast?_eq_some_iff.1 hg
      rw [List.append_assoc, List.singleton_append]
      by_cases hn : NL ∈ x.take n
      · rw [show a ++ NL :: x.take n = (a ++ [NL]) ++ x.take n by simp, lastLine_next hn]
      · rw [lastLine_nl fun b hb hc => hn (hc ▸ hb)]
        congr 2
        have := lastLine_keep (a := []) hn
        simpa [show lastLine [] = [] from rfl] using this.symm

theorem wsGo_before {x : Bytes} : ∀ {c : Bool} {g : Bytes}, blankGo c g = true → (g = [] ∧ c = false ∨ g.getLast? = some NL) →
    (wsGo c (g ++ x)).1 = g.length + (wsGo false x).1
  | c, [], _, hl => by
    rcases hl with ⟨-, rfl⟩ | hl
    · simp
    · cases hl
  | true, b :: g, h, hl => by
    have hl : (b :: g).getLast? = some NL := by rcases hl with ⟨h, -⟩ | hl <;> first | cases h | exact hl
    rw [List.cons_append, wsGo]
    by_cases hb : b = NL
    · subst hb
      have := wsGo_before (x := x) (c := false) (g := g) h (by cases g with | nil => exact .inl ⟨rfl, rfl⟩ | cons a r => exact .inr (by simpa using hl))
      simp only [beq_self_eq_true, if_true, List.length_cons]
      omega
    · have hb' : (b == NL) = false := by simpa using hb
      have hb2 : (b != NL) = true := by simpa using hb
      rw [blankGo, hb2] at h
      have := wsGo_before (x := x) (c := true) (g := g) h (by
        cases g with
        | nil => simp at hl; exact absurd hl hb
        | cons a r => exact .inr (by simpa using hl))
      simp only [hb', Bool.false_eq_true, if_false, List.length_cons]
      omega
  | false, b :: g, h, hl => by
    have hl : (b :: g).getLast? = some NL := by rcases hl with ⟨h, -⟩ | hl <;> first | cases h | exact hl
    have hl' : g = [] ∨ g.getLast? = some NL := by
      cases g with
      | nil => exact .inl rfl
      | cons a r => exact .inr (by simpa using hl)
    rw [List.cons_append, wsGo]
    rw [blankGo] at h
    by_cases hh : b = HASH
    · subst hh
      have := wsGo_before (x := x) (c := true) (g := g) h (by
        rcases hl' with rfl | hl'
        · simp at hl; cases hl
        · exact .inr hl')
      simp only [beq_self_eq_true, if_true, List.length_cons]
      omega
    · have hh' : (b == HASH) = false := by simpa using hh
      rw [if_neg (by simpa using hh), Bool.and_eq_true] at h
      have := wsGo_before (x := x) (c := false) (g := g) h.2 (hl'.imp (fun h => ⟨h, rfl⟩) id)
      simp only [hh', Bool.false_eq_true, if_false, List.length_cons]
      split
      · simp only; omega
      · next hb =>
        have : isOtherWs b = true := by
          have := h.1
          unfold isWs at this
          simpa [hb] using this
        rw [if_pos this]
        simp only; omega

variable {g x : Bytes} (hb : blank g = true) (hg : g = [] ∨ g.getLast? = some NL)
include hb hg

theorem wsEnd_before : wsEnd (g ++ x) 0 = g.length + wsEnd x 0 := by
  unfold wsEnd
  rw [List.drop_zero, wsGo_before hb (hg.imp (fun h => ⟨h, rfl⟩) id), List.drop_zero]
  omega

theorem wsStr_before : wsStr (g ++ x) 0 = g ++ wsStr x 0 := by
  unfold wsStr
  rw [wsEnd_before hb hg]
  unfold slice
  simp [List.take_append, List.take_of_length_le (show g.length ≤ g.length + wsEnd x 0 by omega)]

omit hb hg in
theorem hasHeader_peek : hasHeader x = (peekAt x (wsEnd x 0) == PCT ||
    (peekAt x (wsEnd x 0) == DASH && peekAt x (wsEnd x 0 + 1) == DASH && peekAt x (wsEnd x 0 + 2) == DASH)) := by
  have hs : skipBlank false x = x.drop (wsEnd x 0) := by
    rw [skipBlank_eq, wsEnd, List.drop_zero, Nat.zero_add]
  unfold hasHeader
  rw [hs, peekAt_add, peekAt_add, show peekAt x (wsEnd x 0) = hd (x.drop (wsEnd x 0)) from rfl]
  generalize x.drop (wsEnd x 0) = t
  have z : ¬ (0 : UInt8) = DASH := by decide
  rw [Bool.eq_iff_iff]
  rcases t with _ | ⟨a, _ | ⟨b, _ | ⟨c, r⟩⟩⟩ <;> simp [z, and_assoc, hd]

theorem startOfDocument_before (f : Nat) : startOfDocument f (g ++ x) =
    moved g.length (fun r => ((if hasHeader x then [] else g) ++ r.1, g.length + r.2)) (startOfDocument f x) := by
  unfold startOfDocument
  have h := shifted x hg
  rw [wsEnd_before hb hg, wsStr_before hb hg, h.startLoop]
  cases f with
  | zero => rfl
  | succ f =>
    rw [hasHeader_peek]
    unfold startLoop
    split
    · next hp =>
      simp only [hp, Bool.true_or, if_true, List.nil_append]
    · next hp =>
      split
      · next hd => simp only [hd, Bool.or_true, if_true, List.nil_append]
      · next hd =>
        simp only [Bool.not_eq_true] at hp hd
        simp only [hp, hd, Bool.or_false, Bool.false_eq_true, if_false]
        rfl

omit hb hg in
theorem pvalue_addPre (g p : Bytes) (inl tab : Bool) (n : Nat) : ∀ f, pvalue x f ⟨g ++ p, inl, tab, none⟩ n =
    (match pvalue x f ⟨p, inl, tab, none⟩ n with
      | .ok r => .ok (r.1.addPre g, r.2)
      | .error e => .error e)
  | 0 => rfl
  | f + 1 => by
    unfold pvalue
    simp only
    cases lead f x inl tab n with
    | error e => rfl
    | ok l =>
      simp only [bind, Except.bind]
      cases l with
      | scalar sc ws m => rfl
      | seq =>
        simp only [psequence, bind, Except.bind]
        cases pseqLoop (pvalue x f) x (indentFrom x n) f [] n with
        | error e => rfl
        | ok r => rfl
      | flowSeq =>
        simp only [pflowSeq, bind, Except.bind]
        split
        · rfl
        · split <;> rfl
      | flowMap =>
        simp only [pflowMap, bind, Except.bind]
        split
        · rfl
        · split <;> rfl
      | key k m =>
        simp only [pmappingOrNul, pmappingOrNul.go, bind, Except.bind]
        split <;> rfl

theorem pparseF_before (f : Nat) : pparseF f (g ++ x) =
    moved g.length (fun r => (r.1.addPre (if hasHeader x then [] else g), r.2)) (pparseF f x) := by
  have h := shifted x hg
  unfold pparseF
  rw [startOfDocument_before hb hg]
  cases startOfDocument f x with
  | error e => rfl
  | ok r =>
    simp only [moved, bind, Except.bind]
    rw [pvalue_addPre, h.pvalue f]
    cases pvalue x f ⟨r.1, false, true, none⟩ r.2 with
    | error e => rfl
    | ok r =>
      simp only [moved, h.wsOr, h.atEnd]
      split
      · rfl
      · simp only [Stop.shift]
        rw [h.len]

end Verif
