import Verif.Sound
import Verif.Quotes
/-
Where the lossy decoding of a text may be cut, and that it is UTF-8.
-/
namespace Verif

theorem decodeHead_append {b : UInt8} {r s : Bytes} (hs : ∀ c s', s = c :: s' → isCont c = false) : decodeHead (b :: (r ++ s)) = decodeHead (b :: r) := by
  by_cases hb : b < 0x80
  · simp only [decodeHead, if_pos hb]
  have hl : seqLen b = 0 ∨ seqLen b = 2 ∨ seqLen b = 3 ∨ seqLen b = 4 := by
    unfold seqLen; repeat' split
    all_goals simp
  have h2 : ∀ c s', s = c :: s' → secondOk b c = false := by
    intro c s' h
    cases hc : secondOk b c with
    | false => rfl
    | true => exact absurd (secondOk_cont hc) (by rw [hs c s' h]; simp)
  rcases hl with hl | hl | hl | hl
  · simp only [decodeHead, if_neg hb, hl]
  all_goals
    rcases r with _ | ⟨b1, _ | ⟨b2, _ | ⟨b3, r⟩⟩⟩ <;> rcases s with _ | ⟨c, s⟩ <;>
      simp only [decodeHead, if_neg hb, hl, List.nil_append, List.append_nil, List.cons_append] <;>
      first
        | rfl
        | (simp only [hs c s rfl, h2 c s rfl, Bool.false_eq_true, if_false, Bool.not_false, if_true]; done)

theorem chars_split {a b : Bytes} (hb : ∀ c s', b = c :: s' → isCont c = false) : chars (a ++ b) = chars a ++ chars b := by
  induction hn : a.length using Nat.strongRecOn generalizing a with
  | ind n ih =>
    cases a with
    | nil => rfl
    | cons c r =>
      have st := decodeHead_step c r
      have hle := st.le
      rw [List.cons_append, chars_cons, chars_cons, decodeHead_append hb, List.take_append_of_le_length (by omega), List.drop_append_of_le_length (by omega),
        ih (r.drop ((decodeHead (c :: r)).2 - 1)).length (by simp at hn ⊢; omega) rfl]
      rfl

/-- What is not UTF-8 in `a ++ b` can be replaced in `a` and `b` apart. -/
def Splits (a b : Bytes) : Prop := a = [] ∨ b = [] ∨ isCont (hd b) = false ∨ ∃ a' c, a = a' ++ [c] ∧ c < 0x80

theorem lossy_nil : lossy [] = [] := rfl

theorem ascii_notCont {c : UInt8} (h : c < 0x80) : isCont c = false := by
  cases hc : isCont c with
  | false => rfl
  | true => exact absurd h (isCont_ge hc)

theorem lossy_split {a b : Bytes} (h : Splits a b) : lossy (a ++ b) = lossy a ++ lossy b := by
  have key : ∀ {a b : Bytes}, (∀ c s', b = c :: s' → isCont c = false) → lossy (a ++ b) = lossy a ++ lossy b := by
    intro a b hb
    simp only [lossy, chars_split hb, List.flatten_append]
  rcases h with rfl | rfl | h | ⟨a', c, rfl, hc⟩
  · rfl
  · simp [lossy_nil]
  · exact key fun c s' hb => by subst hb; exact h
  · rw [List.append_assoc, List.singleton_append, key (by rintro d s' ⟨⟩; exact ascii_notCont hc), key (a := a') (b := [c]) (by rintro d s' ⟨⟩; exact ascii_notCont hc),
      lossy_ascii hc, lossy_ascii hc, lossy_nil]
    simp

theorem valid_replacement : validUtf8 replacement = true := by decide

/-- What `Display` gives is UTF-8. -/
theorem lossy_utf8 (s : Bytes) : validUtf8 (lossy s) = true := by
  induction hn : s.length using Nat.strongRecOn generalizing s with
  | ind n ih =>
    cases s with
    | nil => rfl
    | cons c r =>
      have st := decodeHead_step c r
      have hr := ih (r.drop ((decodeHead (c :: r)).2 - 1)).length (by simp at hn ⊢; omega) _ rfl
      have e : lossy (c :: r) = (if (decodeHead (c :: r)).1 then c :: r.take ((decodeHead (c :: r)).2 - 1) else replacement) ++
          lossy (r.drop ((decodeHead (c :: r)).2 - 1)) := by
        simp only [lossy]; rw [chars_cons]; rfl
      rw [e]
      refine valid_append' ?_ hr
      split
      · next h =>
        have h1 := st.loc h []
        rw [List.append_nil] at h1
        rw [valid_cons, h1]
        simp
        rfl
      · exact valid_replacement

theorem escapeByte_utf8 {b : UInt8} {e : Bytes} (h : escapeByte b = some e) : validUtf8 e = true := by
  have := byte_cases (p := fun b => validUtf8 ((escapeByte b).getD []) = true) (by set_option maxRecDepth 100000 in decide) b
  rwa [h] at this

theorem escapeDoubleDisplay_utf8 : ∀ (s cur : Bytes), validUtf8 (escapeDoubleDisplayGo cur s) = true
  | [], cur => lossy_utf8 cur
  | b :: r, cur => by
    unfold escapeDoubleDisplayGo
    cases h : escapeByte b with
    | none => exact escapeDoubleDisplay_utf8 r _
    | some e => exact valid_append' (valid_append' (lossy_utf8 _) (escapeByte_utf8 h)) (escapeDoubleDisplay_utf8 r [])

theorem escapeSingleDisplay_utf8 : ∀ (s cur : Bytes), validUtf8 (escapeSingleDisplayGo cur s) = true
  | [], cur => lossy_utf8 cur
  | b :: r, cur => by
    unfold escapeSingleDisplayGo
    split
    · exact valid_append' (valid_append' (lossy_utf8 _) (by decide)) (escapeSingleDisplay_utf8 r [])
    · exact escapeSingleDisplay_utf8 r _

theorem RStr.display_utf8 (s : RStr) : validUtf8 s.display = true := by
  unfold RStr.display
  split
  · exact lossy_utf8 _
  · exact valid_append' (valid_append' (by decide) (escapeDoubleDisplay_utf8 _ _)) (by decide)
  · exact valid_append' (valid_append' (by decide) (escapeSingleDisplay_utf8 _ _)) (by decide)
  · exact lossy_utf8 _
  · exact valid_append' (lossy_utf8 _) (lossy_utf8 _)

theorem dispPre_utf8 (p : Option Bytes) : validUtf8 (dispPre p) = true := by
  cases p with
  | none => rfl
  | some p => exact lossy_utf8 p

theorem sepOf_utf8 (k : CollKind) (b : Bool) : validUtf8 (sepOf k b) = true := by
  cases k <;> cases b <;> rfl

theorem openOf_utf8 (k : CollKind) {c : UInt8} (hc : c < 0x80) : validUtf8 (openOf k c) = true := by
  cases k with
  | block => rfl
  | inline tr w => exact valid_cons_ascii hc rfl

theorem closeOfDisplay_utf8 (k : CollKind) {c : UInt8} (hc : c < 0x80) : validUtf8 (closeOfDisplay k c) = true := by
  cases k with
  | block => rfl
  | inline tr w => exact valid_append' (valid_append' (by cases tr <;> decide) (lossy_utf8 _)) (valid_cons_ascii hc rfl)

theorem dispSeqItems_utf8 {w : Data → Raw → Option Bytes → Except Stop Bytes} {d : Data} {k : CollKind} (hw : ∀ r p out, w d r p = .ok out → validUtf8 out = true) :
    ∀ {is : List Nat} {out : Bytes}, dispSeqItems w d k is = .ok out → validUtf8 out = true
  | [], out, h => by cases h; rfl
  | i :: is, out, h => by
    simp only [dispSeqItems, bind, Except.bind, pure, Except.pure] at h
    repeat' split at h
    all_goals try cases h
    all_goals
      rename_i h1 _ _ h2 _
      exact valid_append' (valid_append' (valid_append' (valid_append' (lossy_utf8 _) (by decide)) (hw _ _ _ h1)) (sepOf_utf8 _ _)) (dispSeqItems_utf8 hw h2)

theorem dispMapItems_utf8 {w : Data → Raw → Option Bytes → Except Stop Bytes} {d : Data} {k : CollKind} (hw : ∀ r p out, w d r p = .ok out → validUtf8 out = true) :
    ∀ {is : List Nat} {out : Bytes}, dispMapItems w d k is = .ok out → validUtf8 out = true
  | [], out, h => by cases h; rfl
  | i :: is, out, h => by
    simp only [dispMapItems, bind, Except.bind, pure, Except.pure] at h
    repeat' split at h
    all_goals try cases h
    next h1 _ _ h2 =>
    exact valid_append' (valid_append' (valid_append' (valid_append' (valid_append' (lossy_utf8 _) (RStr.display_utf8 _)) (by decide)) (hw _ _ _ h1)) (sepOf_utf8 _ _))
      (dispMapItems_utf8 hw h2)

theorem dispRawF_utf8 {d : Data} : ∀ (f : Nat) (r : Raw) (p : Option Bytes) (out : Bytes), dispRawF f d r p = .ok out → validUtf8 out = true
  | 0, _, _, _, h => by cases h
  | f + 1, r, p, out, h => by
    have ih := dispRawF_utf8 (d := d) f
    have hi : ∀ b : Bool, validUtf8 (if b then dispPre p else []) = true := fun b => by cases b <;> first | rfl | exact dispPre_utf8 p
    unfold dispRawF at h
    split at h
    · cases h; rfl
    · cases h; exact valid_append' (dispPre_utf8 _) (by decide)
    · cases h; exact valid_append' (dispPre_utf8 _) (lossy_utf8 _)
    · cases h; exact valid_append' (dispPre_utf8 _) (lossy_utf8 _)
    · cases h; exact valid_append' (dispPre_utf8 _) (lossy_utf8 _)
    · cases h; exact valid_append' (dispPre_utf8 _) (RStr.display_utf8 _)
    · simp only [bind, Except.bind, pure, Except.pure] at h
      split at h
      · cases h
      · next h1 =>
        cases h
        exact valid_append' (valid_append' (valid_append' (hi _) (openOf_utf8 _ (by decide))) (dispMapItems_utf8 ih h1)) (closeOfDisplay_utf8 _ (by decide))
    · simp only [bind, Except.bind, pure, Except.pure] at h
      repeat' split at h
      all_goals try cases h
      next h1 => exact valid_append' (valid_append' (valid_append' (dispPre_utf8 _) (RStr.display_utf8 _)) (by decide)) (ih _ _ _ h1)
    · simp only [bind, Except.bind, pure, Except.pure] at h
      split at h
      · cases h
      · next h1 =>
        cases h
        exact valid_append' (valid_append' (valid_append' (hi _) (openOf_utf8 _ (by decide))) (dispSeqItems_utf8 ih h1)) (closeOfDisplay_utf8 _ (by decide))
    · simp only [bind, Except.bind, pure, Except.pure] at h
      repeat' split at h
      all_goals try cases h
      next h1 => exact valid_append' (dispPre_utf8 _) (ih _ _ _ h1)

end Verif
