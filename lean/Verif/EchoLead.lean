import Verif.Echo
import Verif.ExactRules
/-
What is written for scalars.
-/
namespace Verif

theorem wsGo_cross : ∀ (c : Bool) (s : Bytes), (wsGo c s).2 ≠ 0 → (wsGo c s).1 = findNl s + (wsGo false (s.drop (findNl s))).1
  | c, [], h => by cases c <;> exact absurd rfl h
  | true, b :: r, h => by
    unfold wsGo at h
    rw [wsGo, findNl]
    by_cases hb : b = NL
    · subst hb
      simp only [beq_self_eq_true, if_true, List.drop_zero, Nat.zero_add]
      rfl
    · have hb' := beq_false_of_ne hb
      simp only [hb', Bool.false_eq_true, if_false] at h ⊢
      have := wsGo_cross true r h
      rw [List.drop_succ_cons]; omega
  | false, b :: r, h => by
    unfold wsGo at h
    rw [wsGo, findNl]
    by_cases hb : b = NL
    · subst hb
      simp only [beq_self_eq_true, if_true, List.drop_zero, Nat.zero_add]
      rfl
    · have hb' := beq_false_of_ne hb
      simp only [hb', Bool.false_eq_true, if_false] at h ⊢
      rw [List.drop_succ_cons]
      by_cases hh : (b == HASH) = true
      · simp only [hh, if_true] at h ⊢
        have := wsGo_cross true r h
        omega
      · simp only [hh, if_false] at h ⊢
        by_cases ho : isOtherWs b = true
        · simp only [ho, if_true] at h ⊢
          have := wsGo_cross false r h
          simp only [Bool.false_eq_true, if_false]
          omega
        · simp only [ho] at h; exact absurd rfl h

section
variable {inp : Bytes}

theorem wsEnd_cross {n : Nat} (h : wsNl inp n ≠ 0) : wsEnd inp n = wsEnd inp (lineEnd inp n) := by
  have := wsGo_cross false (inp.drop n) h
  unfold wsEnd lineEnd
  rw [List.drop_drop] at this
  omega

/-- If there is only the line of the header, everything up to the end of the text is kept. -/
theorem block_oneLine {f : Nat} {n hdr : Nat} {j : UInt8} {fo ch cl : Bool} {s : RStr} {ws : Bytes} {m : Nat}
    (h : block f inp n hdr j fo ch cl = .ok (s, ws, m)) (ha : wsEnd inp (lineEnd inp (bump inp n hdr)) = inp.length) :
    s.original = slice inp (bump inp n hdr) inp.length := by
  simp only [block, bind, Except.bind] at h
  generalize bump inp n hdr = st at *
  have key : ∀ (b0 b1 : BlockSt) (ind : Nat), blockLoop inp ind j fo f b0 = .ok b1 → b0.n = inp.length → b1 = b0 := by
    intro b0 b1 ind hl hn
    cases f with
    | zero => cases hl
    | succ f =>
      rw [blockLoop, if_pos hn] at hl
      cases hl; rfl
  by_cases hz : wsNl inp st = 0
  · simp only [hz, if_true] at h
    have hle : lineEnd inp st = wsEnd inp st + findNl (inp.drop (wsEnd inp st)) := by
      have := findNl_ws false (inp.drop st) hz
      rw [List.drop_drop] at this
      unfold lineEnd wsEnd
      omega
    rw [hle] at ha
    split at h
    · cases h
    · next b1 hl =>
      have := key _ _ _ hl ha
      cases h
      rw [this]
      simp only [ha]
  · simp only [hz, if_false] at h
    rw [← wsEnd_cross hz] at ha
    split at h
    · cases h
    · next b1 hl =>
      have := key _ _ _ hl ha
      cases h
      rw [this]
      simp only [ha]

theorem oneLine_iff {n : Nat} (hn : n ≤ inp.length) : OneLine inp n ↔ wsEnd inp (lineEnd inp n) = inp.length := by
  have hl := LineAt.find hn
  have hle := (line_end hn).1
  constructor
  · rintro ⟨e, h1, h2⟩
    obtain rfl := h1.unique hl h2.le.1 hle
    exact h2.eq
  · intro h
    exact ⟨_, hl, by have := FullGap.ws (inp := inp) hle; unfold lineEnd at h; rwa [h] at this⟩

theorem ws_same {a b : Nat} (ha : a ≤ inp.length) (hb : b ≤ inp.length) (h1 : wsStr inp a = wsStr inp b) (h2 : wsEnd inp a = wsEnd inp b) : a = b := by
  have h3 := congrArg List.length h1
  rw [wsStr_length ha, wsStr_length hb] at h3
  have := le_wsEnd inp a
  have := le_wsEnd inp b
  omega

theorem lineEnd_bump {n k : Nat} (hn : n + k ≤ inp.length) (h : ∀ i, i < k → peekAt inp (n + i) ≠ NL) : lineEnd inp n = lineEnd inp (n + k) := by
  induction k with
  | zero => rfl
  | succ k ih =>
    rw [ih (by omega) (fun i hi => h i (by omega)), lineEnd_next (by omega) (h k (by omega))]; rfl

/-- What is written for a block scalar. -/
theorem block_write {f : Nat} {inline tab : Bool} {n e m : Nat} {sc : Scalar} {ws : Bytes} (hn : n ≤ inp.length)
    (h : lead f inp inline tab n = .ok (.scalar sc (some ws) m)) (he : e ≤ inp.length) (h1 : ws = wsStr inp e) (h2 : m = wsEnd inp e) :
    (OneLine inp n → sc.write = slice inp n inp.length) ∧ (¬ OneLine inp n → sc.write = slice inp n e) := by
  cases (lead_spec hn).ok h with
  | block hp hb =>
  obtain ⟨st, stop, ws0, g1, g2, g3, g4, g5, g6, g7, g8, g9, g10, g11, g12, g13⟩ := hb.ex
  have hw : ∀ {s : RStr} {k : Nat}, s.kind = .multiline (slice inp n st) → s.original = slice inp st k → st ≤ k → (Scalar.string s).write = slice inp n k := by
    intro s k h1 h2 h3
    simp only [Scalar.write, RStr.write, h1, h2]
    exact slice_append (by omega) h3
  refine ⟨fun ho => ?_, fun ho => ?_⟩
  · rw [oneLine_iff hn] at ho
    rw [lead_block_eq hp] at h
    generalize hh : (if (peekAt inp (n + 1) == DASH || peekAt inp (n + 1) == 43) = true then 2 else 1) = hdr at h
    cases hr : block f inp n hdr (if (peekAt inp n == GT) = true then SP else NL) (peekAt inp n == GT) (peekAt inp (n + 1) != DASH) (peekAt inp (n + 1) == DASH) with
    | error e => rw [hr] at h; cases h
    | ok r =>
      obtain ⟨s', ws', m'⟩ := r
      rw [hr] at h
      cases h
      have hlt := lt_of_peek (inp := inp) (n := n) (by rcases hp with hp | hp <;> (rw [hp]; decide))
      have hnl : peekAt inp n ≠ NL := by rcases hp with hp | hp <;> (rw [hp]; decide)
      have hle : lineEnd inp n = lineEnd inp (bump inp n hdr) := by
        subst hh
        split
        · next hc =>
          have hc : peekAt inp (n + 1) = DASH ∨ peekAt inp (n + 1) = 43 := by simpa using hc
          have hl2 := lt_of_peek (inp := inp) (n := n + 1) (by rcases hc with hc | hc <;> (rw [hc]; decide))
          rw [show bump inp n 2 = n + 2 from Nat.min_eq_left hl2, lineEnd_next hlt hnl, lineEnd_next hl2 (by rcases hc with hc | hc <;> (rw [hc]; decide))]
        · rw [bump_one hlt, lineEnd_next hlt hnl]
      rw [hle] at ho
      have ho := block_oneLine hr ho
      obtain ⟨-, -, st', stop', k1, k2, -⟩ := block_ok hn hr
      rw [k1] at ho
      simp only [Scalar.write, RStr.write, k2, ho]
      refine slice_append ?_ ?_
      · rw [← k1]; exact le_bump _ hn
      · rw [← k1]; exact bump_le _ _ _
  · rcases g13 with rfl | ⟨e1, e2, e3, e4⟩
    · obtain rfl := ws_same g9 he (by rw [← g11, h1]) (by rw [← g12, h2])
      exact hw g1 g2 g4
    · exact absurd ((oneLine_iff hn).2 e3) ho

end

end Verif
