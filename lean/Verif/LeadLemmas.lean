import Verif.ScanLemmas
import Verif.TreeOps
/-
How a value starts: positions, texts and errors of `lead`.
-/
namespace Verif

theorem wsEnd_head {inp : Bytes} {n : Nat} (h : wsEnd inp n ≠ n) : peekAt inp n < 0x80 := by
  unfold wsEnd at h
  unfold peekAt
  cases hs : inp.drop n with
  | nil => decide
  | cons b r =>
    rw [hs] at h
    simp only [wsGo] at h
    split at h
    · next hb => simp only [beq_iff_eq] at hb; subst hb; show HASH < 0x80; decide
    · split at h
      · next hb => simp only [beq_iff_eq] at hb; subst hb; show NL < 0x80; decide
      · split at h
        · next hb => exact otherWs_ascii hb
        · exact absurd rfl h

theorem wsStr_length {inp : Bytes} {n : Nat} (h : n ≤ inp.length) : (wsStr inp n).length = wsEnd inp n - n :=
  slice_length (wsEnd_le h)

theorem plainScalar_write (s : Bytes) : (plainScalar s).write = s := by
  unfold plainScalar
  split
  · next h => simp only [beq_iff_eq] at h; subst h; rfl
  · split
    · rfl
    · split
      · rfl
      · split
        · rfl
        · rfl

theorem number_spec {inp : Bytes} {tab : Bool} {n : Nat} (hn : n ≤ inp.length) :
    n ≤ (number inp tab n).1 ∧ (number inp tab n).1 ≤ inp.length ∧
    ∀ s, (number inp tab n).2 = some s → n < (number inp tab n).1 ∧ s.write = slice inp n (number inp tab n).1 ∧
      (Cut inp n → Cut inp (number inp tab n).1) ∧ ∃ str h, s = .number str h := by
  simp only [number]
  generalize hm : (if (peekAt inp n == DASH) = true then bump inp n 1 else n) = m
  have hm1 : n ≤ m ∧ m ≤ inp.length ∧ (Cut inp n → Cut inp m) := by
    subst hm
    split
    · next h =>
      simp only [beq_iff_eq] at h
      exact ⟨le_bump 1 hn, bump_le _ _ _, fun _ => cut_bump (by rw [h]; decide)⟩
    · exact ⟨Nat.le_refl _, hn, fun h => h⟩
  obtain ⟨h1, h2⟩ := numGo_spec true true false (inp.drop m)
  generalize numGo true true false (inp.drop m) = r at h1 h2
  obtain ⟨k, fl⟩ := r
  rw [List.length_drop] at h1
  simp only at h1 h2 ⊢
  split
  · exact ⟨by simp only; omega, by simp only; omega, fun s h => by cases h⟩
  · next hk =>
    split
    · exact ⟨by simp only; omega, by simp only; omega, fun s h => by cases h⟩
    · refine ⟨by simp only; omega, by simp only; omega, fun s h => ?_⟩
      cases h
      exact ⟨by simp only; omega, rfl, fun hc => h2.cut hm1.2.1 (hm1.2.2 hc), _, _, rfl⟩

/-- A block scalar read from `n`, and where its trailing white space is. -/
structure BlockRead (inp : Bytes) (n : Nat) (s : RStr) (ws : Bytes) (m : Nat) : Prop where
  ex : ∃ st stop ws0, s.kind = .multiline (slice inp n st) ∧ s.original = slice inp st stop ∧ n < st ∧ st ≤ stop ∧
    stop ≤ inp.length ∧ Cut inp st ∧ Cut inp stop ∧ st ≤ ws0 ∧ ws0 ≤ inp.length ∧ Cut inp ws0 ∧
    ws = wsStr inp ws0 ∧ m = wsEnd inp ws0 ∧ (stop = ws0 ∨ (stop = inp.length ∧ m = inp.length ∧
      wsEnd inp (lineEnd inp n) = inp.length ∧ lineEnd inp n < inp.length))

/-- What is known of the start of a value at `n`. -/
inductive LeadOK (inp : Bytes) (n : Nat) (inline : Bool) : Lead → Prop
  | seq : peekAt inp n = DASH → isWs (peekAt inp (n + 1)) = true → inline = false → LeadOK inp n inline .seq
  | flowSeq : peekAt inp n = LBR → LeadOK inp n inline .flowSeq
  | flowMap : peekAt inp n = LCB → LeadOK inp n inline .flowMap
  | key {key m} : n ≤ m → peekAt inp m = COLON → (key.kind = .bare ∨ key.kind = .original) → key.write = slice inp n m →
    inline = false → LeadOK inp n inline (.key key m)
  | block {s ws m} : peekAt inp n = GT ∨ peekAt inp n = PIPE → BlockRead inp n s ws m →
    LeadOK inp n inline (.scalar (.string s) (some ws) m)
  | scalar {sc m} : n ≤ m → m ≤ inp.length → (Cut inp n → Cut inp m) → sc.write = slice inp n m →
    (∀ s, sc = .string s → s.kind = .bare ∨ s.kind = .original) → LeadOK inp n inline (.scalar sc none m)

theorem plainScalar_kind {t : Bytes} {s : RStr} (h : plainScalar t = .string s) : s.kind = .bare ∨ s.kind = .original := by
  unfold plainScalar at h
  split at h
  · cases h
  · split at h
    · cases h
    · split at h
      · cases h
      · split at h
        · cases h
        · cases h; exact .inl rfl

theorem quoted_lead {inp : Bytes} {n : Nat} {s : RStr} {e : Nat} {inline : Bool} (hq : Quoted inp n s e) :
    Outcome (LeadOK inp n inline) (Fails inp n)
      (if (!inline && peekAt inp e == COLON) = true then pure (.key s e) else pure (.scalar (.string s) none e)) := by
  have hw : s.write = slice inp n e := by rw [RStr.write, hq.kind]; exact hq.text
  have h1 := hq.lt
  split
  · next h =>
    simp only [Bool.and_eq_true, beq_iff_eq, Bool.not_eq_true'] at h
    exact .key (by omega) h.2 (.inr hq.kind) hw h.1
  · exact .scalar (by omega) hq.le (fun _ => hq.cut) hw (fun s' h => by cases h; exact .inr hq.kind)

theorem lead_spec {f : Nat} {inp : Bytes} {inline tab : Bool} {n : Nat} (hn : n ≤ inp.length) :
    Outcome (LeadOK inp n inline) (Fails inp n) (lead f inp inline tab n) := by
  simp only [lead]
  split
  · next h =>
    simp only [Bool.and_eq_true, beq_iff_eq, Bool.not_eq_true'] at h
    exact .seq h.1.1 h.1.2 h.2
  split
  · next h =>
    simp only [beq_iff_eq] at h
    have hlt := lt_of_peek (inp := inp) (n := n) (by rw [h]; decide)
    exact Outcome.bind (doubleQuoted_spec hlt) fun r hr => quoted_lead hr
  split
  · next h =>
    simp only [beq_iff_eq] at h
    have hlt := lt_of_peek (inp := inp) (n := n) (by rw [h]; decide)
    cases hs : singleQuoted f inp n with
    | error e => rw [singleQuoted_err hs]; exact .inl rfl
    | ok r => exact quoted_lead (singleQuoted_ok hlt hs)
  split
  · next h => exact .flowSeq (by simpa using h)
  split
  · next h => exact .flowMap (by simpa using h)
  split
  · next h =>
    simp only [Bool.or_eq_true, beq_iff_eq] at h
    have hlt := lt_of_peek (inp := inp) (n := n) (by rcases h with h | h <;> rw [h] <;> decide)
    have ha : peekAt inp n < 0x80 := by rcases h with h | h <;> rw [h] <;> decide
    cases hb : block f inp n (if (peekAt inp (n + 1) == DASH || peekAt inp (n + 1) == 43) = true then 2 else 1)
        (if (peekAt inp n == GT) = true then SP else NL) (peekAt inp n == GT) (peekAt inp (n + 1) != DASH)
        (peekAt inp (n + 1) == DASH) with
    | error e => rw [block_err hb]; exact .inl rfl
    | ok r =>
      obtain ⟨s, ws, m⟩ := r
      refine .block h ⟨?_⟩
      obtain ⟨h1, h2, st, stop, h3, h4, h5, h6, h7, h8, h9⟩ := block_ok hn hb
      have hst : n < st ∧ Cut inp st ∧ lineEnd inp n = lineEnd inp st := by
        have hl1 := lineEnd_next hlt (by rcases h with h | h <;> rw [h] <;> decide)
        subst h3
        split
        · next h2 =>
          simp only [Bool.or_eq_true, beq_iff_eq] at h2
          have hlt2 := lt_of_peek (inp := inp) (n := n + 1) (by rcases h2 with h | h <;> rw [h] <;> decide)
          have : bump inp n 2 = n + 1 + 1 := by unfold bump; omega
          rw [this]
          exact ⟨by omega, cut_next (by rcases h2 with h | h <;> rw [h] <;> decide),
            by rw [hl1, lineEnd_next hlt2 (by rcases h2 with h | h <;> rw [h] <;> decide)]⟩
        · rw [bump_one hlt]
          exact ⟨by omega, cut_next ha, hl1⟩
      obtain ⟨hst1, hst2, hst3⟩ := hst
      rcases h9 with ⟨ws0, g1, g2, g3, g4, g5, g6, g7, g8, g9⟩ | ⟨g1, g2, g3⟩
      · refine ⟨st, stop, ws0, h4, h5, hst1, h6, h7, hst2, by rw [g2]; exact cut_end inp, g5, g6, ?_, g3, by rw [g1, g4], ?_⟩
        · rcases g7 with rfl | g7
          · exact hst2
          · exact g7
        · by_cases hq : lineEnd inp st = inp.length
          · exact .inl (by rw [g9 hq, g2])
          · have := (line_end (inp := inp) (n := st) (by omega)).1
            exact .inr ⟨g2, g1, by rw [hst3]; exact g8, by rw [hst3]; unfold lineEnd at hq ⊢; omega⟩
      · exact ⟨st, stop, stop, h4, h5, hst1, h6, h7, hst2, g1, h6, h7, g1, g3, g2, .inl rfl⟩
  obtain ⟨h1, h2, h3⟩ := number_spec (inp := inp) (tab := tab) hn
  generalize number inp tab n = r at h1 h2 h3
  obtain ⟨e, so⟩ := r
  simp only at h1 h2 h3
  cases so with
  | some s =>
    obtain ⟨g1, g2, g3, str, hint, rfl⟩ := h3 s rfl
    exact .scalar h1 h2 g3 g2 fun s' hs => by cases hs
  | none =>
    simp only
    split
    · next hi =>
      obtain ⟨k1, k2⟩ := ctlGo_spec (inp.drop e)
      rw [List.length_drop] at k1
      refine .scalar (by omega) (by omega) (fun _ => .inl ?_) (plainScalar_write _) (fun s' hs => plainScalar_kind hs)
      rw [peekAt_add]; exact ctl_ascii k2
    · next hi =>
      obtain ⟨k1, k2⟩ := keyGo_spec (inp.drop e)
      rw [List.length_drop] at k1 k2
      generalize keyGo (inp.drop e) = r at k1 k2
      obtain ⟨k, fd⟩ := r
      simp only at k1 k2 ⊢
      cases fd with
      | true =>
        simp only [if_true] at k2 ⊢
        exact .key (by omega) (by rw [peekAt_add]; exact k2) (.inl rfl) rfl (by simpa using hi)
      | false =>
        simp only [Bool.false_eq_true, if_false] at k2 ⊢
        refine .scalar (by omega) (by omega) (fun _ => ?_) (plainScalar_write _) (fun s' hs => plainScalar_kind hs)
        rcases k2 with k2 | k2
        · exact .inl (by rw [peekAt_add, k2]; decide)
        · rw [k2, show e + (inp.length - e) = inp.length by omega]; exact cut_end inp

end Verif
