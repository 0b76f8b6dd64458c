import Verif.ExactFault
/-
Documents, forwards.
-/
namespace Verif

theorem startLoop_ends {inp : Bytes} : ∀ (f n : Nat) (pre : Bytes), n ≤ inp.length → inp.length + 1 ≤ n + f → ∃ r, startLoop inp f n pre = .ok r
  | 0, _, _, hn, h => by omega
  | f + 1, n, pre, hn, h => by
    unfold startLoop
    split
    · next hp =>
      simp only [beq_iff_eq] at hp
      have h0 : peekAt inp n ≠ 0 := by rw [hp]; decide
      have hlt := lt_of_peek h0
      have h1 : 1 ≤ findNl (inp.drop n) := by
        rw [drop_peek h0, hp, findNl]
        exact Nat.succ_le_succ (Nat.zero_le _)
      have h2 := (line_end hn).1
      have h3 := le_wsEnd inp (n + findNl (inp.drop n))
      exact startLoop_ends f _ _ (wsEnd_le h2) (by omega)
    · split
      · exact ⟨_, rfl⟩
      · exact ⟨_, rfl⟩

/-- Where the value at the top starts. -/
theorem start_at {inp : Bytes} {lo : Nat} (hlo : lo ≤ inp.length) (hd : inp.drop lo = skipBlank false (body inp)) :
    wsEnd inp lo = lo ∧ ∃ pre, ∀ f, inp.length + 1 ≤ f → startOfDocument f inp = .ok (pre, lo) := by
  have hw := Pos.ws (inp := inp) (n := 0) (Nat.zero_le _) (cut_zero inp)
  obtain ⟨⟨pre, n⟩, hs⟩ := startLoop_ends (inp.length + 1) (wsEnd inp 0) (wsStr inp 0) hw.2.1 (by omega)
  obtain ⟨k, k1, k2, rfl, rfl, k5⟩ := startLoop_body (inp.length + 1) 0 (Nat.zero_le _) (cut_zero _) hs (inp.length + 1) (by simp)
  have hd' : inp.drop (wsEnd inp k) = skipBlank false (body inp) := by
    rw [skipBlank_eq, body]
    rw [List.drop_zero] at k5
    rw [k5, List.drop_drop, wsEnd]
  have hk := wsEnd_le k1
  obtain rfl : lo = wsEnd inp k := by
    have := congrArg List.length (hd.trans hd'.symm)
    rw [List.length_drop, List.length_drop] at this
    omega
  refine ⟨wsEnd_idem _ _, wsStr inp k, fun f hf => ?_⟩
  unfold startOfDocument
  rw [(startLoop_approx (inp.length + 1) f _ _ hw.2.1 (by omega)).ne (by rw [hs]; exact (fun h => by cases h)), hs]

mutual
theorem content_label (k : Nat) : ∀ t : Tree Unit, (t.label k).content = t.content
  | .leaf _ _ _ => rfl
  | .node _ _ true _ _ items => by rw [Tree.label, Tree.content, Tree.content, entriesC_label]
  | .node _ _ false _ _ items => by rw [Tree.label, Tree.content, Tree.content, elemsC_label]
theorem entriesC_label (k : Nat) : ∀ is : Items Unit, (is.label k).entriesC = is.entriesC
  | .nil => rfl
  | .cons _ p key v rest => by rw [Items.label, Items.entriesC, Items.entriesC, content_label, entriesC_label]
theorem elemsC_label (k : Nat) : ∀ is : Items Unit, (is.label k).elemsC = is.elemsC
  | .nil => rfl
  | .cons _ p key v rest => by rw [Items.label, Items.elemsC, Items.elemsC, content_label, elemsC_label]
end

theorem docOf_reads (t : Tree Unit) (suffix : Bytes) : Reads (docOf t suffix).data (docOf t suffix).root t.content := by
  have hd := docOf_holds t suffix
  rw [hd.root, ← content_label 0 t]
  exact Tree.content_reads hd.rep

/-- With enough fuel for a result there is enough. -/
theorem fromSlice_of {inp : Bytes} {f : Nat} (h : pparseF f inp ≠ .error .fuel) : fromSlice inp = parseF f inp := by
  unfold fromSlice
  rw [parseF_refine, parseF_refine, (pparseF_approx inp f (inp.length + 6) (by omega)).ne h]

/-- Texts that fit are accepted. -/
theorem accepted {inp : Bytes} {c : Content} (h : Accepts inp c) : ∃ doc, fromSlice inp = .ok doc ∧ Reads doc.data doc.root c := by
  obtain ⟨lo, hi, h1, h2, h3, h4⟩ := h
  obtain ⟨hw, pre, hs⟩ := start_at h1 h2
  obtain ⟨t, ws, m, ⟨f0, e1⟩, rfl, -, -, e4, -⟩ := h3.run ⟨pre, false, true, none⟩ rfl rfl h1 hw
  have hm := h4.unique e4
  have hp : pparseF (max f0 (inp.length + 1)) inp = .ok (t, (wsOr inp ws m).1) := by
    unfold pparseF
    simp only [hs _ (Nat.le_max_right ..), e1 _ (Nat.le_max_left ..), bind, Except.bind, ← hm, if_true]; rfl
  exact ⟨_, by rw [fromSlice_of (by rw [hp]; exact (fun h => by cases h)), parseF_refine, hp], docOf_reads _ _⟩

/-- Texts that do not fit are refused. -/
theorem refuses {inp : Bytes} {a b : Nat} {k : ErrKind} (h : Refuses inp a b k) : fromSlice inp = .error (.err a b k) := by
  obtain ⟨lo, h1, h2, h3⟩ := h
  obtain ⟨hw, pre, hs⟩ := start_at h1 h2
  rcases h3 with h3 | ⟨c, hi, h3, h4, h5, rfl, rfl⟩
  · obtain ⟨f0, e1⟩ := h3.run ⟨pre, false, true, none⟩ rfl rfl h1 hw
    have hp : pparseF (max f0 (inp.length + 1)) inp = .error (.err a b k) := by
      unfold pparseF
      simp only [hs _ (Nat.le_max_right ..), e1 _ (Nat.le_max_left ..), bind, Except.bind]
    rw [fromSlice_of (by rw [hp]; exact (fun h => by cases h)), parseF_refine, hp]
  · obtain ⟨t, ws, m, ⟨f0, e1⟩, rfl, -, -, e4, -⟩ := h3.run ⟨pre, false, true, none⟩ rfl rfl h1 hw
    obtain rfl := h4.unique e4
    have hp : pparseF (max f0 (inp.length + 1)) inp = .error (.err (wsOr inp ws m).2 inp.length .expectedEof) := by
      unfold pparseF
      simp only [hs _ (Nat.le_max_right ..), e1 _ (Nat.le_max_left ..), bind, Except.bind]
      rw [if_neg (by omega)]
    rw [fromSlice_of (by rw [hp]; exact (fun h => by cases h)), parseF_refine, hp]

/-- What a document that was read says is in the text. -/
theorem accepts_of {inp : Bytes} {doc : Document} (h : fromSlice inp = .ok doc) : ∃ c, Accepts inp c ∧ Reads doc.data doc.root c := by
  unfold fromSlice at h
  generalize inp.length + 6 = f at h
  rw [parseF_refine] at h
  cases hp : pparseF f inp with
  | error e => rw [hp] at h; cases h
  | ok r =>
    obtain ⟨t, suffix⟩ := r
    rw [hp] at h
    cases h
    refine ⟨t.content, ?_, docOf_reads _ _⟩
    unfold pparseF startOfDocument at hp
    cases hs : startLoop inp f (wsEnd inp 0) (wsStr inp 0) with
    | error e => simp only [hs, bind, Except.bind] at hp; cases hp
    | ok r =>
      obtain ⟨pre, n⟩ := r
      obtain ⟨k, k1, k2, rfl, rfl, k5⟩ := startLoop_body f 0 (Nat.zero_le _) (cut_zero _) hs (inp.length + 1) (by simp)
      simp only [hs, bind, Except.bind] at hp
      cases hv : pvalue inp f ⟨wsStr inp k, false, true, none⟩ (wsEnd inp k) with
      | error e => rw [hv] at hp; cases hp
      | ok r =>
        obtain ⟨t', ws, m⟩ := r
        rw [hv] at hp
        simp only at hp
        split at hp
        · next he =>
          cases hp
          obtain ⟨e, h2, h3, h4, h5, h6⟩ := PV.after (place_rules.value f _ _ _ _ _ hv) k1 rfl
          refine ⟨wsEnd inp k, e, wsEnd_le k1, ?_, h2.content, by rw [he] at h5; exact h5⟩
          rw [skipBlank_eq, body]
          rw [List.drop_zero] at k5
          rw [k5, List.drop_drop, wsEnd]
        · cases hp

end Verif
