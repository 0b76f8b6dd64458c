import Verif.EchoRun
import Verif.ExactDocs
/-
Documents: what is written for a text that was read.
-/
namespace Verif

theorem body_starts {inp : Bytes} {a : Nat} (ha : a ≤ inp.length) (h : inp.drop a = body inp) {f : Nat} (hf : inp.length + 1 ≤ f) :
    startOfDocument f inp = .ok (wsStr inp a, wsEnd inp a) := by
  have hw := Pos.ws (inp := inp) (n := 0) (Nat.zero_le _) (cut_zero inp)
  obtain ⟨⟨pre, n⟩, hs⟩ := startLoop_ends f (wsEnd inp 0) (wsStr inp 0) hw.2.1 (by omega)
  obtain ⟨k, k1, k2, rfl, rfl, k5⟩ := startLoop_body f 0 (Nat.zero_le _) (cut_zero _) hs (inp.length + 1) (by simp)
  obtain rfl : a = k := by
    rw [List.drop_zero] at k5
    have := congrArg List.length (h.trans k5)
    rw [List.length_drop, List.length_drop] at this
    omega
  exact hs

theorem docOf_write (t : Tree Unit) (suffix : Bytes) : (docOf t suffix).write = .ok (t.text ++ suffix) := by
  rw [(docOf_holds t suffix).write, show (t.label 0).text = t.text by rw [Tree.text, Tree.text, Tree.label_render, Tree.label_pre]]
  rfl

theorem echoed {inp out : Bytes} (h : Echoes inp out) : ∃ doc, fromSlice inp = .ok doc ∧ doc.write = .ok out := by
  obtain ⟨a, hi, v, h1, h2, h3, h4, rfl⟩ := h
  obtain ⟨t, ws, m, ⟨f0, e1⟩, rfl, e2⟩ := h3.run ⟨wsStr inp a, false, true, none⟩ rfl rfl rfl h1
  have hm := h4.unique e2.2.2.1
  have hp : pparseF (max f0 (inp.length + 1)) inp = .ok (t, (wsOr inp ws m).1) := by
    unfold pparseF
    simp only [body_starts h1 h2 (Nat.le_max_right ..), e1 _ (Nat.le_max_left ..), bind, Except.bind, ← hm, if_true]; rfl
  refine ⟨_, by rw [fromSlice_of (by rw [hp]; exact (fun h => by cases h)), parseF_refine, hp], ?_⟩
  rw [docOf_write, e2.2.2.2.1, ← hm]

theorem echoes_of {inp : Bytes} {doc : Document} (h : fromSlice inp = .ok doc) : ∃ out, doc.write = .ok out ∧ Echoes inp out := by
  unfold fromSlice at h
  generalize inp.length + 6 = f at h
  rw [parseF_refine] at h
  cases hp : pparseF f inp with
  | error e => rw [hp] at h; cases h
  | ok r =>
    obtain ⟨t, suffix⟩ := r
    rw [hp] at h
    cases h
    refine ⟨_, docOf_write t suffix, ?_⟩
    unfold pparseF startOfDocument at hp
    cases hs : startLoop inp f (wsEnd inp 0) (wsStr inp 0) with
    | error e => simp only [hs, bind, Except.bind] at hp; cases hp
    | ok r =>
      obtain ⟨pre, n⟩ := r
      obtain ⟨k, k1, k2, rfl, rfl, k5⟩ := startLoop_body f 0 (Nat.zero_le _) (cut_zero _) hs (inp.length + 1) (by simp)
      simp only [hs, bind, Except.bind] at hp
      cases hv : pvalue inp f ⟨wsStr inp k, false, true, none⟩ (wsEnd inp k) with
      | error e => rw [hv] at hp; cases hp
      | ok r =>
        obtain ⟨t', ws, m⟩ := r
        rw [hv] at hp
        simp only at hp
        split at hp
        · next he =>
          cases hp
          obtain ⟨e, h2, h3⟩ := echo_rules.value f _ _ _ _ _ hv k k1 rfl rfl rfl
          have h5 := h3.2.2.1
          have h6 := h3.2.2.2.1
          rw [he] at h5 h6
          refine ⟨k, e, t.text, k1, ?_, h2, h5, by rw [h6]⟩
          rw [List.drop_zero] at k5
          exact k5.symm
        · cases hp

end Verif
