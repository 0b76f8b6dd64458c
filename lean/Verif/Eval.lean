import Verif.Forward
/-
The parser without fuel: results it gives whenever there is enough fuel, with the rules of `Verif.Rules` to derive them.
-/
namespace Verif

section
variable (inp : Bytes)

/-- `pvalue` with enough fuel. -/
def VE (s : PSt) (n : Nat) (t : Tree Unit) (ws : Option Bytes) (m : Nat) : Prop :=
  ∃ f0, ∀ f, f0 ≤ f → pvalue inp f s n = .ok (t, ws, m)
/-- The loops with enough fuel. -/
def FSE (last tr : Bool) (ip : Bytes) (n : Nat) (items : Items Unit) (tr' : Bool) (w : Bytes) (m : Nat) : Prop :=
  ∃ f0, ∀ f g, f0 ≤ f → f0 ≤ g → pflowSeqLoop (pvalue inp f) inp g last tr ip n = .ok (items, tr', w, m)
def FME (last tr : Bool) (ip : Bytes) (st n : Nat) (items : Items Unit) (tr' : Bool) (w : Bytes) (st' m : Nat) : Prop :=
  ∃ f0, ∀ f g, f0 ≤ f → f0 ≤ g → pflowMapLoop (pvalue inp f) inp g last tr ip st n = .ok (items, tr', w, st', m)
def BSE (ind : Nat) (ip : Bytes) (n : Nat) (items : Items Unit) (w : Bytes) (m : Nat) : Prop :=
  ∃ f0, ∀ f g, f0 ≤ f → f0 ≤ g → pseqLoop (pvalue inp f) inp ind g ip n = .ok (items, w, m)
def BME (ind st : Nat) (key : RStr) (ip : Bytes) (n : Nat) (items : Items Unit) (w : Bytes) (m : Nat) : Prop :=
  ∃ f0, ∀ f g, f0 ≤ f → f0 ≤ g → pmapLoop (pvalue inp f) inp ind g st key ip n = .ok (items, w, m)

theorem lead_mono {inp : Bytes} {f f' : Nat} {i t : Bool} {n : Nat} {l : Lead} (h : lead f' inp i t n = .ok l) (hf : inp.length ≤ f) :
    lead f inp i t n = .ok l := by
  rw [(lead_approx f' f inp i t n (by omega)).ne (by rw [h]; exact (fun h => by cases h)), h]

theorem succ_of_le {a f : Nat} (h : a + 1 ≤ f) : ∃ g, f = g + 1 ∧ a ≤ g := ⟨f - 1, by omega, by omega⟩

theorem evalRules : Rules inp (VE inp) (FSE inp) (FME inp) (BSE inp) (BME inp) where
  scalar := fun {f s n sc ws m} h => ⟨inp.length + 1, fun g hg => by
    obtain ⟨g, rfl, hg⟩ := succ_of_le hg
    simp only [pvalue, lead_mono h (show inp.length ≤ g by omega), bind, Except.bind]; rfl⟩
  seq := fun {f s n items w m} h ⟨f0, h0⟩ => ⟨max inp.length f0 + 1, fun g hg => by
    obtain ⟨g, rfl, hg⟩ := succ_of_le hg
    simp only [pvalue, lead_mono h (show inp.length ≤ g by omega), bind, Except.bind, psequence, h0 g g (by omega) (by omega)]; rfl⟩
  flowSeq := fun {f s n items tr w m} h ⟨f0, h0⟩ hp => ⟨max inp.length f0 + 1, fun g hg => by
    obtain ⟨g, rfl, hg⟩ := succ_of_le hg
    simp only [pvalue, lead_mono h (show inp.length ≤ g by omega), bind, Except.bind, pflowSeq, h0 g g (by omega) (by omega), hp,
      beq_self_eq_true, if_true]; rfl⟩
  flowMap := fun {f s n items tr w st m} h ⟨f0, h0⟩ hp => ⟨max inp.length f0 + 1, fun g hg => by
    obtain ⟨g, rfl, hg⟩ := succ_of_le hg
    simp only [pvalue, lead_mono h (show inp.length ≤ g by omega), bind, Except.bind, pflowMap, h0 g g (by omega) (by omega), hp,
      beq_self_eq_true, if_true]; rfl⟩
  keyNull := fun {f s n key m i} h hi hle => ⟨inp.length + 1, fun g hg => by
    obtain ⟨g, rfl, hg⟩ := succ_of_le hg
    simp only [pvalue, lead_mono h (show inp.length ≤ g by omega), bind, Except.bind, pmappingOrNul, hi, ge_iff_le, hle, if_true]⟩
  keyMap := fun {f s n key m items w m'} h hi ⟨f0, h0⟩ => ⟨max inp.length f0 + 1, fun g hg => by
    obtain ⟨g, rfl, hg⟩ := succ_of_le hg
    simp only [pvalue, lead_mono h (show inp.length ≤ g by omega), bind, Except.bind, pmappingOrNul]
    cases hpi : s.parentIndent with
    | none => simp only [pmappingOrNul.go, h0 g g (by omega) (by omega), bind, Except.bind]; rfl
    | some i =>
      have := hi i hpi
      simp only [ge_iff_le, show ¬ indentFrom inp n ≤ i by omega, if_false, pmappingOrNul.go, h0 g g (by omega) (by omega), bind, Except.bind]; rfl⟩
  fsStop := fun {last tr ip n} h => ⟨1, fun f g _ hg => by
    obtain ⟨g, rfl, _⟩ := succ_of_le hg
    simp only [pflowSeqLoop]
    rw [if_pos (by simpa using h)]⟩
  fsLast := fun {tr ip n v next m} h ⟨f0, h0⟩ => ⟨f0 + 1, fun f g hf hg => by
    obtain ⟨g, rfl, _⟩ := succ_of_le hg
    simp only [pflowSeqLoop]
    rw [if_neg (by simpa using h), h0 f (by omega)]; rfl⟩
  fsComma := fun {tr ip n v next m items tr' w m'} h ⟨f0, h0⟩ hc ⟨f1, h1⟩ => ⟨max f0 f1 + 1, fun f g hf hg => by
    obtain ⟨g, rfl, _⟩ := succ_of_le hg
    simp only [pflowSeqLoop]
    rw [if_neg (by simpa using h), h0 f (by omega)]
    simp only [bind, Except.bind, hc, beq_self_eq_true, if_true, Bool.not_true, Bool.false_eq_true, if_false, h1 f g (by omega) (by omega)]; rfl⟩
  fsOther := fun {tr ip n v next m items tr' w m'} h ⟨f0, h0⟩ hc ⟨f1, h1⟩ => ⟨max f0 f1 + 1, fun f g hf hg => by
    obtain ⟨g, rfl, _⟩ := succ_of_le hg
    simp only [pflowSeqLoop]
    rw [if_neg (by simpa using h), h0 f (by omega)]
    simp only [bind, Except.bind, beq_eq_false_iff_ne.2 hc, Bool.not_false, Bool.false_eq_true, if_false, h1 f g (by omega) (by omega)]; rfl⟩
  fmStop := fun {last tr ip st n} h => ⟨1, fun f g _ hg => by
    obtain ⟨g, rfl, _⟩ := succ_of_le hg
    simp only [pflowMapLoop]
    rw [if_pos (by simpa using h)]⟩
  fmLast := fun {tr ip st n key m0 v next m} h hk ⟨f0, h0⟩ => ⟨f0 + 1, fun f g hf hg => by
    obtain ⟨g, rfl, _⟩ := succ_of_le hg
    simp only [pflowMapLoop]
    rw [if_neg (by simpa using h), hk]
    simp only [h0 f (by omega)]; rfl⟩
  fmComma := fun {tr ip st n key m0 v next m items tr' w st' m'} h hk ⟨f0, h0⟩ hc ⟨f1, h1⟩ => ⟨max f0 f1 + 1, fun f g hf hg => by
    obtain ⟨g, rfl, _⟩ := succ_of_le hg
    simp only [pflowMapLoop]
    rw [if_neg (by simpa using h), hk]
    simp only [h0 f (show f0 ≤ f by omega), bind, Except.bind, hc, beq_self_eq_true, if_true, Bool.not_true, Bool.false_eq_true, if_false,
      h1 f g (by omega) (by omega)]; rfl⟩
  fmOther := fun {tr ip st n key m0 v next m items tr' w st' m'} h hk ⟨f0, h0⟩ hc ⟨f1, h1⟩ => ⟨max f0 f1 + 1, fun f g hf hg => by
    obtain ⟨g, rfl, _⟩ := succ_of_le hg
    simp only [pflowMapLoop]
    rw [if_neg (by simpa using h), hk]
    simp only [h0 f (show f0 ≤ f by omega), bind, Except.bind, beq_eq_false_iff_ne.2 hc, Bool.not_false, Bool.false_eq_true, if_false,
      h1 f g (by omega) (by omega)]; rfl⟩
  bsLast := fun {ind ip n v ws m} hp ⟨f0, h0⟩ hc => ⟨f0 + 1, fun f g hf hg => by
    obtain ⟨g, rfl, _⟩ := succ_of_le hg
    simp only [pseqLoop, h0 f (show f0 ≤ f by omega), bind, Except.bind]
    rw [if_pos (by simpa using hc)]; rfl⟩
  bsMore := fun {ind ip n v ws m items w m'} hp ⟨f0, h0⟩ hi hd ⟨f1, h1⟩ => ⟨max f0 f1 + 1, fun f g hf hg => by
    obtain ⟨g, rfl, _⟩ := succ_of_le hg
    simp only [pseqLoop, h0 f (show f0 ≤ f by omega), bind, Except.bind]
    rw [if_neg (by simp [hi, hd])]
    simp only [h1 f g (by omega) (by omega)]; rfl⟩
  bmLast := fun {ind st key ip n v ws m} hp ⟨f0, h0⟩ hc => ⟨f0 + 1, fun f g hf hg => by
    obtain ⟨g, rfl, _⟩ := succ_of_le hg
    simp only [pmapLoop]
    rw [if_neg (by simp [hp])]
    simp only [h0 f (show f0 ≤ f by omega), bind, Except.bind]
    rw [if_pos (by simpa using hc)]; rfl⟩
  bmEnd := fun {ind st key ip n v ws m m0} hp ⟨f0, h0⟩ hi hk => ⟨f0 + 1, fun f g hf hg => by
    obtain ⟨g, rfl, _⟩ := succ_of_le hg
    simp only [pmapLoop]
    rw [if_neg (by simp [hp])]
    simp only [h0 f (show f0 ≤ f by omega), bind, Except.bind]
    rw [if_neg (by simp [hi])]
    simp only [hk]; rfl⟩
  bmMore := fun {ind st key ip n v ws m m0 key' items w m'} hp ⟨f0, h0⟩ hi hk ⟨f1, h1⟩ => ⟨max f0 f1 + 1, fun f g hf hg => by
    obtain ⟨g, rfl, _⟩ := succ_of_le hg
    simp only [pmapLoop]
    rw [if_neg (by simp [hp])]
    simp only [h0 f (show f0 ≤ f by omega), bind, Except.bind]
    rw [if_neg (by simp [hi])]
    simp only [hk, h1 f g (by omega) (by omega)]; rfl⟩
end

end Verif
