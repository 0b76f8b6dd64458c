import Verif.ShiftDoc
import Verif.EchoDocs
import Verif.Props.Exact
/-
White space and comments before a text (C66).
-/
namespace Verif

theorem addPre_content (g : Bytes) (t : Tree Unit) : (t.addPre g).content = t.content := by
  cases t with
  | leaf _ _ _ => rfl
  | node _ _ m _ _ _ => cases m <;> rfl

theorem addPre_text (g : Bytes) (t : Tree Unit) : (t.addPre g).text = g ++ t.text := by
  cases t <;> simp [Tree.addPre, Tree.text, Tree.pre, Tree.render]

/-- Only the first entry of the arena differs, and only in its prefix. -/
theorem addPre_raw (g : Bytes) (t : Tree Unit) (s : Bytes) (i : Nat) : (docOf (t.addPre g) s).data.raw i = (docOf t s).data.raw i := by
  cases t <;> cases i <;> rfl

/-- C66: white space and comments before a text, ended by a line break, change nothing but what precedes the text: it is accepted with the same content, under the
same identifiers, refused with the same error at the same place of the text, or not finished, as without them; and what is written of it is what was written
before, behind them, unless a header comes after them, with which they are dropped. -/
theorem C66_before {g x : Bytes} (hb : blank g = true) (hg : g = [] ∨ g.getLast? = some NL) :
    (∀ doc, fromSlice x = .ok doc → ∃ doc', fromSlice (g ++ x) = .ok doc' ∧ doc'.root = doc.root ∧
      (∀ i, asAny doc'.data i = asAny doc.data i) ∧ (∀ c, Reads doc'.data doc'.root c ↔ Reads doc.data doc.root c) ∧
      ∃ out, doc.write = .ok out ∧ doc'.write = .ok (if hasHeader x then out else g ++ out)) ∧
    (∀ a b k, fromSlice x = .error (.err a b k) → fromSlice (g ++ x) = .error (.err (g.length + a) (g.length + b) k)) ∧
    (Terminates (g ++ x) ↔ Terminates x) := by
  have key : ∀ f, parseF f x ≠ .error .fuel → parseF f (g ++ x) ≠ .error .fuel ∧ fromSlice (g ++ x) = parseF f (g ++ x) := by
    intro f hf
    have : parseF f (g ++ x) ≠ .error .fuel := by
      rw [parseF_refine, pparseF_before hb hg]
      rw [parseF_refine] at hf
      cases hp : pparseF f x with
      | ok r => intro h; cases h
      | error e =>
        rw [hp] at hf
        cases e with
        | fuel => exact absurd rfl hf
        | panic => intro h; cases h
        | err a b k => intro h; cases h
    exact ⟨this, C05_fuel _ f this⟩
  refine ⟨fun doc h => ?_, fun a b k h => ?_, ⟨fun ⟨f, hf⟩ => ⟨f, fun hc => hf ?_⟩, fun ⟨f, hf⟩ => ⟨f, (key f hf).1⟩⟩⟩
  · have hk := key (x.length + 6) (by rw [show parseF (x.length + 6) x = .ok doc from h]; intro h; cases h)
    rw [hk.2]
    unfold fromSlice at h
    rw [parseF_refine] at h
    rw [parseF_refine, pparseF_before hb hg]
    cases hp : pparseF (x.length + 6) x with
    | error e => rw [hp] at h; cases h
    | ok r =>
      obtain ⟨t, s⟩ := r
      rw [hp] at h
      cases h
      refine ⟨_, rfl, rfl, fun i => ?_, fun c => ?_, _, docOf_write t s, ?_⟩
      · unfold asAny
        rw [addPre_raw]
      · have h1 := docOf_reads (t.addPre (if hasHeader x then [] else g)) s
        have h2 := docOf_reads t s
        rw [addPre_content] at h1
        exact ⟨fun h => Reads.unique h h1 ▸ h2, fun h => Reads.unique h h2 ▸ h1⟩
      · rw [docOf_write, addPre_text]
        split <;> simp
  · have hk := key (x.length + 6) (by rw [show parseF (x.length + 6) x = _ from h]; intro h; cases h)
    rw [hk.2]
    unfold fromSlice at h
    rw [parseF_refine] at h
    rw [parseF_refine, pparseF_before hb hg]
    cases hp : pparseF (x.length + 6) x with
    | error e => rw [hp] at h; cases h; rfl
    | ok r => rw [hp] at h; cases h
  · rw [parseF_refine] at hc
    rw [parseF_refine, pparseF_before hb hg]
    cases hp : pparseF f x with
    | error e => rw [hp] at hc; cases hc; rfl
    | ok r => rw [hp] at hc; cases hc

/-- So the texts accepted with a content are the same with and without them. -/
theorem C66_content {g x : Bytes} (hb : blank g = true) (hg : g = [] ∨ g.getLast? = some NL) (c : Content) : Accepts (g ++ x) c ↔ Accepts x c := by
  obtain ⟨h1, h2, h3⟩ := C66_before (x := x) hb hg
  rw [← C57_accepts, ← C57_accepts]
  constructor
  · rintro ⟨doc', h4, h5⟩
    cases hx : fromSlice x with
    | ok doc =>
      obtain ⟨d, h6, -, -, h7, -⟩ := h1 doc hx
      rw [h4] at h6
      cases h6
      exact ⟨doc, rfl, (h7 c).1 h5⟩
    | error e =>
      exfalso
      cases e with
      | err a b k => rw [h2 a b k hx] at h4; cases h4
      | panic => exact C04_no_panic x _ hx
      | fuel =>
        obtain ⟨f, hf⟩ := h3.1 ⟨_, by rw [show parseF ((g ++ x).length + 6) (g ++ x) = _ from h4]; intro h; cases h⟩
        exact hf ((C05_fuel x f hf).symm.trans hx)
  · rintro ⟨doc, h4, h5⟩
    obtain ⟨d, h6, -, -, h7, -⟩ := h1 doc h4
    exact ⟨d, h6, (h7 c).2 h5⟩

-- White space, a comment and an empty line before a mapping; an error moves along; a header drops them.
example : blank (b! "  # é\n\n") = true ∧ (b! "  # é\n\n").getLast? = some NL ∧ hasHeader (b! " a: 1\n b: [2, 'x']") = false ∧
    (∃ doc, fromSlice (b! "  # é\n\n" ++ b! " a: 1\n b: [2, 'x']") = .ok doc ∧ doc.write = .ok (b! "  # é\n\n" ++ b! " a: 1\n b: [2, 'x']")) := by
  refine ⟨by decide, by decide, by decide, _, rfl, by decide⟩
example : fromSlice (b! "a: \"\\q\"") = .error (.err 4 6 .badEscape) ∧
    fromSlice (b! "#\n \n" ++ b! "a: \"\\q\"") = .error (.err 8 10 .badEscape) := by decide
example : hasHeader (b! "%YAML 1.2\n---\na: 1\n") = true ∧
    ∃ doc, fromSlice (b! "#x\n" ++ b! "%YAML 1.2\n---\na: 1\n") = .ok doc ∧ doc.write = .ok (b! "\na: 1\n") := ⟨by decide, _, rfl, by decide⟩
-- Without the line break they may change everything: what stands before the first line counts towards its indentation.
example : (∃ c, Accepts (b! "a: 1\nb: 2") c) ∧ fromSlice (b! "  " ++ b! "a: 1\nb: 2") = .error (.err 7 11 .expectedEof) := by
  refine ⟨?_, by decide⟩
  obtain ⟨c, h, -⟩ := accepts_of (doc := _) (inp := b! "a: 1\nb: 2") rfl
  exact ⟨c, h⟩

end Verif
