import Verif.FrameLemmas
/-
Concrete documents used to show that the hypotheses of the property theorems are met.
-/
namespace Verif

/-- The document parsed from a text (an empty one if it is rejected). -/
def docOfText (inp : Bytes) : Document :=
  match fromSlice inp with
  | .ok d => d
  | .error _ => ⟨[], 0, Data.empty⟩

def sampleText : Bytes := b! "a: 1\nlist:\n  - x # c\n  - {k: 'v', n: ~}\nb: [p, q]\n"
def sample : Document := docOfText sampleText

theorem sample_parsed : Parsed sampleText sample := ⟨sampleText.length + 6, by decide⟩
theorem sample_reachable : Reachable sample := .parsed sample_parsed

theorem Live.viaMap {doc : Document} {x v : Nat} (l : List (Bytes × Nat)) (k : Bytes) (h : Live doc x)
    (h1 : asMapping doc.data x = .ok (some x)) (h2 : mapEntries doc.data x = .ok l) (h3 : (k, v) ∈ l) : Live doc v :=
  .step h (.inr ⟨l, k, h1, h2, h3⟩)
theorem Live.viaSeq {doc : Document} {x v : Nat} (l : List Nat) (h : Live doc x)
    (h1 : asSequence doc.data x = .ok (some x)) (h2 : seqValues doc.data x = .ok l) (h3 : v ∈ l) : Live doc v :=
  .step h (.inl ⟨l, h1, h2, h3⟩)

/-- The root: a block mapping. -/
theorem sample_live_root : Live sample 0 := .self
theorem sample_entries : mapEntries sample.data 0 = .ok [(b! "a", 2), (b! "list", 4), (b! "b", 14)] := by decide
/-- The number at `a`. -/
theorem sample_live_a : Live sample 2 := .viaMap _ (b! "a") sample_live_root (by decide) sample_entries (by decide)
/-- The block sequence at `list`. -/
theorem sample_live_list : Live sample 4 :=
  .viaMap _ (b! "list") sample_live_root (by decide) sample_entries (by decide)
/-- The inline mapping in it. -/
theorem sample_live_inner : Live sample 8 := .viaSeq [6, 8] sample_live_list (by decide) (by decide) (by decide)
/-- A string in that. -/
theorem sample_live_k : Live sample 10 :=
  .viaMap [(b! "k", 10), (b! "n", 12)] (b! "k") sample_live_inner (by decide) (by decide) (by decide)
/-- The inline sequence at `b`. -/
theorem sample_live_b : Live sample 14 := .viaMap _ (b! "b") sample_live_root (by decide) sample_entries (by decide)

/-- The document after an edit (unchanged if the edit fails). -/
def Document.after (doc : Document) (x : Nat) (op : Op) : Document :=
  match doc.edit x op with
  | .ok d => d
  | .error _ => doc

/-- The sample without `list`. -/
def sampleCut : Document := sample.after 0 (.remove (b! "list"))
theorem sampleCut_edit : sample.edit 0 (.remove (b! "list")) = .ok sampleCut := by decide
theorem sampleCut_live_b : Live sampleCut 14 :=
  .viaMap [(b! "a", 2), (b! "b", 14)] (b! "b") .self (by decide) (by decide) (by decide)

/-- The sample with a shorter `list`. -/
def sampleShort : Document := sample.after 4 (.removeAt 0)
theorem sampleShort_edit : sample.edit 4 (.removeAt 0) = .ok sampleShort := by decide
theorem sampleShort_live_list : Live sampleShort 4 :=
  .viaMap [(b! "a", 2), (b! "list", 4), (b! "b", 14)] (b! "list") .self (by decide) (by decide) (by decide)

/-- The sample after three edits. -/
def sample2 : Document :=
  match (do
    let d ← sample.edit 0 (.remove (b! "a"))
    let d ← d.edit 4 (.push (.str (b! "z: z")))
    d.edit 14 .makeMapping) with
  | .ok d => d
  | .error _ => sample

end Verif
