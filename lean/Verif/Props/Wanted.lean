import Verif.WantedLemmas
import Verif.Props.Serde
/-
C40 for types: values are deserialized with all that is in them.
-/
namespace Verif

/-- C40 for documents in which all numbers of the text fit: whatever types are asked for, for a value and for what is in it, deserialization ends. -/
theorem C40_types_partial {doc : Document} {x : Nat} (h : Sound true doc) (hl : Live doc x) {σ : Type} (T : Wanted σ) (hT : T.founded) (s : σ) : Ends fun f => T.run doc.data f s x := by
  obtain ⟨t, ht, ha⟩ := h.holds
  obtain ⟨u, hu⟩ := (ht.live_iff x).1 hl
  obtain ⟨p, hat⟩ := ht.at hu
  obtain ⟨rank, hT⟩ := hT
  have := Wanted.run_tree hT hat.rep (Tree.all_find ha hu) s
  rwa [Tree.find_id hu] at this

/-- Exactly the numbers that do not fit are what makes deserialization of a parsed document run forever, for one type or another. -/
theorem C40_types_exact_partial {inp : Bytes} {doc : Document} (h : Parsed inp doc) :
    (∀ x, Live doc x → ∀ (σ : Type) (T : Wanted σ) (s : σ), T.founded → Ends fun f => T.run doc.data f s x) ↔ ∀ x s, Live doc x → asNumber doc.data x = .ok (some s) → fits s = true := by
  constructor
  · intro he x s hl hn
    refine Classical.byContradiction fun hf => ?_
    have hf : fits s = false := by simpa using hf
    obtain ⟨N, r, h1, h2⟩ := he x hl Unit ⟨fun _ => .any, id, fun _ _ => some (), fun _ _ => true, fun _ _ _ => some ()⟩ () ⟨fun _ => 0, fun _ h => by cases h⟩
    have h3 := (C40_exact_partial h hl).2 ⟨s, hn, hf⟩ N
    have h4 := h2 (N + 1) (by omega)
    simp only [Wanted.run, h3] at h4
    exact h1 .fuel h4.symm
  · exact fun hf x hl σ T s hT => C40_types_partial (.parsed h hf) hl T hT s

/-- `Vec<Option<T>>`, where `T` may be anything, such as this type: `0` and `1` stand for the sequence and the option, `2` for what is in it, which is only looked at in part: of a mapping, the values of the
first three entries but for one with the key `b`. -/
def sampleTypes : Wanted Nat where
  ask s := if s = 0 then .seq else if s = 1 then .option else .any
  inner _ := 2
  elem s _ := if s = 0 then some 1 else some 0
  more _ n := n < 3
  value _ _ k := if k = b! "b" then none else some 0

theorem sampleTypes_founded : sampleTypes.founded := ⟨fun s => 2 - s, fun s h => by
  simp only [sampleTypes] at h ⊢
  split at h
  · cases h
  · split at h
    · omega
    · cases h⟩

example : Ends fun f => sampleTypes.run sampleNum.data f 0 14 := C40_types_partial (sampleNum_sound true) sampleNum_live_b _ sampleTypes_founded 0

example : sampleTypes.run sampleNum.data 30 0 14 =
    .ok [.seq ⟨[15, 17, 19]⟩, .some 16, .str (b! "p"), .some 18, .str (b! "q"), .some 20, .f32 (b! "1.5")] := by decide +kernel

example : ∀ x, Live sample x → ∀ (σ : Type) (T : Wanted σ) (s : σ), T.founded → Ends fun f => T.run sample.data f s x :=
  (C40_types_exact_partial sample_parsed).2 fun x s _ h => numbersFit_live (by decide) x s h

end Verif
