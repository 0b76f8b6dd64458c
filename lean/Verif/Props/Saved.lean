import Verif.Props.Build
import Verif.Props.Typed
/-
C96 with C98: a value that is stored and saved is given to the types it fits.
-/
namespace Verif

/-- C96 with C98: any value is stored as the whole document, which is written and read again; each type that fits the value that was stored gets its data from the document
that was read.  What is missing is what C96 misses: mappings as first items of new sequences, and other values that are not written as they are. -/
theorem C96_typed_partial {q : Mode} {doc : Document} (h : Tidy q doc) {c : Content} (hc : c.canBuild = true ∨ c.canBuildTop = true ∧ lastLine (prefixOf doc.data doc.root) = []) :
    ∃ d' out doc2, replaceWith doc.data doc.root c = .ok d' ∧ Document.write ⟨doc.suffix, doc.root, d'⟩ = .ok out ∧ fromSlice out = .ok doc2 ∧
      ∀ τ r, Gets True τ c r → ∃ N, ∀ f, N ≤ f → plainly (types.run doc2.data f τ doc2.root) = .ok r := by
  obtain ⟨d', out, doc2, h1, h2, h3, -, -, h4⟩ := C96_all_partial h hc
  exact ⟨d', out, doc2, h1, h2, h3, fun τ r hg => C98_ignoring (parsed_iff.2 h3) .self h4 hg⟩

/-- `struct { k: u8, l: (bool, struct { m: String, n: Vec<Option<String>> }) }`. -/
def savedInner : Ty := .record (fun _ => true) fun k => if k == b! "m" then .str else if k == b! "n" then .vec (.opt .str) else .ignored
def savedTy : Ty := .record (fun _ => true) fun k => if k == b! "k" then .int .u8 else if k == b! "l" then .tuple 2 (fun i => if i = 0 then .bool else savedInner) else .ignored

/-- What it is to be given. -/
theorem savedTy_gets : Gets True savedTy nestedSample
    [.map ⟨[0, 0]⟩, .bytes (b! "k"), .int .u8 1, .bytes (b! "l"), .seq ⟨[0, 0]⟩, .bool true, .map ⟨[0, 0]⟩, .bytes (b! "m"), .str (b! "it's"), .bytes (b! "n"), .seq ⟨[0, 0]⟩, .none, .some 0, .str (b! "x: y")] := by
  refine ⟨_, _, rfl, rfl, ?_⟩
  refine ⟨[.int .u8 1], _, rfl, ⟨b! "1", 1, rfl, by decide, by decide, .inr (by decide), by decide, rfl⟩, ?_⟩
  refine ⟨_, [], (List.append_nil _).symm, ⟨_, _, rfl, by decide, rfl, ?_⟩, rfl⟩
  refine ⟨[.bool true], _, rfl, ⟨true, rfl, rfl⟩, ?_⟩
  refine ⟨_, [], (List.append_nil _).symm, ⟨_, _, rfl, rfl, ?_⟩, rfl⟩
  refine ⟨[.str (b! "it's")], _, rfl, ⟨_, rfl, by decide, rfl⟩, ?_⟩
  refine ⟨_, [], (List.append_nil _).symm, ⟨_, _, rfl, rfl, ?_⟩, rfl⟩
  refine ⟨[.none], _, rfl, .inl ⟨rfl, rfl⟩, ?_⟩
  exact ⟨[.some 0, .str (b! "x: y")], [], rfl, .inr ⟨(fun h => by cases h), _, rfl, _, rfl, by decide, rfl⟩, rfl⟩

example : Tidy .none edit0 ∧ nestedSample.canBuild = true ∧ ∃ d' out doc2, replaceWith edit0.data edit0.root nestedSample = .ok d' ∧ Document.write ⟨edit0.suffix, edit0.root, d'⟩ = .ok out ∧ fromSlice out = .ok doc2 ∧
    ∃ N, ∀ f, N ≤ f → plainly (types.run doc2.data f savedTy doc2.root) = .ok
      [.map ⟨[0, 0]⟩, .bytes (b! "k"), .int .u8 1, .bytes (b! "l"), .seq ⟨[0, 0]⟩, .bool true, .map ⟨[0, 0]⟩, .bytes (b! "m"), .str (b! "it's"), .bytes (b! "n"), .seq ⟨[0, 0]⟩, .none, .some 0, .str (b! "x: y")] := by
  have hc : nestedSample.canBuild = true := by decide +kernel
  obtain ⟨d', out, doc2, h1, h2, h3, h4⟩ := C96_typed_partial edit0_tidy (c := nestedSample) (.inl hc)
  exact ⟨edit0_tidy, hc, d', out, doc2, h1, h2, h3, h4 _ _ savedTy_gets⟩

end Verif
