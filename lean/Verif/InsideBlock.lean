import Verif.Inside
import Verif.Alone
/-
Edits inside a block collection: the text of the collection on its own, and what follows it, say whether the whole document is read back.  Used in proofs only; nothing here is part of the Rust code.
-/
namespace Verif

/-- With the white space before it, and in another spot. -/
theorem Lies.onto {inp : Bytes} {s : Spot} {a b : Nat} {t : Tree Unit} {e : Nat} (hg : FullGap inp a b) (hs : s ≠ .flow) : Lies inp .block b t e →
    (∀ pre ind items, t = .node () pre true ind .block items → s.allows (columnAt inp b)) → ∃ t', t'.content = t.content ∧ Lies inp s a t' e
  | .scalar (sc := sc) h1 h2 h3 h4 h5, _ => by
    obtain rfl := h1.unique hg.here
    have hfl : Spot.inline s = false := by cases s <;> first | rfl | exact absurd rfl hs
    have hL : Lies inp s a _ _ := .scalar hg h2 h3 (by rw [hfl]; exact h4) h5
    exact ⟨_, by simp only [Tree.content], hL⟩
  | .open h1 h2 h3 h4 h5, _ => by
    obtain rfl := h1.unique hg.here
    have hL : Lies inp s a _ _ := .open hg h2 h3 h4 h5
    exact ⟨_, by simp only [Tree.content], hL⟩
  | .lines h1 h2 h3 h4 h5, _ => by
    obtain rfl := h1.unique hg.here
    have hL : Lies inp s a _ _ := .lines hg h2 h3 h4 h5
    exact ⟨_, by simp only [Tree.content], hL⟩
  | .dashes h1 h2 h3, _ => by
    obtain rfl := h1.unique hg.here
    have hL : Lies inp s a _ _ := .dashes hg hs h3
    exact ⟨_, by simp only [Tree.content], hL⟩
  | .keys h1 h2 h3, ha => by
    obtain rfl := h1.unique hg.here
    have hL : Lies inp s a _ _ := .keys hg (ha _ _ _ rfl) h3
    exact ⟨_, by simp only [Tree.content], hL⟩
  | .brackets h1 h2 h3 h4 h5, _ => by
    obtain rfl := h1.unique hg.here
    have hL : Lies inp s a _ _ := .brackets hg h2 h3 h4 h5
    exact ⟨_, by simp only [Tree.content], hL⟩
  | .braces h1 h2 h3 h4 h5, _ => by
    obtain rfl := h1.unique hg.here
    have hL : Lies inp s a _ _ := .braces hg h2 h3 h4 h5
    exact ⟨_, by simp only [Tree.content], hL⟩

theorem Lies.preAt {inp : Bytes} {a b : Nat} {t : Tree Unit} {e : Nat} (hg : FullGap inp a b) (h : Lies inp .block a t e) : t.pre = slice inp a b := by
  cases h with
  | scalar h1 | «open» h1 | lines h1 | dashes h1 | keys h1 | brackets h1 | braces h1 => rw [h1.unique hg]; rfl

/-- Before a line break no key goes on. -/
theorem KeysStay.line {x Q : Bytes} (hQ : Q.head? = some NL) : KeysStay x [NL] Q := by
  have h : KeysEnd (x ++ [NL]) x.length := by
    intro c k lo q h1 h2 h3 h4
    have hq := h4.2.1
    have hlt := (List.getElem?_eq_some_iff.1 hq).1
    rw [List.length_append, List.length_singleton] at hlt
    rcases Nat.lt_or_ge q x.length with h | h
    · exact h
    · obtain rfl : q = x.length := by omega
      rw [List.getElem?_append_right (Nat.le_refl _), Nat.sub_self] at hq
      cases hq
  have := h.stay (W := Q) (by simp) (by cases Q with | nil => cases hQ | cons b Q => cases hQ; exact NL_ws)
  rwa [List.take_left' rfl, List.drop_left' rfl] at this

/-- A value on its own, in another place in the same column, with something else after the line break. -/
theorem Lies.rejoin {k : Nat} {T P Q : Bytes} {v : Tree Unit} (hf : followed (List.replicate k SP ++ T ++ [NL]) = true) (hQ : followed Q = true)
    (h : Lies (List.replicate k SP ++ T ++ [NL]) .block k v (k + T.length)) (hc : ∀ c r, T ++ Q = c :: r → isCont c = false) (hP : columnAt (P ++ (T ++ Q)) P.length = k) (hnl : Q.head? = some NL)
    {n c : Nat} {m f : Bool} {p : Nat} (hn : FullGap Q 0 n) (hm : ∀ m' ind, (ind = c → m' = false ∧ m = true) → ¬ Goes (P ++ T ++ Q) m' ind ((P ++ T).length + n))
    (hc0 : f = true → columnAt (P ++ T ++ Q) ((P ++ T).length + n) = c ∧ ∃ k q, FirstKey Q k n q) {j : Nat} (hcl : columnAt (P ++ T ++ Q) ((P ++ T).length + n) ≤ j) (hv : v.tailOk c m f p j) :
    Lies (P ++ T ++ Q) .block P.length v (P ++ T).length := by
  have hl : (List.replicate k SP).length = k := List.length_replicate
  have hx : (List.replicate k SP ++ T).length = k + T.length := by rw [List.length_append, hl]
  have hn0 : NL ∈ Q.take n := by
    cases Q with
    | nil => cases hnl
    | cons b Q =>
      cases hnl
      cases n with
      | zero => exact absurd hn.2.1 (by simp only [List.getD_cons_zero]; decide)
      | succ n => rw [List.take_succ_cons]; exact List.mem_cons_self ..
  have hcol : columnAt (List.replicate k SP ++ T ++ Q) ((List.replicate k SP ++ T).length + n) = columnAt (P ++ T ++ Q) ((P ++ T).length + n) := mv_col hn0
  have U : Under (List.replicate k SP ++ T) [NL] Q ((List.replicate k SP ++ T).length + n) (columnAt (P ++ T ++ Q) ((P ++ T).length + n)) f := by
    refine ⟨by simp, hnl, ?_, hcol, KeysStay.line hnl, fun h => ?_⟩
    · exact (@sh_full (List.replicate k SP ++ T) Q 0 n).2 hn
    · obtain ⟨-, k', q, hk⟩ := hc0 h
      exact ⟨k', _, sh_firstKey.2 hk⟩
  have h1 := (h.restG U (c := c) (m := m) (p := p) (fun m' ind h0 hG => by
    refine hm m' ind h0 ?_
    unfold Goes at hG ⊢
    rw [hcol, sh_getD, sh_get] at hG
    rw [sh_getD, sh_get]
    exact hG) (fun h => (hc0 h).1) hcl hf hx.symm (by simp) hv (fun _ h => by cases h)).2
  have hf2 := followed_join hQ hf
  rw [List.append_assoc] at h1 hf2 ⊢
  have := Lies.moved (u' := P) (a := 0) (e := T.length) hf2 h1 (by rw [hl]; rfl) (by rw [hx, hl]) (.inr (.width hc (by rw [columnAt_spaces, hP])))
  rw [Nat.add_zero] at this
  rw [List.length_append]
  exact this

end Verif
