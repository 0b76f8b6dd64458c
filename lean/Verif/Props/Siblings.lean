import Verif.PlaceRules
import Verif.Finish
import Verif.Props.Grammar
import Verif.Props.Samples
/-
What follows a block scalar (C55).
-/
namespace Verif

/-- C55 is false: a block scalar without lines takes the entries that follow it as its lines. -/
theorem C55_siblings_false :
    (∃ doc, fromSlice (b! "a: |\nb: c\n") = .ok doc ∧ Reads doc.data doc.root (.map (.cons (b! "a") (.scalar (.string (b! "b: c\n\n"))) .nil))) ∧
    ∃ doc, fromSlice (b! "a: >-\n\nb: 1\nc: 2\n") = .ok doc ∧ Reads doc.data doc.root (.map (.cons (b! "a") (.scalar (.string (b! "b: 1 c: 2 "))) .nil)) :=
  ⟨⟨docOfText (b! "a: |\nb: c\n"), by decide, [(b! "a", 2)], ⟨by decide, by decide⟩, 2, [], rfl, ⟨by decide, rfl⟩, rfl⟩,
    docOfText (b! "a: >-\n\nb: 1\nc: 2\n"), by decide, [(b! "a", 2)], ⟨by decide, by decide⟩, 2, [], rfl, ⟨by decide, rfl⟩, rfl⟩

theorem BlockRows.all {inp : Bytes} {folded : Bool} {p : Nat} {v : Bytes} {hi n : Nat} : BlockRows inp folded 0 p v hi n → FullGap inp hi inp.length
  | .last _ _ _ _ h => absurd h (Nat.not_lt_zero _)
  | .final _ _ _ h _ => h
  | .more _ _ _ _ _ h => h.all

theorem block_total {inp : Bytes} {n hdr : Nat} {j : UInt8} {fo ch cl : Bool} (hn : n < inp.length) (hh : 1 ≤ hdr) :
    ∃ r, block inp.length inp n hdr j fo ch cl = .ok r := by
  have hf := block_fin inp.length inp n hdr j fo ch cl hn hh (by omega)
  cases h : block inp.length inp n hdr j fo ch cl with
  | ok r => exact ⟨r, rfl⟩
  | error e =>
    exfalso
    apply hf
    rw [h]
    unfold block at h
    simp only [bind, Except.bind] at h
    split at h
    · next he => cases h; rw [blockLoop_err he]
    · cases h

/-- C55, how it fails: a block scalar without lines that is the value of a key takes all of the text that follows. -/
theorem C55_siblings_lost {key rest : Bytes} {folded : Bool} {chomp : Chomp} (hk : keyBlock key = true) (hp : key.headD 0 ≠ PCT)
    (hr : isWs (rest.headD 0) = false ∧ rest.headD 0 ≠ HASH) :
    ∃ doc x s, fromSlice (key ++ b! ": " ++ [if folded then GT else PIPE] ++ chomp.text ++ b! "\n" ++ rest) = .ok doc ∧
      IsMap doc.data doc.root [(key, x)] ∧ asAny doc.data x = .ok (.string s) := by
  obtain ⟨k1, k2, k3, k4, k5, k6⟩ := keyBlock_iff hk
  generalize hinp : key ++ b! ": " ++ [if folded then GT else PIPE] ++ chomp.text ++ b! "\n" ++ rest = inp
  have h0 : inp.drop 0 = key ++ COLON :: SP :: (if folded then GT else PIPE) :: (chomp.text ++ NL :: rest) := by
    rw [← hinp]; simp [COLON, SP, NL]
  have h1 := drop_add h0
  rw [Nat.zero_add] at h1
  have h2 := drop_cons h1
  have h3 := drop_cons h2
  have h4 := drop_cons h3
  generalize hK : key.length = K at *
  have hlk : lead 0 inp false true 0 = .ok (.key ⟨.bare, key, key⟩ K) := by
    have := lead_key h0 hk rfl
    rw [Nat.zero_add, hK] at this
    exact this
  have hb1 : bump inp K 1 = K + 1 := bump_cons h1
  have hst : stopWs ((if folded then GT else PIPE) :: (chomp.text ++ NL :: rest)) := by
    cases folded
    · exact ⟨rfl, by show PIPE ≠ HASH; decide⟩
    · exact ⟨rfl, by show GT ≠ HASH; decide⟩
  obtain ⟨w1, w2⟩ := ws_of (w := [SP]) h2 (wsGo_append (w := [SP]) (by decide) hst)
  have w1 : wsEnd inp (K + 1) = K + 2 := w1
  have hlt := lt_of_cons h3
  -- the header
  have hpe : peekAt inp (K + 2) = if folded then GT else PIPE := peek_cons h3
  have hpn : peekAt inp (K + 2 + 1) = hd (chomp.text ++ NL :: rest) := peek_of h4
  obtain ⟨r, hr'⟩ := block_total (inp := inp) (n := K + 2) (hdr := if peekAt inp (K + 2 + 1) == DASH || peekAt inp (K + 2 + 1) == 43 then 2 else 1)
    (j := if peekAt inp (K + 2) == GT then SP else NL) (fo := peekAt inp (K + 2) == GT) (ch := peekAt inp (K + 2 + 1) != DASH) (cl := peekAt inp (K + 2 + 1) == DASH)
    hlt (by split <;> omega)
  obtain ⟨s, ws, m⟩ := r
  have hlead : lead inp.length inp false true (K + 2) = .ok (.scalar (.string s) (some ws) m) := by
    have e : ∀ x : UInt8, x = GT ∨ x = PIPE → (x == DASH) = false ∧ (x == DQ) = false ∧ (x == SQ) = false ∧ (x == LBR) = false ∧ (x == LCB) = false ∧
        (x == GT || x == PIPE) = true := by rintro x (rfl | rfl) <;> decide
    obtain ⟨e1, e2, e3, e4, e5, e6⟩ := e (peekAt inp (K + 2)) (by rw [hpe]; cases folded <;> simp)
    simp only [lead, e1, e2, e3, e4, e5, e6, Bool.false_and, Bool.false_eq_true, if_false, if_true, hr', bind, Except.bind]
    rfl
  -- everything is read
  have hm : m = inp.length := by
    obtain ⟨w, hi, k, g1, g2, g3, g4, -, rfl⟩ := block_back (by split <;> rfl) (by simp) (Nat.le_of_lt hlt) hr'
    have hh : ∃ h, bump inp (K + 2) (if peekAt inp (K + 2 + 1) == DASH || peekAt inp (K + 2 + 1) == 43 then 2 else 1) = h ∧ inp.drop h = NL :: rest := by
      rw [hpn]
      cases chomp with
      | strip => exact ⟨K + 4, Nat.min_eq_left (lt_of_cons h4), drop_cons h4⟩
      | clip => exact ⟨K + 3, Nat.min_eq_left hlt, h4⟩
      | keep => exact ⟨K + 4, Nat.min_eq_left (lt_of_cons h4), drop_cons h4⟩
    obtain ⟨h, hh, h5⟩ := hh
    rw [hh] at g1 g3
    have hw := (ws_of (w := [NL]) h5 (wsGo_append (w := [NL]) (by decide) hr)).1
    have hcol : columnAt inp (h + 1) = 0 := (Col.line (k := 0) h5).indentFrom
    have hbr : wsNl inp h = 0 → False := by
      intro h0
      rw [wsNl, h5] at h0
      simp [wsGo, show (NL == HASH) = false by decide] at h0
    refine FullGap.eq ?_
    cases g1 with
    | below q1 q2 q3 =>
      have e := q1.eq
      rw [hw] at e
      rw [← e, show h + [NL].length = h + 1 from rfl, hcol] at q3
      exact q3.all
    | nothing q1 _ => exact q1
    | beside q1 q2 => exact (hbr (by rw [← breaks_ws, q1.eq]; exact q2)).elim
    | both q1 q2 => exact (hbr (by rw [← breaks_ws, q1.eq]; exact q2)).elim
  subst hm
  -- the mapping
  have hv : VE inp ⟨[SP], false, true, some 0⟩ (K + 2) (.leaf () [SP] (.string s)) (some ws) inp.length :=
    (evalRules inp).scalar (f := inp.length) (s := ⟨[SP], false, true, some 0⟩) hlead
  have hi0 : indentFrom inp 0 = 0 := (Col.zero inp).indentFrom
  have hbm : BME inp 0 0 ⟨.bare, key, key⟩ [] K (.cons () [] ⟨.bare, key, key⟩ (.leaf () [SP] (.string s)) .nil) ws inp.length := by
    by_cases hc : indentFrom inp inp.length = 0
    · refine (evalRules inp).bmEnd (m := inp.length) (ws := some ws) (peek_cons h1) (by rw [hb1, w1, w2]; exact hv) hc ?_
      simp [nextMappingKey, wsOr, colonGo, slice]
    · exact (evalRules inp).bmLast (m := inp.length) (ws := some ws) (peek_cons h1) (by rw [hb1, w1, w2]; exact hv) hc
  obtain ⟨f0, hf⟩ := (evalRules inp).keyMap (s := ⟨[], false, true, none⟩) (f := 0) hlk (by intro i h; cases h) (by rw [hi0]; exact hbm)
  have hs : startOfDocument (f0 + 1) inp = .ok ([], 0) := by
    obtain ⟨w3, w4⟩ := ws_none h0 (by
      refine ⟨?_, ?_⟩
      · rw [hd_append k1]; exact (indicator_ne k2).2.2.2.2.2.2.2
      · rw [hd_append k1]; exact beq_eq_false_iff_ne.1 (indicator_ne k2).1)
    have hp0 : peekAt inp 0 = hd key := by rw [peek_of h0]; exact hd_append k1
    simp only [startOfDocument, w3, w4, startLoop, hp0, beq_eq_false_iff_ne.2 hp, beq_eq_false_iff_ne.2 k3, Bool.false_and, Bool.false_eq_true, if_false]
  have hpp : pparseF (f0 + 1) inp = .ok (.node () [] true 0 .block (.cons () [] ⟨.bare, key, key⟩ (.leaf () [SP] (.string s)) .nil), ws) := by
    simp only [pparseF, hs, bind, Except.bind, hf (f0 + 1) (by omega), wsOr, if_true, hi0]; rfl
  have hdoc := docOf_holds (.node () [] true 0 .block (.cons () [] ⟨.bare, key, key⟩ (.leaf () [SP] (.string s)) .nil)) ws
  have hpar : Parsed inp (docOf (.node () [] true 0 .block (.cons () [] ⟨.bare, key, key⟩ (.leaf () [SP] (.string s)) .nil)) ws) := ⟨f0 + 1, by rw [parseF_refine, hpp]⟩
  refine ⟨_, _, s.id, parsed_iff.1 hpar, ?_, asAny_leaf hdoc.rep.node.2.cons.2.1⟩
  rw [hdoc.root]
  exact isMap_node hdoc.rep

example : ∃ doc x s, fromSlice (b! "a: >+\nb: [1, 2]\n# end\nc: |\n") = .ok doc ∧ IsMap doc.data doc.root [(b! "a", x)] ∧ asAny doc.data x = .ok (.string s) :=
  C55_siblings_lost (key := b! "a") (rest := b! "b: [1, 2]\n# end\nc: |\n") (folded := true) (chomp := .keep) (by decide) (by decide) (by decide)

/-- C55 for block scalars with lines: in a mapping in column `c`, a block scalar whose lines are further to the right ends where the next key is, and all of the other
entries are read. -/
theorem C55_siblings_partial {lead tail before key : Bytes} {c : Nat} {place : Place} {b : Blk} {rest : Ys}
    (hp : Page.ok false ⟨lead, c, .coll true (.cons before place key (.block b) rest), tail⟩ = true) :
    ∃ doc, fromSlice (lead ++ List.replicate c SP ++ (key ++ [COLON] ++ place.sep c ++ b.text c ++ rest.text true c false) ++ tail) = .ok doc ∧
      Reads doc.data doc.root (.map (.cons key (.scalar (.string b.value)) rest.entries)) := by
  obtain ⟨doc, h1, h2, -⟩ := C47_documents hp
  exact ⟨doc, h1, (h2 _).2 rfl⟩

example : ∃ doc, fromSlice (b! "a: |\n one\n two\nb: c\n") = .ok doc ∧
    Reads doc.data doc.root (.map (.cons (b! "a") (.scalar (.string (b! "one\ntwo\n"))) (.cons (b! "b") (.scalar (.string (b! "c"))) .nil))) :=
  C55_siblings_partial (lead := []) (c := 0) (before := []) (place := .here 0) (key := b! "a") (b := ⟨false, .clip, [], 0, b! "one", [(0, b! "two")], 1⟩)
    (rest := .cons [] (.here 0) (b! "b") (.flow (.atom (.plain (b! "c")))) .nil) (tail := b! "\n") (by decide)

end Verif
