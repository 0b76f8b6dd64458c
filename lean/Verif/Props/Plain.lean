import Verif.Props.Exact
import Verif.Props.Escapes
import Verif.Props.Edits
import Verif.GoodEdit
/-
Which strings can be stored with `set_string` and read again (C27).
-/
namespace Verif

/-- The text is a number, with nothing but white space after it. -/
def numberLine (s : Bytes) : Bool := (List.range (s.length + 1)).any fun k => isNumber (s.take k) && lineEnds (s.drop k)

/-- The text of one line, taken as a document, is read as the string with that text: it starts neither with white space, a quote, a bracket or another indicator, nor
with a dash and white space, nor with `%` or `---`, there is no key in it, and it is neither a number nor null nor a boolean. -/
def standsForItself (s : Bytes) : Bool :=
  !isIndicator (s.headD 0) && !dashes s && s.headD 0 != PCT && !(b! "---").isPrefixOf s && noKeySep s && !numberLine s && plainValue s == .string s

/-- The string as `set_string` writes it is read as the string. -/
def survives (s : Bytes) : Bool :=
  match preferred s with
  | .bare => standsForItself s
  | .single => true
  | .double => !s.contains DQ && !s.contains BSL

theorem plainValue_string {s t : Bytes} (h : plainValue s = .string t) : s = t := by
  unfold plainValue at h
  repeat' split at h
  all_goals cases h
  rfl

theorem Piece.reads_length {p : Piece} : p.reads.length ≤ p.text.length := by
  have hc : ∀ ds : Bytes, (((charOf ds).map String.utf8EncodeChar).getD []).length ≤ 4 := by
    intro ds
    cases charOf ds with
    | none => exact Nat.zero_le _
    | some c => simpa using Char.utf8Size_le_four c
  unfold Piece.reads
  split
  · next h => subst h; decide
  · cases p with
    | byte b => exact Nat.le_refl _
    | esc c =>
      simp only [Piece.value, Piece.text]
      cases letters.lookup c <;> simp
    | hex a b => exact hc _
    | uni a b c d => exact Nat.le_trans (hc _) (show 4 ≤ 6 by decide)

theorem pieces_length : ∀ {ps : List Piece}, ps.all Piece.known = true → (ps.flatMap Piece.reads).length ≤ (ps.flatMap Piece.text).length
  | [], _ => Nat.le_refl _
  | p :: ps, h => by
    rw [List.all_cons, Bool.and_eq_true] at h
    simp only [List.flatMap_cons, List.length_append]
    exact Nat.add_le_add Piece.reads_length (pieces_length h.2)

theorem flatMap_length_le {f : UInt8 → Bytes} (hf : ∀ b, 1 ≤ (f b).length) : ∀ {s : Bytes}, s.length ≤ (s.flatMap f).length
  | [] => Nat.le_refl _
  | b :: s => by
    have := flatMap_length_le hf (s := s)
    have := hf b
    simp only [List.flatMap_cons, List.length_append, List.length_cons]
    omega

theorem InQuotes.shorter {t s : Bytes} (h : InQuotes t s) : s.length < t.length := by
  cases h with
  | single =>
    simp only [quoteSingle, List.length_append, List.length_cons, List.length_nil]
    have := flatMap_length_le (f := fun b => if b = SQ then [SQ, SQ] else [b]) (s := s) fun b => by split <;> simp
    omega
  | double hk _ =>
    have := pieces_length hk
    simp only [List.length_append, List.length_cons, List.length_nil]
    omega

theorem Trimmed.length {s t : Bytes} (h : Trimmed s t) : t.length ≤ s.length := by
  obtain ⟨l, r, -, rfl, -⟩ := h
  simp only [List.length_append]
  omega

theorem breaksIn_none {s : Bytes} {a b : Nat} (h : NL ∉ s) : breaksIn s a b = 0 := by
  unfold breaksIn
  rw [List.count_eq_zero]
  intro hm
  obtain ⟨p, -, -, hp⟩ := slice_mem hm
  exact h (List.mem_of_getElem? hp)

/-- A block scalar on one line is longer than what it says. -/
theorem BlockAt.shorter {s v : Bytes} {lo hi : Nat} (hn : NL ∉ s) (h : BlockAt s lo v hi) : v.length < s.length := by
  obtain ⟨folded, chomp, h, n, w, h1, h2, -, -, hb, rfl⟩ := h
  have hline : ∀ {a b}, LineAt s a b → b ≤ s.length → b = s.length := by
    rintro a b ⟨-, -, h | h⟩ -
    · exact h
    · exact absurd (List.mem_of_getElem? h) hn
  cases hb with
  | below _ h3 _ => rw [breaksIn_none hn] at h3; cases h3
  | nothing _ h3 => rw [breaksIn_none hn] at h3; cases h3
  | @beside q e t _ _ h5 h6 h7 =>
    rw [breaksIn_none hn]
    have := h6.length
    have hl : (slice s h hi).length ≤ s.length - h := by simp [slice]; omega
    have : (endBreaks chomp 0).length = 0 := by unfold endBreaks; split <;> rfl
    simp only [List.length_append]
    omega
  | @both q e p _ _ t v' _ _ h5 h6 h7 h8 =>
    exfalso
    have he := hline h5 (Nat.le_trans h7.1.1 h7.1.2.1)
    have hp := h7.1.1
    cases h8 <;> omega

theorem skipBlank_none {s : Bytes} (h : isIndicator (s.headD 0) = false) : skipBlank false s = s := by
  cases s with
  | nil => rfl
  | cons b r =>
    simp only [isIndicator, List.headD_cons, Bool.or_eq_false_iff] at h
    obtain ⟨⟨⟨⟨⟨⟨⟨h1, h2⟩, -⟩, -⟩, -⟩, -⟩, -⟩, -⟩ := h
    simp only [skipBlank, h1, h2, Bool.false_eq_true, if_false]

theorem dropLine_nil : ∀ {s : Bytes}, NL ∉ s → s.dropWhile (· != NL) = []
  | [], _ => rfl
  | b :: s, h => by
    simp only [List.mem_cons, not_or] at h
    rw [List.dropWhile_cons_of_pos (by simpa using fun hb : b = NL => h.1 hb.symm), dropLine_nil h.2]

theorem bodyGo_nil : ∀ n, bodyGo n [] = []
  | 0 => rfl
  | _ + 1 => rfl

/-- C27, the texts of one line that stand for themselves. -/
theorem C27_itself (s : Bytes) (hn : NL ∉ s) :
    (∃ doc, fromSlice s = .ok doc ∧ asAny doc.data doc.root = .ok (.string s)) ↔ standsForItself s = true := by
  have h0 : (∃ doc, fromSlice s = .ok doc ∧ asAny doc.data doc.root = .ok (.string s)) ↔ Accepts s (.scalar (.string s)) := by
    rw [← C57_accepts]
    simp [Reads, AnyV.isScalar]
  rw [h0]
  constructor
  · rintro ⟨lo, hi, h1, h2, h3, h4⟩
    cases h3 with
    | scalar ha hlo hhi ht =>
      generalize hA : AnyV.string s = a at ha ht
      cases ha
      cases ht with
      | number => cases hA
      | quoted hq _ _ =>
        cases hA
        have := hq.shorter
        rw [slice_length hhi] at this
        omega
      | plain hk hp =>
        have he := plainValue_string hA.symm
        have hl := congrArg List.length he
        rw [slice_length hhi] at hl
        obtain rfl : lo = 0 := by omega
        obtain rfl : hi = s.length := by omega
        rw [slice_all] at hk hp hA
        simp only [plainText, Spot.inline, List.drop_length, Bool.and_eq_true, Bool.not_eq_true', Bool.false_eq_true, if_false, List.append_nil] at hp
        obtain ⟨p1, ⟨⟨p2, p3⟩, p4⟩, p5⟩ := hp
        rw [List.drop_zero] at h2
        have hb : skipBlank false s = s := skipBlank_none p1
        simp only [standsForItself, Bool.and_eq_true, Bool.not_eq_true', bne_iff_ne, ne_eq, beq_iff_eq]
        refine ⟨⟨⟨⟨⟨⟨p1, p5⟩, fun hc => ?_⟩, ?_⟩, p3⟩, ?_⟩, hA.symm⟩
        · have : body s = [] := by
            simp only [body, bodyGo, hb, hc, beq_self_eq_true, if_true]
            rw [dropLine_nil hn]
            exact bodyGo_nil _
          rw [this] at h2
          rw [h2] at hc
          exact absurd hc (by decide)
        · cases hc : (b! "---").isPrefixOf s with
          | false => rfl
          | true =>
            obtain ⟨r, rfl⟩ := List.isPrefixOf_iff_prefix.1 hc
            have h6 : body (b! "---" ++ r) = r := by
              have e1 : ((b! "---" ++ r).headD 0 == PCT) = false := rfl
              have e2 : ((b! "---" ++ r).take 3 == [DASH, DASH, DASH]) = true := rfl
              simp only [body, bodyGo, hb, e1, e2, Bool.false_eq_true, if_false, if_true]
              rfl
            rw [h6, skipBlank_eq] at h2
            have := congrArg List.length h2
            simp only [List.length_append, List.length_drop] at this
            have h3 : (b! "---").length = 3 := rfl
            omega
        · cases hc : numberLine s with
          | false => rfl
          | true =>
            simp only [numberLine, List.any_eq_true, Bool.and_eq_true] at hc
            obtain ⟨k, -, hk1, hk2⟩ := hc
            rw [(hk k hk1).2] at hk2
            cases hk2
    | lines ha hb =>
      cases ha
      exact absurd (hb.shorter hn) (Nat.lt_irrefl _)
    | «open» ha hlo hk hd =>
      generalize hA : AnyV.string s = a at ha
      cases ha
      cases hA
      have h5 := congrArg List.length hd
      have h6 := pieces_length hk
      rw [List.length_drop, List.length_cons] at h5
      omega
    | dashes hv => obtain ⟨es, h, -⟩ := hv; cases h
    | keys hv => obtain ⟨es, h, -⟩ := hv; cases h
    | brackets hv => obtain ⟨es, h, -⟩ := hv; cases h
    | braces hv => obtain ⟨es, h, -⟩ := hv; cases h
  · intro h
    simp only [standsForItself, Bool.and_eq_true, Bool.not_eq_true', bne_iff_ne, ne_eq, beq_iff_eq] at h
    obtain ⟨⟨⟨⟨⟨⟨h1, h2⟩, h3⟩, h4⟩, h5⟩, h6⟩, h7⟩ := h
    have hb : skipBlank false s = s := skipBlank_none h1
    have hh : body s = s := body_eq (by
      simp only [hasHeader, hb, Bool.or_eq_false_iff]
      refine ⟨beq_eq_false_iff_ne.2 h3, ?_⟩
      cases hc : (s.take 3 == [DASH, DASH, DASH]) with
      | false => rfl
      | true =>
        have : (b! "---") <+: s := by
          rw [show b! "---" = s.take 3 from (beq_iff_eq.1 hc).symm]
          exact List.take_prefix _ _
        rw [List.isPrefixOf_iff_prefix.2 this] at h4
        cases h4)
    refine ⟨0, s.length, Nat.zero_le _, by rw [hh, hb]; rfl, .scalar rfl (Nat.zero_le _) (Nat.le_refl _) ?_, ?_⟩
    · rw [slice_all, ← h7]
      refine .plain (fun k hk => ⟨rfl, ?_⟩) ?_
      · cases hc : lineEnds (s.drop k) with
        | false => rfl
        | true =>
          rw [← h6]
          symm
          simp only [numberLine, List.any_eq_true, Bool.and_eq_true, List.mem_range]
          by_cases hks : k < s.length + 1
          · exact ⟨k, hks, hk, hc⟩
          · refine ⟨s.length, Nat.lt_succ_self _, ?_, by rw [List.drop_length]; rfl⟩
            rw [List.take_length]
            rwa [List.take_of_length_le (by omega)] at hk
      · have : s.contains NL = false := by simpa using hn
        simp only [plainText, Spot.inline, List.drop_length, Bool.and_eq_true, Bool.not_eq_true', Bool.false_eq_true, if_false, List.append_nil]
        exact ⟨h1, ⟨⟨this, h5⟩, rfl⟩, h2⟩
    · refine ⟨⟨Nat.le_refl _, Nat.le_refl _, .inl ?_⟩, ?_, ?_⟩
      · rw [show slice s s.length s.length = [] by simp [slice]]; rfl
      · simp [List.getD, isWs, isOtherWs]; decide
      · simp [List.getD]; decide

theorem preferred_line {s : Bytes} (h : preferred s = .bare) : NL ∉ s := by
  intro hm
  have : hasControl s = true := by
    simp only [hasControl, Bool.or_eq_true, List.any_eq_true]
    exact .inl ⟨NL, hm, by decide⟩
  simp [preferred, this] at h

/-- C27, which strings these are: a string set by `set_string` at the root of a document that has no white space around it is read back as itself exactly if it
`survives`. -/
theorem C27_exact {doc doc' : Document} {s : Bytes} (h : Reachable doc) (hp : doc.data.pre doc.root = .ok []) (hs : doc.suffix = [])
    (he : doc.edit doc.root (.setString s) = .ok doc') :
    (∃ out doc2, doc'.write = .ok out ∧ fromSlice out = .ok doc2 ∧ asAny doc2.data doc2.root = .ok (.string s)) ↔ survives s = true := by
  obtain ⟨t, ht⟩ := h.holds
  have hroot := ht.root
  have hf : t.find doc.root = some t := by rw [hroot]; exact Tree.find_self t
  obtain ⟨d', i, v, mk, h1, _, _, h2⟩ := ht.editTree hf (.setString s)
  obtain rfl : doc' = ⟨doc.suffix, doc.root, d'⟩ := by
    simp [Document.edit, h1, bind, Except.bind, pure, Except.pure] at he; exact he.symm
  rw [Tree.upd_self hroot.symm] at h2
  have hpre : t.pre = [] := by
    obtain ⟨q, ha⟩ := ht.at hf
    rw [pre_of ha.get] at hp
    exact Except.ok.inj hp
  have hw := h2.write
  have htext : (Op.tree i v mk (.setString s) t).text ++ doc.suffix = (strScalar s).write := by
    rw [hs, List.append_nil]
    simp [Op.tree, Op.scalar, Tree.text, Tree.render, ← hpre]
  rw [htext, strScalar, detect_eq] at hw
  rw [hw]
  have hx : ∀ out : Bytes, (∃ out' doc2, (Except.ok out : Except Stop Bytes) = .ok out' ∧ fromSlice out' = .ok doc2 ∧ asAny doc2.data doc2.root = .ok (.string s)) ↔
      ∃ doc2, fromSlice out = .ok doc2 ∧ asAny doc2.data doc2.root = .ok (.string s) :=
    fun out => ⟨fun ⟨_, d, h, h'⟩ => by cases h; exact ⟨d, h'⟩, fun ⟨d, h⟩ => ⟨_, d, rfl, h⟩⟩
  rw [hx, survives]
  cases hk : preferred s with
  | bare =>
    simp only [Scalar.write, RStr.write]
    exact C27_itself s (preferred_line hk)
  | single =>
    simp only [Scalar.write, RStr.write, ← single_eq, iff_true]
    exact parse_atom (a := .single s) (by rfl) (by show SQ ≠ PCT; decide) (noDashes (by decide))
  | double =>
    simp only [Scalar.write, RStr.write, ← Atom.text_double, Atom.text, Bool.and_eq_true, Bool.not_eq_true']
    rw [C26_exact]
    simp

/-- The conditions of the theorem are met by a document that is just `x`. -/
example : Reachable (docOfText (b! "x")) ∧ (docOfText (b! "x")).data.pre (docOfText (b! "x")).root = .ok [] ∧ (docOfText (b! "x")).suffix = [] ∧
    ∃ doc', (docOfText (b! "x")).edit (docOfText (b! "x")).root (.setString (b! "~")) = .ok doc' :=
  ⟨.parsed (inp := b! "x") ⟨7, by decide⟩, by decide, by decide, (docOfText (b! "x")).after 0 (.setString (b! "~")), by decide⟩

/-- Strings that are read back, also if they are not what YAML calls plain. -/
example : survives (b! "a # b ") = true ∧ survives (b! "-") = true ∧ survives (b! "") = true ∧ survives (b! "] , &a") = true ∧ survives (b! "~ ") = true ∧
    survives (b! "-1 x") = true ∧ survives (b! "a: b") = true ∧ survives (b! "true") = true ∧ survives (b! "it's\t") = true := by decide +kernel

/-- Strings that are not. -/
example : survives (b! " a") = false ∧ survives (b! "- a") = false ∧ survives (b! "-1") = false ∧ survives (b! "-1 ") = false ∧ survives (b! ".5") = false ∧
    survives (b! "TRUE") = false ∧ survives (b! "~") = false ∧ survives (b! "---") = false ∧ survives (b! "%a") = false ∧ survives (b! "#a") = false ∧
    survives (b! "|") = false ∧ survives (b! "{a}") = false ∧ survives (b! "it's \"so\"") = false := by decide +kernel

end Verif
