import Verif.ExactDocs
import Verif.Finish
/-
Texts with which the parser does not finish.
-/
namespace Verif

/-! ### Forwards -/

theorem unclosed_runs {inp : Bytes} {lo f : Nat} (h : Unclosed inp lo) : singleQuoted f inp lo = .error .fuel := by
  cases hs : singleQuoted f inp lo with
  | error e => rw [singleQuoted_err hs]
  | ok r =>
    obtain ⟨s, e⟩ := r
    obtain ⟨h1, h2⟩ := singleQuoted_quotes (some_peek h.1) hs
    exact absurd (some_peek (h.2 _ _ h1)) h2

section
variable {inp : Bytes}

theorem bad_quote {s : Spot} {lo : Nat} (h : Unclosed inp lo) : BadV inp s lo .fuel := by
  intro st hs ht hlo hw
  refine ⟨0, fun g _ => ?_⟩
  cases g with
  | zero => rfl
  | succ g =>
    have hl : lead g inp st.inline st.tabular lo = .error .fuel := by
      simp only [lead, some_peek h.1, unclosed_runs h]
      rfl
    simp only [pvalue, hl]
    rfl

mutual
theorem Stuck.run {s : Spot} {lo : Nat} : Stuck inp s lo → BadV inp s lo .fuel
  | .quote h => bad_quote h
  | .dashes h1 h2 => bad_dashes h1 h2.run
  | .keys h1 h2 => bad_keys h1 h2.run
  | .brackets h1 h2 h3 => bad_brackets h1 h2 (h3.run _)
  | .braces h1 h2 h3 => bad_braces h1 h2 (h3.run _)
theorem StuckRows.run {c : Nat} {first m : Bool} {lo : Nat} : StuckRows inp c first m lo → BadRows inp c first m lo .fuel
  | .inside h1 h2 h3 h4 => bad_rowInside h1 h2 h3 h4.run
  | .later h1 h2 h3 h4 h5 h6 => bad_rowLater h1 h2 h3 h4.run h5 h6.run
theorem StuckCells.run {m last : Bool} {n : Nat} : StuckCells inp m last n → ∀ from_, BadCells inp m last from_ n .fuel
  | .inside h1 h2 h3 h4, _ => bad_cellInside h1 h2 h3 h4.run
  | .later h1 h2 h3 h4 h5 h6, _ => bad_cellLater h1 h2 h3 h4.run h5 (h6.run _)
end
end

/-- With such a text the parser does not finish. -/
theorem hangs {inp : Bytes} (h : Hangs inp) (f : Nat) : parseF f inp = .error .fuel := by
  obtain ⟨lo, h1, h2, h3⟩ := h
  obtain ⟨hw, pre, hs⟩ := start_at h1 h2
  obtain ⟨f0, e1⟩ := h3.run ⟨pre, false, true, none⟩ rfl rfl h1 hw
  have hp : pparseF (max f0 (inp.length + 2)) inp = .error .fuel := by
    unfold pparseF
    simp only [hs (max f0 (inp.length + 2)) (by omega), e1 _ (Nat.le_max_left ..), bind, Except.bind]
  have hf : pparseF f inp = .error .fuel := Classical.byContradiction fun hc => by
    have := (pparseF_approx inp f (max f0 (inp.length + 2)) (by omega)).ne hc
    rw [hp] at this
    exact hc this.symm
  rw [parseF_refine, hf]

/-! ### Backwards -/

/-- Bytes in quotes that are closed. -/
theorem closesQuote_of {rest : Bytes} (hr : rest.headD 0 ≠ SQ) : ∀ s : Bytes, closesQuote (escapeSingleBody s ++ SQ :: rest) = true
  | [] => by
    cases rest with
    | nil => rfl
    | cons c r =>
      show closesQuote (SQ :: c :: r) = true
      have : ¬ c = SQ := hr
      simp [closesQuote, this]
  | b :: s => by
    have ih := closesQuote_of hr s
    by_cases hb : b = SQ
    · subst hb
      rw [show escapeSingleBody (SQ :: s) = SQ :: SQ :: escapeSingleBody s by simp [escapeSingleBody]]
      simpa [closesQuote] using ih
    · rw [show escapeSingleBody (b :: s) = b :: escapeSingleBody s by simp [escapeSingleBody, hb]]
      cases he : escapeSingleBody s ++ SQ :: rest with
      | nil => simp at he
      | cons c r => rw [he] at ih; simpa [he, closesQuote, hb] using ih

/-- Single quotes that are not closed. -/
theorem unclosed_iff {inp : Bytes} {lo : Nat} : Unclosed inp lo ↔ inp[lo]? = some SQ ∧ closesQuote (inp.drop (lo + 1)) = false := by
  constructor
  · intro h
    refine ⟨h.1, Classical.byContradiction fun hc => ?_⟩
    exact singleQuoted_fin (f := inp.length) (List.getElem?_eq_some_iff.1 h.1).1 (by omega) (by simpa using hc) (unclosed_runs h)
  · rintro ⟨h1, h2⟩
    refine ⟨h1, fun s hi h3 => Classical.byContradiction fun hc => ?_⟩
    have hle : lo ≤ hi := by
      rcases Nat.le_total lo hi with h | h
      · exact h
      · rw [slice, Nat.sub_eq_zero_of_le h] at h3
        simp [quoteSingle] at h3
    have h4 := drop_slice (inp := inp) hle
    rw [h3, single_eq] at h4
    have h4 : inp.drop lo = SQ :: (escapeSingleBody s ++ SQ :: inp.drop hi) := by rw [h4]; simp [escapeSingle]
    rw [drop_cons h4, closesQuote_of fun h => hc (peek_some h (by decide))] at h2
    cases h2

theorem lead_fuel {f : Nat} {inp : Bytes} {i t : Bool} {n : Nat} (hf : inp.length ≤ n + f) (h : lead f inp i t n = .error .fuel) : Unclosed inp n := by
  have hc : ¬ ClosedAt inp n := fun hc => lead_fin f inp i t n hf hc h
  unfold ClosedAt at hc
  simp only [Classical.not_imp, Bool.not_eq_true] at hc
  exact unclosed_iff.2 ⟨peek_some hc.1 (by decide), hc.2⟩

theorem NextCell.lt {inp : Bytes} {m blk : Bool} {e : Nat} {start n : Nat} (h : NextCell inp m blk e false start n) : e < n := by
  obtain ⟨c, h1, h2⟩ := h
  have : e ≤ c := by
    split at h1
    · exact h1.1.1
    · omega
  rcases h2 with ⟨_, _, h2⟩ | ⟨h2, _⟩
  · split at h2
    · omega
    · have := h2.2.1.1; omega
  · cases h2

/-- What is needed of the parser for values: from positions after `n0`. -/
def RecStuck (inp : Bytes) (n0 : Nat) (rec : PSt → Nat → PRes) : Prop := ∀ (s : PSt) (n : Nat), n0 < n → n ≤ inp.length → wsEnd inp n = n → s.tabular = !s.inline →
  rec s n = .error .fuel → Stuck inp s.spot n

section
variable {inp : Bytes} {rec : PSt → Nat → PRes} {n0 : Nat}

theorem RecStuck.ws (H : RecStuck inp n0 rec) (s : PSt) (a : Nat) (h0 : n0 < a) (ha : a ≤ inp.length) (hs : s.tabular = !s.inline)
    (h : rec s (wsEnd inp a) = .error .fuel) : Stuck inp s.spot (wsEnd inp a) :=
  H s _ (Nat.lt_of_lt_of_le h0 (le_wsEnd _ _)) (wsEnd_le ha) (wsEnd_idem _ _) hs h

theorem pseqLoop_stuck (F : RecFault inp rec) (H : RecStuck inp n0 rec) : ∀ (f ind : Nat) (first : Bool) (ip : Bytes) (n : Nat), n0 ≤ n → inp.length ≤ n + f →
    peekAt inp n = DASH → (first = true → isWs (peekAt inp (n + 1)) = true) → columnAt inp n = ind → pseqLoop rec inp ind f ip n = .error .fuel →
    StuckRows inp ind first false n
  | 0, _, _, _, n, _, hf, hp, _, _, _ => by
    have := lt_of_peek (inp := inp) (n := n) (by rw [hp]; decide)
    omega
  | f + 1, ind, first, ip, n, h0, hf, hp, hw, hi, h => by
    unfold pseqLoop at h
    have hlt := lt_of_peek (inp := inp) (n := n) (by rw [hp]; decide)
    have hh : Head inp first none n (n + 1) := ⟨peek_some hp (by decide), by rw [getD_peek]; exact hw, rfl⟩
    have hg := FullGap.ws (inp := inp) (n := n + 1) (by omega)
    have hle := le_wsEnd inp (n + 1)
    simp only [bump_one hlt, bind, Except.bind] at h
    cases hr : rec ⟨wsStr inp (n + 1), false, true, none⟩ (wsEnd inp (n + 1)) with
    | error e =>
      rw [hr] at h
      cases h
      exact .inside (key := none) hi hh hg (H.ws ⟨wsStr inp (n + 1), false, true, none⟩ (n + 1) (by omega) (by omega) rfl hr)
    | ok r =>
      obtain ⟨e, h1, -, -, h3, -⟩ := (F.ws ⟨wsStr inp (n + 1), false, true, none⟩ (n + 1) (by omega) rfl).ok hr
      obtain ⟨v, ws, m⟩ := r
      rw [hr] at h
      simp only at h h1 h3
      split at h
      · cases h
      · next hc =>
        simp only [Bool.or_eq_true, bne_iff_ne, not_or, Decidable.not_not] at hc
        have := h1.le
        have := h3.1.1
        refine .later (key := none) hi hh hg h1 h3 (pseqLoop_stuck F H f ind false (wsOr inp ws m).1 _ (by omega) (by omega) hc.2 (fun h => by cases h) hc.1 ?_)
        generalize pseqLoop rec inp ind f _ _ = q at h
        cases q with
        | ok q => cases h
        | error e => cases h; rfl

theorem pmapLoop_stuck (F : RecFault inp rec) (H : RecStuck inp n0 rec) : ∀ (f ind : Nat) (first : Bool) (st : Nat) (key : RStr) (ip : Bytes) (n : Nat), n0 ≤ n →
    n ≤ inp.length → inp.length + 1 ≤ n + f → columnAt inp st = ind → (peekAt inp n = COLON → Head inp first (some key.id) st (n + 1)) →
    pmapLoop rec inp ind f st key ip n = .error .fuel → StuckRows inp ind first true st
  | 0, _, _, _, _, _, _, _, hn, hf, _, _, _ => by omega
  | f + 1, ind, first, st, key, ip, n, h0, hn, hf, hi, hk, h => by
    unfold pmapLoop at h
    by_cases hp : peekAt inp n = COLON
    · have hlt := lt_of_peek (inp := inp) (n := n) (by rw [hp]; decide)
      have hh := hk hp
      have hg := FullGap.ws (inp := inp) (n := n + 1) (by omega)
      have hle := le_wsEnd inp (n + 1)
      simp only [bump_one hlt, hp, bne_self_eq_false, Bool.false_eq_true, if_false, bind, Except.bind] at h
      cases hr : rec ⟨wsStr inp (n + 1), false, true, some ind⟩ (wsEnd inp (n + 1)) with
      | error e =>
        rw [hr] at h
        cases h
        exact .inside (key := some key.id) hi hh hg (H.ws ⟨wsStr inp (n + 1), false, true, some ind⟩ (n + 1) (by omega) (by omega) rfl hr)
      | ok r =>
        obtain ⟨e, h1, -, -, h3, -⟩ := (F.ws ⟨wsStr inp (n + 1), false, true, some ind⟩ (n + 1) (by omega) rfl).ok hr
        obtain ⟨v, ws, m⟩ := r
        rw [hr] at h
        simp only at h h1 h3
        split at h
        · cases h
        · next hc =>
          simp only [bne_iff_ne, Decidable.not_not] at hc
          have := h1.le
          have := h3.1.1
          generalize (wsOr inp ws m).2 = lo' at *
          cases hnk : nextMappingKey inp lo' with
          | mk m0 ko =>
          rw [hnk] at h
          cases ko with
          | none => cases h
          | some key' =>
          obtain ⟨g1, g2, g⟩ := nextKey_some h3.1.2.1 hnk
          simp only at h
          refine .later (key := some key.id) hi hh hg h1 h3 (pmapLoop_stuck F H f ind false lo' key' (wsOr inp ws m).1 m0 (by omega) g2 (by omega) hc
            (fun h => ⟨m0, rfl, g h⟩) ?_)
          generalize pmapLoop rec inp ind f _ _ _ _ = q at h
          cases q with
          | ok q => cases h
          | error e => cases h; rfl
    · have : (peekAt inp n != COLON) = true := by simpa using hp
      simp only [this, if_true] at h
      cases h

theorem pflowSeqLoop_stuck (F : RecFault inp rec) (H : RecStuck inp n0 rec) : ∀ (f : Nat) (last tr : Bool) (ip : Bytes) (n : Nat), n0 < n → n ≤ inp.length →
    1 ≤ f → (last = false → inp.length + 2 ≤ n + f) → pflowSeqLoop rec inp f last tr ip n = .error .fuel → StuckCells inp false last n
  | 0, _, _, _, _, _, _, h, _, _ => by omega
  | f + 1, last, tr, ip, n, h0, hn, _, hf, h => by
    unfold pflowSeqLoop at h
    split at h
    · cases h
    · next ho =>
      have ho : Opens inp false n := not_opens (by simpa [close] using ho)
      have hg := FullGap.ws hn
      have hle := le_wsEnd inp n
      simp only [bind, Except.bind] at h
      cases hr : rec ⟨wsStr inp n, true, false, none⟩ (wsEnd inp n) with
      | error e =>
        rw [hr] at h
        cases h
        exact .inside (key := none) ho rfl hg (H.ws ⟨wsStr inp n, true, false, none⟩ n (by omega) hn rfl hr)
      | ok r =>
        obtain ⟨e, h1, h2, h3, h4, h5⟩ := (F.ws ⟨wsStr inp n, true, false, none⟩ n hn rfl).ok hr
        obtain ⟨v, next, m⟩ := r
        rw [hr] at h
        simp only at h h1 h2 h3 h4 h5
        have := h1.le
        cases last with
        | true => cases h
        | false =>
          have hf := hf rfl
          simp only [Bool.false_eq_true, if_false] at h
          by_cases hcm : peekAt inp m = COMMA
          · have hlt := lt_of_peek (inp := inp) (n := m) (by rw [hcm]; decide)
            simp only [hcm, beq_self_eq_true, if_true, bump_one hlt] at h
            obtain ⟨st, g1, g2, g3⟩ := next_comma h2 h3 h5 hcm
            have := g1.lt
            refine .later (key := none) ho rfl hg h1 g1 (pflowSeqLoop_stuck F H f false true (wsOr inp next (m + 1)).1 _ (by omega) g2 (by omega) (fun _ => by omega) ?_)
            generalize hq : pflowSeqLoop rec inp f _ _ _ _ = q at h
            refine Eq.trans hq ?_
            cases q with
            | ok q => cases h
            | error e => cases h; rfl
          · have hcm' : (peekAt inp m == COMMA) = false := by simpa using hcm
            simp only [hcm', Bool.false_eq_true, if_false] at h
            have hb := next_other h2 h3 h5 h4 hcm
            have := h4.1.1
            refine .later (key := none) ho rfl hg h1 hb (pflowSeqLoop_stuck F H f true false (wsOr inp next m).1 _ (by omega) h4.1.2.1 (by omega) (fun h => by cases h) ?_)
            generalize hq : pflowSeqLoop rec inp f _ _ _ _ = q at h
            refine Eq.trans hq ?_
            cases q with
            | ok q => cases h
            | error e => cases h; rfl

theorem pflowMapLoop_stuck (F : RecFault inp rec) (H : RecStuck inp n0 rec) : ∀ (f : Nat) (last tr : Bool) (ip : Bytes) (st n : Nat), n0 < n → n ≤ inp.length →
    1 ≤ f → (last = false → inp.length + 2 ≤ n + f) → pflowMapLoop rec inp f last tr ip st n = .error .fuel → StuckCells inp true last n
  | 0, _, _, _, _, _, _, _, h, _, _ => by omega
  | f + 1, last, tr, ip, st, n, h0, hn, _, hf, h => by
    unfold pflowMapLoop at h
    split at h
    · cases h
    · next ho =>
      have ho : Opens inp true n := not_opens (by simpa [close] using ho)
      cases hu : untilColon inp n with
      | mk m0 ko =>
      rw [hu] at h
      cases ko with
      | none => cases h
      | some key =>
      obtain ⟨g1, g2, g3, g4, g5⟩ := untilColon_back hn hu
      simp only [bump_one g2, bind, Except.bind] at h
      have hh : CellHead inp (some key.id) n (m0 + 1) := ⟨m0, g1, g3, rfl, g4, g5⟩
      have hg := FullGap.ws (inp := inp) (n := m0 + 1) (by omega)
      have hle := le_wsEnd inp (m0 + 1)
      cases hr : rec ⟨wsStr inp (m0 + 1), true, false, none⟩ (wsEnd inp (m0 + 1)) with
      | error e =>
        rw [hr] at h
        cases h
        exact .inside (key := some key.id) ho hh hg (H.ws ⟨wsStr inp (m0 + 1), true, false, none⟩ (m0 + 1) (by omega) (by omega) rfl hr)
      | ok r =>
        obtain ⟨e, h1, h2, h3, h4, h5⟩ := (F.ws ⟨wsStr inp (m0 + 1), true, false, none⟩ (m0 + 1) (by omega) rfl).ok hr
        obtain ⟨v, next, m⟩ := r
        rw [hr] at h
        simp only at h h1 h4
        have := h1.le
        generalize (wsOr inp next m).2 = n1 at *
        cases last with
        | true => cases h
        | false =>
          have hf := hf rfl
          simp only [Bool.false_eq_true, if_false] at h
          by_cases hcm : peekAt inp n1 = COMMA
          · have hlt := lt_of_peek (inp := inp) (n := n1) (by rw [hcm]; decide)
            simp only [hcm, beq_self_eq_true, if_true, bump_one hlt] at h
            have hb : NextCell inp true (atBlock inp (wsEnd inp (m0 + 1))) e false (n1 + 1) (wsEnd inp (n1 + 1)) :=
              ⟨n1, h4, .inl ⟨rfl, peek_some hcm (by decide), by rw [Bool.and_comm]; exact ⟨rfl, FullGap.ws (by omega)⟩⟩⟩
            have := hb.lt
            refine .later (key := some key.id) ho hh hg h1 hb (pflowMapLoop_stuck F H f false true (wsStr inp (n1 + 1)) (n1 + 1) _ (by omega) (wsEnd_le (by omega)) (by omega)
              (fun _ => by omega) ?_)
            generalize hq : pflowMapLoop rec inp f _ _ _ _ _ = q at h
            refine Eq.trans hq ?_
            cases q with
            | ok q => cases h
            | error e => cases h; rfl
          · have hcm' : (peekAt inp n1 == COMMA) = false := by simpa using hcm
            simp only [hcm', Bool.false_eq_true, if_false] at h
            have hb : NextCell inp true (atBlock inp (wsEnd inp (m0 + 1))) e true n1 (wsEnd inp n1) :=
              ⟨n1, h4, .inr ⟨rfl, ne_some hcm, rfl, by rw [h4.end]; exact h4⟩⟩
            have := hb.le
            refine .later (key := some key.id) ho hh hg h1 hb (pflowMapLoop_stuck F H f true false (wsStr inp n1) n1 _ (by omega) (wsEnd_le h4.1.2.1) (by omega)
              (fun h => by cases h) ?_)
            generalize hq : pflowMapLoop rec inp f _ _ _ _ _ = q at h
            refine Eq.trans hq ?_
            cases q with
            | ok q => cases h
            | error e => cases h; rfl
end

theorem pvalue_stuck (inp : Bytes) : ∀ (f : Nat) (s : PSt) (n : Nat), n ≤ inp.length → wsEnd inp n = n → s.tabular = !s.inline → inp.length + 2 ≤ n + f →
    pvalue inp f s n = .error .fuel → Stuck inp s.spot n
  | 0, _, _, hn, _, _, hf, _ => by omega
  | f + 1, s, n, hn, hw, ht, hf, hv => by
    have F := pvalue_fault inp f
    have H : RecStuck inp n (pvalue inp f) := fun s m h1 h2 h3 h4 h5 => pvalue_stuck inp f s m h2 h3 h4 (by omega) h5
    unfold pvalue at hv
    cases hl : lead f inp s.inline s.tabular n with
    | error e =>
      rw [hl] at hv
      cases hv
      exact .quote (lead_fuel (by omega) hl)
    | ok l =>
      rw [hl] at hv
      simp only [bind, Except.bind] at hv
      have hlb := lead_back hn hw ht hl
      cases (lead_spec hn).ok hl with
      | seq h1 _ hi =>
        simp only [psequence, bind, Except.bind] at hv
        cases hs : pseqLoop (pvalue inp f) inp (indentFrom inp n) f [] n with
        | ok r => rw [hs] at hv; cases hv
        | error e =>
          rw [hs] at hv
          cases hv
          exact .dashes (spot_block hi) (pseqLoop_stuck F H f _ true _ n (Nat.le_refl _) (by omega) h1 (fun _ => (lead_seq hl).2.1) rfl hs)
      | flowSeq h1 =>
        have hlt := lt_of_peek (inp := inp) (n := n) (by rw [h1]; decide)
        have hle := le_wsEnd inp (n + 1)
        simp only [pflowSeq, bind, Except.bind, bump_one hlt] at hv
        cases hs : pflowSeqLoop (pvalue inp f) inp f false false (wsStr inp (n + 1)) (wsEnd inp (n + 1)) with
        | ok r =>
          obtain ⟨items, tr, w, m⟩ := r
          rw [hs] at hv
          simp only at hv
          split at hv <;> cases hv
        | error e =>
          rw [hs] at hv
          cases hv
          exact .brackets (peek_some h1 (by decide)) (FullGap.ws (by omega)) (pflowSeqLoop_stuck F H f _ _ _ _ (by omega) (wsEnd_le (by omega)) (by omega) (fun _ => by omega) hs)
      | flowMap h1 =>
        have hlt := lt_of_peek (inp := inp) (n := n) (by rw [h1]; decide)
        have hle := le_wsEnd inp (n + 1)
        simp only [pflowMap, bind, Except.bind, bump_one hlt] at hv
        cases hs : pflowMapLoop (pvalue inp f) inp f false false (wsStr inp (n + 1)) (n + 1) (wsEnd inp (n + 1)) with
        | ok r =>
          obtain ⟨items, tr, w, st, m⟩ := r
          rw [hs] at hv
          simp only at hv
          split at hv <;> cases hv
        | error e =>
          rw [hs] at hv
          cases hv
          exact .braces (peek_some h1 (by decide)) (FullGap.ws (by omega)) (pflowMapLoop_stuck F H f _ _ _ _ _ (by omega) (wsEnd_le (by omega)) (by omega) (fun _ => by omega) hs)
      | @key key m h1 h2 _ _ hi =>
        have hk := hlb.2 _ _ rfl
        have hm := lt_of_peek (inp := inp) (n := m) (by rw [h2]; decide)
        have go : (∀ c, s.parentIndent = some c → c < indentFrom inp n) →
            pmappingOrNul.go (pvalue inp f) inp f s n key m (indentFrom inp n) = .error .fuel → Stuck inp s.spot n := by
          intro hp hv
          simp only [pmappingOrNul.go, bind, Except.bind] at hv
          cases hs : pmapLoop (pvalue inp f) inp (indentFrom inp n) f n key [] m with
          | ok r => rw [hs] at hv; cases hv
          | error e =>
            rw [hs] at hv
            cases hv
            refine .keys ⟨spot_block hi, fun c h => hp c ?_⟩ (pmapLoop_stuck F H f _ true n key _ m h1 (by omega) (by omega) rfl (fun _ => ⟨m, rfl, hk⟩) hs)
            unfold PSt.spot at h
            rw [hi] at h
            cases hq : s.parentIndent with
            | none => rw [hq] at h; cases h
            | some i => rw [hq] at h; cases h; rfl
        simp only [pmappingOrNul] at hv
        split at hv
        · next i hp =>
          split at hv
          · cases hv
          · next hc => exact go (fun c h => by rw [hp] at h; cases h; omega) hv
        · next hp => exact go (fun c h => by rw [hp] at h; cases h) hv
      | block h1 hb => cases hv
      | scalar h1 h2 h3 _ _ => cases hv

/-- If the parser does not finish, the text is such a text. -/
theorem hangs_of {inp : Bytes} (h : fromSlice inp = .error .fuel) : Hangs inp := by
  unfold fromSlice at h
  rw [parseF_refine] at h
  have hw := Pos.ws (inp := inp) (n := 0) (Nat.zero_le _) (cut_zero inp)
  obtain ⟨⟨pre, n⟩, hs⟩ := startLoop_ends (inp.length + 6) (wsEnd inp 0) (wsStr inp 0) hw.2.1 (by omega)
  obtain ⟨k', k1, k2, rfl, rfl, k5⟩ := startLoop_body (inp.length + 6) 0 (Nat.zero_le _) (cut_zero _) hs (inp.length + 1) (by simp)
  have hd : inp.drop (wsEnd inp k') = skipBlank false (body inp) := by
    rw [skipBlank_eq, body]
    rw [List.drop_zero] at k5
    rw [k5, List.drop_drop, wsEnd]
  refine ⟨wsEnd inp k', wsEnd_le k1, hd, pvalue_stuck inp (inp.length + 6) ⟨wsStr inp k', false, true, none⟩ _ (wsEnd_le k1) (wsEnd_idem _ _) rfl (by omega) ?_⟩
  cases hv : pvalue inp (inp.length + 6) ⟨wsStr inp k', false, true, none⟩ (wsEnd inp k') with
  | error e =>
    have hp : pparseF (inp.length + 6) inp = .error e := by
      unfold pparseF startOfDocument
      simp only [hs, hv, bind, Except.bind]
    rw [hp] at h
    cases h
    rfl
  | ok r =>
    obtain ⟨t, ws, m⟩ := r
    exfalso
    cases hp : pparseF (inp.length + 6) inp with
    | ok r => rw [hp] at h; cases h
    | error e =>
      rw [hp] at h
      cases h
      unfold pparseF startOfDocument at hp
      simp only [hs, hv, bind, Except.bind] at hp
      split at hp <;> cases hp

end Verif
