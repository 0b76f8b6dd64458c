import Verif.PParse
/-
Rule induction for the parser: to show something of every result of `pvalue` it is enough to show it
rule by rule, without fuel.  A proof device for the properties of `from_slice`.
-/
namespace Verif

/-- One premise for each way the parser can go on.  `V` is about values, `FS` and `FM` about the loops of
inline sequences and mappings, `BS` and `BM` about those of block sequences and mappings. -/
structure Rules (inp : Bytes)
    (V : PSt → Nat → Tree Unit → Option Bytes → Nat → Prop)
    (FS : (last trailing : Bool) → Bytes → Nat → Items Unit → Bool → Bytes → Nat → Prop)
    (FM : (last trailing : Bool) → Bytes → Nat → Nat → Items Unit → Bool → Bytes → Nat → Nat → Prop)
    (BS : Nat → Bytes → Nat → Items Unit → Bytes → Nat → Prop)
    (BM : Nat → Nat → RStr → Bytes → Nat → Items Unit → Bytes → Nat → Prop) : Prop where
  scalar : ∀ {f s n sc ws m}, lead f inp s.inline s.tabular n = .ok (.scalar sc ws m) → V s n (.leaf () s.pre sc) ws m
  seq : ∀ {f s n items w m}, lead f inp s.inline s.tabular n = .ok .seq → BS (indentFrom inp n) [] n items w m →
    V s n (.node () s.pre false (indentFrom inp n) .block items) (some w) m
  flowSeq : ∀ {f s n items tr w m}, lead f inp s.inline s.tabular n = .ok .flowSeq →
    FS false false (wsStr inp (bump inp n 1)) (wsEnd inp (bump inp n 1)) items tr w m → peekAt inp m = RBR →
    V s n (.node () s.pre false 0 (.inline tr w) items) none (bump inp m 1)
  flowMap : ∀ {f s n items tr w st m}, lead f inp s.inline s.tabular n = .ok .flowMap →
    FM false false (wsStr inp (bump inp n 1)) (bump inp n 1) (wsEnd inp (bump inp n 1)) items tr w st m →
    peekAt inp m = RCB → V s n (.node () s.pre true 0 (.inline tr w) items) none (bump inp m 1)
  keyNull : ∀ {f s n key m i}, lead f inp s.inline s.tabular n = .ok (.key key m) → s.parentIndent = some i →
    indentFrom inp n ≤ i → V s n (.leaf () [] (.null .empty)) (some s.pre) n
  keyMap : ∀ {f s n key m items w m'}, lead f inp s.inline s.tabular n = .ok (.key key m) →
    (∀ i, s.parentIndent = some i → i < indentFrom inp n) → BM (indentFrom inp n) n key [] m items w m' →
    V s n (.node () s.pre true (indentFrom inp n) .block items) (some w) m'
  fsStop : ∀ {last tr ip n}, peekAt inp n = RBR ∨ peekAt inp n = 0 → FS last tr ip n .nil tr ip n
  fsLast : ∀ {tr ip n v next m}, ¬ (peekAt inp n = RBR ∨ peekAt inp n = 0) →
    V ⟨wsStr inp n, true, false, none⟩ (wsEnd inp n) v next m →
    FS true tr ip n (.cons () ip noKey v .nil) false (wsOr inp next m).1 (wsOr inp next m).2
  fsComma : ∀ {tr ip n v next m items tr' w m'}, ¬ (peekAt inp n = RBR ∨ peekAt inp n = 0) →
    V ⟨wsStr inp n, true, false, none⟩ (wsEnd inp n) v next m → peekAt inp m = COMMA →
    FS false true (wsOr inp next (bump inp m 1)).1 (wsOr inp next (bump inp m 1)).2 items tr' w m' →
    FS false tr ip n (.cons () ip noKey v items) tr' w m'
  fsOther : ∀ {tr ip n v next m items tr' w m'}, ¬ (peekAt inp n = RBR ∨ peekAt inp n = 0) →
    V ⟨wsStr inp n, true, false, none⟩ (wsEnd inp n) v next m → peekAt inp m ≠ COMMA →
    FS true false (wsOr inp next m).1 (wsOr inp next m).2 items tr' w m' →
    FS false tr ip n (.cons () ip noKey v items) tr' w m'
  fmStop : ∀ {last tr ip st n}, peekAt inp n = RCB ∨ peekAt inp n = 0 → FM last tr ip st n .nil tr ip st n
  fmLast : ∀ {tr ip st n key m0 v next m}, ¬ (peekAt inp n = RCB ∨ peekAt inp n = 0) → untilColon inp n = (m0, some key) →
    V ⟨wsStr inp (bump inp m0 1), true, false, none⟩ (wsEnd inp (bump inp m0 1)) v next m →
    FM true tr ip st n (.cons () ip key v .nil) false (wsOr inp next m).1 st (wsOr inp next m).2
  fmComma : ∀ {tr ip st n key m0 v next m items tr' w st' m'}, ¬ (peekAt inp n = RCB ∨ peekAt inp n = 0) →
    untilColon inp n = (m0, some key) →
    V ⟨wsStr inp (bump inp m0 1), true, false, none⟩ (wsEnd inp (bump inp m0 1)) v next m →
    peekAt inp (wsOr inp next m).2 = COMMA →
    FM false true (wsStr inp (bump inp (wsOr inp next m).2 1)) (bump inp (wsOr inp next m).2 1)
      (wsEnd inp (bump inp (wsOr inp next m).2 1)) items tr' w st' m' →
    FM false tr ip st n (.cons () ip key v items) tr' w st' m'
  fmOther : ∀ {tr ip st n key m0 v next m items tr' w st' m'}, ¬ (peekAt inp n = RCB ∨ peekAt inp n = 0) →
    untilColon inp n = (m0, some key) →
    V ⟨wsStr inp (bump inp m0 1), true, false, none⟩ (wsEnd inp (bump inp m0 1)) v next m →
    peekAt inp (wsOr inp next m).2 ≠ COMMA →
    FM true false (wsStr inp (wsOr inp next m).2) (wsOr inp next m).2 (wsEnd inp (wsOr inp next m).2) items tr' w st' m' →
    FM false tr ip st n (.cons () ip key v items) tr' w st' m'
  bsLast : ∀ {ind ip n v ws m}, peekAt inp n = DASH →
    V ⟨wsStr inp (bump inp n 1), false, true, none⟩ (wsEnd inp (bump inp n 1)) v ws m →
    indentFrom inp (wsOr inp ws m).2 ≠ ind ∨ peekAt inp (wsOr inp ws m).2 ≠ DASH →
    BS ind ip n (.cons () ip noKey v .nil) (wsOr inp ws m).1 (wsOr inp ws m).2
  bsMore : ∀ {ind ip n v ws m items w m'}, peekAt inp n = DASH →
    V ⟨wsStr inp (bump inp n 1), false, true, none⟩ (wsEnd inp (bump inp n 1)) v ws m →
    indentFrom inp (wsOr inp ws m).2 = ind → peekAt inp (wsOr inp ws m).2 = DASH →
    BS ind (wsOr inp ws m).1 (wsOr inp ws m).2 items w m' → BS ind ip n (.cons () ip noKey v items) w m'
  bmLast : ∀ {ind st key ip n v ws m}, peekAt inp n = COLON →
    V ⟨wsStr inp (bump inp n 1), false, true, some ind⟩ (wsEnd inp (bump inp n 1)) v ws m →
    indentFrom inp (wsOr inp ws m).2 ≠ ind →
    BM ind st key ip n (.cons () ip key v .nil) (wsOr inp ws m).1 (wsOr inp ws m).2
  bmEnd : ∀ {ind st key ip n v ws m m0}, peekAt inp n = COLON →
    V ⟨wsStr inp (bump inp n 1), false, true, some ind⟩ (wsEnd inp (bump inp n 1)) v ws m →
    indentFrom inp (wsOr inp ws m).2 = ind → nextMappingKey inp (wsOr inp ws m).2 = (m0, none) →
    BM ind st key ip n (.cons () ip key v .nil) (wsOr inp ws m).1 m0
  bmMore : ∀ {ind st key ip n v ws m m0 key' items w m'}, peekAt inp n = COLON →
    V ⟨wsStr inp (bump inp n 1), false, true, some ind⟩ (wsEnd inp (bump inp n 1)) v ws m →
    indentFrom inp (wsOr inp ws m).2 = ind → nextMappingKey inp (wsOr inp ws m).2 = (m0, some key') →
    BM ind (wsOr inp ws m).2 key' (wsOr inp ws m).1 m0 items w m' → BM ind st key ip n (.cons () ip key v items) w m'

section
variable {inp : Bytes} {V : PSt → Nat → Tree Unit → Option Bytes → Nat → Prop}
  {FS : (last trailing : Bool) → Bytes → Nat → Items Unit → Bool → Bytes → Nat → Prop}
  {FM : (last trailing : Bool) → Bytes → Nat → Nat → Items Unit → Bool → Bytes → Nat → Nat → Prop}
  {BS : Nat → Bytes → Nat → Items Unit → Bytes → Nat → Prop}
  {BM : Nat → Nat → RStr → Bytes → Nat → Items Unit → Bytes → Nat → Prop}

theorem Rules.fsLoop (R : Rules inp V FS FM BS BM) {rec : PSt → Nat → PRes}
    (h : ∀ s n t ws m, rec s n = .ok (t, ws, m) → V s n t ws m) :
    ∀ (f : Nat) {last tr : Bool} {ip : Bytes} {n : Nat} {items tr' w m},
      pflowSeqLoop rec inp f last tr ip n = .ok (items, tr', w, m) → FS last tr ip n items tr' w m
  | 0, _, _, _, _, _, _, _, _, hr => by cases hr
  | f + 1, last, tr, ip, n, items, tr', w, m, hr => by
    unfold pflowSeqLoop at hr
    split at hr
    · next hp =>
      simp only [Bool.or_eq_true, beq_iff_eq] at hp
      cases hr
      exact R.fsStop hp
    · next hp =>
      simp only [Bool.or_eq_true, beq_iff_eq] at hp
      cases hv : rec ⟨wsStr inp n, true, false, none⟩ (wsEnd inp n) with
      | error e => rw [hv] at hr; cases hr
      | ok r =>
        obtain ⟨v, next, n1⟩ := r
        have hV := h _ _ _ _ _ hv
        rw [hv] at hr
        simp only [bind, Except.bind] at hr
        cases last with
        | true =>
          simp only [if_true] at hr
          cases hr
          exact R.fsLast hp hV
        | false =>
          simp only [Bool.false_eq_true, if_false] at hr
          by_cases hc : peekAt inp n1 = COMMA
          · simp only [hc, beq_self_eq_true, if_true, Bool.not_true] at hr
            cases hl : pflowSeqLoop rec inp f false true (wsOr inp next (bump inp n1 1)).1
                (wsOr inp next (bump inp n1 1)).2 with
            | error e => rw [hl] at hr; cases hr
            | ok r =>
              obtain ⟨is, tr2, w2, m2⟩ := r
              rw [hl] at hr
              cases hr
              exact R.fsComma hp hV hc (R.fsLoop h f hl)
          · have hc' : (peekAt inp n1 == COMMA) = false := by simpa using hc
            simp only [hc', Bool.false_eq_true, if_false, Bool.not_false] at hr
            cases hl : pflowSeqLoop rec inp f true false (wsOr inp next n1).1 (wsOr inp next n1).2 with
            | error e => rw [hl] at hr; cases hr
            | ok r =>
              obtain ⟨is, tr2, w2, m2⟩ := r
              rw [hl] at hr
              cases hr
              exact R.fsOther hp hV hc (R.fsLoop h f hl)

theorem Rules.fmLoop (R : Rules inp V FS FM BS BM) {rec : PSt → Nat → PRes}
    (h : ∀ s n t ws m, rec s n = .ok (t, ws, m) → V s n t ws m) :
    ∀ (f : Nat) {last tr : Bool} {ip : Bytes} {st n : Nat} {items tr' w st' m},
      pflowMapLoop rec inp f last tr ip st n = .ok (items, tr', w, st', m) → FM last tr ip st n items tr' w st' m
  | 0, _, _, _, _, _, _, _, _, _, _, hr => by cases hr
  | f + 1, last, tr, ip, st, n, items, tr', w, st', m, hr => by
    unfold pflowMapLoop at hr
    split at hr
    · next hp =>
      simp only [Bool.or_eq_true, beq_iff_eq] at hp
      cases hr
      exact R.fmStop hp
    · next hp =>
      simp only [Bool.or_eq_true, beq_iff_eq] at hp
      cases hu : untilColon inp n with
      | mk m0 ko =>
      cases ko with
      | none => rw [hu] at hr; cases hr
      | some key =>
      rw [hu] at hr
      simp only at hr
      cases hv : rec ⟨wsStr inp (bump inp m0 1), true, false, none⟩ (wsEnd inp (bump inp m0 1)) with
      | error e => rw [hv] at hr; cases hr
      | ok r =>
        obtain ⟨v, next, n1⟩ := r
        have hV := h _ _ _ _ _ hv
        rw [hv] at hr
        simp only [bind, Except.bind] at hr
        cases last with
        | true =>
          simp only [if_true] at hr
          cases hr
          exact R.fmLast hp hu hV
        | false =>
          simp only [Bool.false_eq_true, if_false] at hr
          by_cases hc : peekAt inp (wsOr inp next n1).2 = COMMA
          · simp only [hc, beq_self_eq_true, if_true, Bool.not_true] at hr
            cases hl : pflowMapLoop rec inp f false true (wsStr inp (bump inp (wsOr inp next n1).2 1))
                (bump inp (wsOr inp next n1).2 1) (wsEnd inp (bump inp (wsOr inp next n1).2 1)) with
            | error e => rw [hl] at hr; cases hr
            | ok r =>
              obtain ⟨is, tr2, w2, st2, m2⟩ := r
              rw [hl] at hr
              cases hr
              exact R.fmComma hp hu hV hc (R.fmLoop h f hl)
          · have hc' : (peekAt inp (wsOr inp next n1).2 == COMMA) = false := by simpa using hc
            simp only [hc', Bool.false_eq_true, if_false, Bool.not_false] at hr
            cases hl : pflowMapLoop rec inp f true false (wsStr inp (wsOr inp next n1).2) (wsOr inp next n1).2
                (wsEnd inp (wsOr inp next n1).2) with
            | error e => rw [hl] at hr; cases hr
            | ok r =>
              obtain ⟨is, tr2, w2, st2, m2⟩ := r
              rw [hl] at hr
              cases hr
              exact R.fmOther hp hu hV hc (R.fmLoop h f hl)

theorem Rules.bsLoop (R : Rules inp V FS FM BS BM) {rec : PSt → Nat → PRes}
    (h : ∀ s n t ws m, rec s n = .ok (t, ws, m) → V s n t ws m) :
    ∀ (f : Nat) {ind : Nat} {ip : Bytes} {n : Nat} {items w m}, peekAt inp n = DASH →
      pseqLoop rec inp ind f ip n = .ok (items, w, m) → BS ind ip n items w m
  | 0, _, _, _, _, _, _, _, hr => by cases hr
  | f + 1, ind, ip, n, items, w, m, hd, hr => by
    unfold pseqLoop at hr
    cases hv : rec ⟨wsStr inp (bump inp n 1), false, true, none⟩ (wsEnd inp (bump inp n 1)) with
    | error e => simp only [hv, bind, Except.bind] at hr; cases hr
    | ok r =>
      obtain ⟨v, ws, n1⟩ := r
      have hV := h _ _ _ _ _ hv
      simp only [hv, bind, Except.bind] at hr
      split at hr
      · next hc =>
        simp only [Bool.or_eq_true, bne_iff_ne] at hc
        cases hr
        exact R.bsLast hd hV hc
      · next hc =>
        simp only [Bool.or_eq_true, bne_iff_ne, not_or, Decidable.not_not] at hc
        cases hl : pseqLoop rec inp ind f (wsOr inp ws n1).1 (wsOr inp ws n1).2 with
        | error e => rw [hl] at hr; cases hr
        | ok r =>
          obtain ⟨is, w2, m2⟩ := r
          rw [hl] at hr
          cases hr
          exact R.bsMore hd hV hc.1 hc.2 (R.bsLoop h f hc.2 hl)

theorem Rules.bmLoop (R : Rules inp V FS FM BS BM) {rec : PSt → Nat → PRes}
    (h : ∀ s n t ws m, rec s n = .ok (t, ws, m) → V s n t ws m) :
    ∀ (f : Nat) {ind st : Nat} {key : RStr} {ip : Bytes} {n : Nat} {items w m},
      pmapLoop rec inp ind f st key ip n = .ok (items, w, m) → BM ind st key ip n items w m
  | 0, _, _, _, _, _, _, _, _, hr => by cases hr
  | f + 1, ind, st, key, ip, n, items, w, m, hr => by
    unfold pmapLoop at hr
    split at hr
    · cases hr
    next hd =>
    simp only [bne_iff_ne, ne_eq, Decidable.not_not] at hd
    cases hv : rec ⟨wsStr inp (bump inp n 1), false, true, some ind⟩ (wsEnd inp (bump inp n 1)) with
    | error e => simp only [hv, bind, Except.bind] at hr; cases hr
    | ok r =>
      obtain ⟨v, ws, n1⟩ := r
      have hV := h _ _ _ _ _ hv
      simp only [hv, bind, Except.bind] at hr
      split at hr
      · next hc =>
        simp only [bne_iff_ne] at hc
        cases hr
        exact R.bmLast hd hV hc
      · next hc =>
        simp only [bne_iff_ne, ne_eq, Decidable.not_not] at hc
        cases hk : nextMappingKey inp (wsOr inp ws n1).2 with
        | mk m0 ko =>
        cases ko with
        | none =>
          rw [hk] at hr
          cases hr
          exact R.bmEnd hd hV hc hk
        | some key' =>
          rw [hk] at hr
          simp only at hr
          cases hl : pmapLoop rec inp ind f (wsOr inp ws n1).2 key' (wsOr inp ws n1).1 m0 with
          | error e => rw [hl] at hr; cases hr
          | ok r =>
            obtain ⟨is, w2, m2⟩ := r
            rw [hl] at hr
            cases hr
            exact R.bmMore hd hV hc hk (R.bmLoop h f hl)

theorem lead_seq {f : Nat} {inline tabular : Bool} {n : Nat} (h : lead f inp inline tabular n = .ok .seq) :
    peekAt inp n = DASH ∧ isWs (peekAt inp (n + 1)) = true ∧ inline = false := by
  simp only [lead, bind, Except.bind, pure, Except.pure] at h
  split at h
  · next hc => simp only [Bool.and_eq_true, beq_iff_eq, Bool.not_eq_true'] at hc; exact ⟨hc.1.1, hc.1.2, hc.2⟩
  · exfalso
    repeat' split at h
    all_goals first | cases h | skip

/-- Rule induction. -/
theorem Rules.value (R : Rules inp V FS FM BS BM) : ∀ (f : Nat) (s : PSt) (n : Nat) (t : Tree Unit) (ws : Option Bytes)
    (m : Nat), pvalue inp f s n = .ok (t, ws, m) → V s n t ws m
  | 0, _, _, _, _, _, hr => by cases hr
  | f + 1, s, n, t, ws, m, hr => by
    have ih := R.value f
    unfold pvalue at hr
    cases hl : lead f inp s.inline s.tabular n with
    | error e => simp only [hl, bind, Except.bind] at hr; cases hr
    | ok l =>
      simp only [hl, bind, Except.bind] at hr
      cases l with
      | seq =>
        simp only [psequence, bind, Except.bind] at hr
        cases hb : pseqLoop (pvalue inp f) inp (indentFrom inp n) f [] n with
        | error e => rw [hb] at hr; cases hr
        | ok r =>
          obtain ⟨is, w, m2⟩ := r
          rw [hb] at hr
          cases hr
          exact R.seq hl (R.bsLoop ih f (lead_seq hl).1 hb)
      | flowSeq =>
        simp only [pflowSeq, bind, Except.bind] at hr
        cases hb : pflowSeqLoop (pvalue inp f) inp f false false (wsStr inp (bump inp n 1)) (wsEnd inp (bump inp n 1)) with
        | error e => rw [hb] at hr; cases hr
        | ok r =>
          obtain ⟨is, tr, w, m2⟩ := r
          simp only [hb] at hr
          split at hr
          · next hc =>
            cases hr
            exact R.flowSeq hl (R.fsLoop ih f hb) (by simpa using hc)
          · cases hr
      | flowMap =>
        simp only [pflowMap, bind, Except.bind] at hr
        cases hb : pflowMapLoop (pvalue inp f) inp f false false (wsStr inp (bump inp n 1)) (bump inp n 1)
            (wsEnd inp (bump inp n 1)) with
        | error e => rw [hb] at hr; cases hr
        | ok r =>
          obtain ⟨is, tr, w, st, m2⟩ := r
          simp only [hb] at hr
          split at hr
          · next hc =>
            cases hr
            exact R.flowMap hl (R.fmLoop ih f hb) (by simpa using hc)
          · cases hr
      | key key m1 =>
        have go : ∀ {ind}, ind = indentFrom inp n → (∀ i, s.parentIndent = some i → i < indentFrom inp n) →
            pmappingOrNul.go (pvalue inp f) inp f s n key m1 ind = .ok (t, ws, m) → V s n t ws m := by
          intro ind hind hlt hg
          subst hind
          simp only [pmappingOrNul.go, bind, Except.bind] at hg
          cases hb : pmapLoop (pvalue inp f) inp (indentFrom inp n) f n key [] m1 with
          | error e => rw [hb] at hg; cases hg
          | ok r =>
            obtain ⟨is, w, m2⟩ := r
            rw [hb] at hg
            cases hg
            exact R.keyMap hl hlt (R.bmLoop ih f hb)
        simp only [pmappingOrNul] at hr
        cases hp : s.parentIndent with
        | none =>
          rw [hp] at hr
          exact go rfl (fun i hi => by rw [hp] at hi; cases hi) hr
        | some i =>
          rw [hp] at hr
          simp only at hr
          split at hr
          · next hge =>
            cases hr
            exact R.keyNull hl hp hge
          · next hge =>
            exact go rfl (fun j hj => by rw [hp] at hj; cases hj; omega) hr
      | scalar sc w m2 =>
        cases hr
        exact R.scalar hl
end

end Verif
