import Verif.Lemmas.JsonText
/-! No proper part at the beginning of the text of an object is a JSON text. -/

namespace Zarr

/-! ## What was parsed is parsed again when more follows -/

theorem skipWs_more {s r : Str} {c : Char} (h : skipWs s = c :: r) (u : Str) : skipWs (s ++ u) = c :: (r ++ u) := by
  induction s with
  | nil => simp [skipWs] at h
  | cons x s ih =>
    simp only [List.cons_append, skipWs] at h ⊢
    by_cases hx : x = ' ' ∨ x = '\n' ∨ x = '\r' ∨ x = '\t'
    · rw [if_pos hx] at h ⊢; exact ih h
    · rw [if_neg hx] at h ⊢
      cases h
      rfl

theorem parseStrChar_more {s r : Str} {c : Option Char} (h : parseStrChar s = some (c, r)) (u : Str) :
    parseStrChar (s ++ u) = some (c, r ++ u) := by
  cases s with
  | nil => simp [parseStrChar] at h
  | cons x s =>
    simp only [List.cons_append]
    unfold parseStrChar at h ⊢
    dsimp only at h ⊢
    by_cases h1 : x = '"'
    · rw [if_pos h1] at h ⊢; cases h; rfl
    · rw [if_neg h1] at h ⊢
      by_cases h2 : x = '\\'
      · rw [if_pos h2] at h ⊢
        split at h
        · rename_i a b c' d r'
          simp only [List.cons_append]
          cases hu : unescapeU a b c' d with
          | none => rw [hu] at h; simp at h
          | some y => rw [hu] at h; simp only [Option.map_some, Option.some.injEq, Prod.mk.injEq] at h ⊢; exact ⟨h.1, by rw [h.2]⟩
        · rename_i y r' hno
          cases hu : unescape y with
          | none => rw [hu] at h; simp at h
          | some z =>
            rw [hu] at h
            simp only [Option.map_some, Option.some.injEq, Prod.mk.injEq] at h
            have hy : y ≠ 'u' := by rintro rfl; simp [unescape] at hu
            simp only [List.cons_append]
            split
            · rename_i e; simp only [List.cons.injEq] at e; exact absurd e.1 hy
            · rename_i e
              simp only [List.cons.injEq] at e
              obtain ⟨rfl, rfl⟩ := e
              rw [hu]
              simp only [Option.map_some, Option.some.injEq, Prod.mk.injEq]
              exact ⟨h.1, by rw [h.2]⟩
            · rename_i e; simp at e
        · simp at h
      · rw [if_neg h2] at h ⊢
        by_cases h3 : x.toNat < 32
        · rw [if_pos h3] at h; simp at h
        · rw [if_neg h3] at h ⊢; cases h; rfl

theorem parseStrAux_more (f : Nat) : ∀ {s x r : Str}, parseStrAux f s = some (x, r) → ∀ f' u, f ≤ f' →
    parseStrAux f' (s ++ u) = some (x, r ++ u) := by
  induction f with
  | zero => intro s x r h; simp [parseStrAux] at h
  | succ f ih =>
    intro s x r h f' u hf
    cases f' with
    | zero => omega
    | succ f' =>
      unfold parseStrAux at h ⊢
      cases hc : parseStrChar s with
      | none => rw [hc] at h; simp at h
      | some p =>
        obtain ⟨c, t⟩ := p
        rw [hc] at h
        rw [parseStrChar_more hc u]
        cases c with
        | none => simp only [Option.some.injEq, Prod.mk.injEq] at h ⊢; exact ⟨h.1, by rw [h.2]⟩
        | some c =>
          simp only at h ⊢
          cases hr : parseStrAux f t with
          | none => rw [hr] at h; simp at h
          | some q =>
            rw [hr] at h
            rw [ih (x := q.1) (r := q.2) hr f' u (by omega)]
            simp only [Option.map_some, Option.some.injEq, Prod.mk.injEq] at h ⊢
            exact ⟨h.1, by rw [h.2]⟩

theorem parseStr_more {s x r : Str} (h : parseStr s = some (x, r)) (u : Str) : parseStr (s ++ u) = some (x, r ++ u) :=
  parseStrAux_more _ h _ u (by simp)

theorem expect_more {l s r : Str} (h : expect l s = some r) (u : Str) : expect l (s ++ u) = some (r ++ u) := by
  unfold expect at h ⊢
  by_cases hp : l.isPrefixOf s
  · rw [if_pos hp] at h
    simp only [Option.some.injEq] at h
    subst h
    have hp' := List.isPrefixOf_iff_prefix.mp hp
    rw [if_pos (List.isPrefixOf_iff_prefix.mpr (hp'.trans (List.prefix_append _ _))),
      List.drop_append_of_le_length hp'.length_le]
  · rw [if_neg hp] at h; simp at h

theorem parseNat_more {s r : Str} {n : Nat} (h : parseNat s = some (n, r)) (hr : r ≠ []) (u : Str) :
    parseNat (s ++ u) = some (n, r ++ u) := by
  have hd : s.dropWhile isDigitChar = r := by
    unfold parseNat at h
    simp only at h
    split at h
    · simp at h
    · split at h
      · simp at h
      · cases hp : parseDigits 0 (s.takeWhile isDigitChar) with
        | none => rw [hp] at h; simp at h
        | some k => rw [hp] at h; simp only [Option.map_some, Option.some.injEq, Prod.mk.injEq] at h; exact h.2
  have ht : (s ++ u).takeWhile isDigitChar = s.takeWhile isDigitChar ∧ (s ++ u).dropWhile isDigitChar = r ++ u := by
    subst hd
    clear h
    induction s with
    | nil => simp at hr
    | cons c s ih =>
      simp only [List.cons_append, List.takeWhile_cons, List.dropWhile_cons] at hr ⊢
      by_cases hc : isDigitChar c = true
      · simp only [hc, if_true] at hr ⊢
        obtain ⟨a, b⟩ := ih hr
        exact ⟨by rw [a], b⟩
      · simp [hc]
  unfold parseNat at h ⊢
  simp only at h ⊢
  rw [ht.1, ht.2]
  rw [hd] at h
  have hh : (r ++ u).head? = r.head? := by
    cases r with
    | nil => exact absurd rfl hr
    | cons c r => rfl
  rw [hh]
  split at h
  · simp at h
  · rename_i h1
    rw [if_neg h1]
    split at h
    · simp at h
    · rename_i h2
      rw [if_neg h2]
      cases hp : parseDigits 0 (s.takeWhile isDigitChar) with
      | none => rw [hp] at h; simp at h
      | some k =>
        rw [hp] at h
        simp only [Option.map_some, Option.some.injEq, Prod.mk.injEq] at h ⊢
        exact ⟨h.1, trivial⟩

theorem parseInt_more {s r : Str} {n : Int} (h : parseInt s = some (n, r)) (hr : r ≠ []) (u : Str) :
    parseInt (s ++ u) = some (n, r ++ u) := by
  cases s with
  | nil => simp [parseInt] at h
  | cons c s =>
    simp only [List.cons_append]
    unfold parseInt at h ⊢
    simp only at h ⊢
    by_cases hc : c = '-'
    · rw [if_pos hc] at h ⊢
      cases hn : parseNat s with
      | none => rw [hn] at h; simp at h
      | some p =>
        obtain ⟨k, t⟩ := p
        rw [hn] at h
        simp only at h
        split at h
        · rename_i hk
          simp only [Option.some.injEq, Prod.mk.injEq] at h
          obtain ⟨rfl, rfl⟩ := h
          rw [parseNat_more hn hr u]
          simp only [if_pos hk]
        · simp at h
    · rw [if_neg hc] at h ⊢
      cases hn : parseNat (c :: s) with
      | none => rw [hn] at h; simp at h
      | some p =>
        obtain ⟨k, t⟩ := p
        rw [hn] at h
        simp only at h
        split at h
        · rename_i hk
          simp only [Option.some.injEq, Prod.mk.injEq] at h
          obtain ⟨rfl, rfl⟩ := h
          have := parseNat_more hn hr u
          rw [List.cons_append] at this
          rw [this]
          simp only [if_pos hk]
        · simp at h

/-- The value ends with its last character, whatever follows: it is no number. -/
def Json.Closed (v : Json) : Prop := ∀ i, v ≠ .int i

theorem parse_more (f : Nat) :
    (∀ s v r, parseValue f s = some (v, r) → (r ≠ [] ∨ v.Closed) → ∀ f' u, f ≤ f' →
      parseValue f' (s ++ u) = some (v, r ++ u)) ∧
    (∀ s v r, parseElems f s = some (v, r) → ∀ f' u, f ≤ f' → parseElems f' (s ++ u) = some (v, r ++ u)) ∧
    (∀ s v r, parseMember f s = some (v, r) → (r ≠ [] ∨ v.2.Closed) → ∀ f' u, f ≤ f' →
      parseMember f' (s ++ u) = some (v, r ++ u)) ∧
    (∀ s v r, parseMembers f s = some (v, r) → ∀ f' u, f ≤ f' → parseMembers f' (s ++ u) = some (v, r ++ u)) := by
  induction f with
  | zero => refine ⟨?_, ?_, ?_, ?_⟩ <;> intro s v r h <;> simp [parseValue, parseElems, parseMember, parseMembers] at h
  | succ f ih =>
    obtain ⟨iv, ie, im, ims⟩ := ih
    have nonemptyE : ∀ t v r, parseElems f t = some (v, r) → t ≠ [] := by
      rintro t v r h rfl
      cases f <;> simp [parseElems, skipWs] at h
    have nonemptyM : ∀ t v r, parseMembers f t = some (v, r) → t ≠ [] := by
      rintro t v r h rfl
      cases f <;> simp [parseMembers, skipWs] at h
    refine ⟨?_, ?_, ?_, ?_⟩
    · intro s v r h hc f' u hf
      cases f' with
      | zero => omega
      | succ f' =>
        unfold parseValue at h ⊢
        cases hs : skipWs s with
        | nil => rw [hs] at h; simp at h
        | cons c t =>
          rw [hs] at h
          rw [skipWs_more hs u]
          dsimp only at h ⊢
          by_cases c1 : c = 'n'
          · rw [if_pos c1] at h ⊢
            cases he : expect str!"ull" t with
            | none => rw [he] at h; simp at h
            | some t' => rw [he] at h; rw [expect_more he u]; simp only [Option.map_some, Option.some.injEq, Prod.mk.injEq] at h ⊢; exact ⟨h.1, by rw [h.2]⟩
          rw [if_neg c1] at h ⊢
          by_cases c2 : c = 't'
          · rw [if_pos c2] at h ⊢
            cases he : expect str!"rue" t with
            | none => rw [he] at h; simp at h
            | some t' => rw [he] at h; rw [expect_more he u]; simp only [Option.map_some, Option.some.injEq, Prod.mk.injEq] at h ⊢; exact ⟨h.1, by rw [h.2]⟩
          rw [if_neg c2] at h ⊢
          by_cases c3 : c = 'f'
          · rw [if_pos c3] at h ⊢
            cases he : expect str!"alse" t with
            | none => rw [he] at h; simp at h
            | some t' => rw [he] at h; rw [expect_more he u]; simp only [Option.map_some, Option.some.injEq, Prod.mk.injEq] at h ⊢; exact ⟨h.1, by rw [h.2]⟩
          rw [if_neg c3] at h ⊢
          by_cases c4 : c = '"'
          · rw [if_pos c4] at h ⊢
            cases he : parseStr t with
            | none => rw [he] at h; simp at h
            | some q => rw [he] at h; rw [parseStr_more (x := q.1) (r := q.2) he u]; simp only [Option.map_some, Option.some.injEq, Prod.mk.injEq] at h ⊢; exact ⟨h.1, by rw [h.2]⟩
          rw [if_neg c4] at h ⊢
          by_cases c5 : c = '['
          · rw [if_pos c5] at h ⊢
            cases hw : skipWs t with
            | nil =>
              rw [hw] at h
              dsimp only at h
              cases f with
              | zero => simp [parseValue] at h
              | succ f => simp [parseValue, hw] at h
            | cons d t' =>
              rw [hw] at h
              rw [skipWs_more hw u]
              by_cases hd : d = ']'
              · subst hd
                simp only [Option.some.injEq, Prod.mk.injEq] at h ⊢
                exact ⟨h.1, by rw [h.2]⟩
              · split at h
                · rename_i e; simp only [List.cons.injEq] at e; exact absurd e.1 hd
                split
                · rename_i e; simp only [List.cons.injEq] at e; exact absurd e.1 hd
                cases hv : parseValue f t with
                | none => rw [hv] at h; simp at h
                | some q =>
                  obtain ⟨x, t1⟩ := q
                  rw [hv] at h
                  dsimp only at h
                  cases he : parseElems f t1 with
                  | none => rw [he] at h; simp at h
                  | some q =>
                    obtain ⟨xs, t2⟩ := q
                    rw [he] at h
                    rw [iv t x t1 hv (.inl (nonemptyE _ _ _ he)) f' u (by omega)]
                    dsimp only
                    rw [ie t1 xs t2 he f' u (by omega)]
                    simp only [Option.map_some, Option.some.injEq, Prod.mk.injEq] at h ⊢
                    exact ⟨h.1, by rw [h.2]⟩
          rw [if_neg c5] at h ⊢
          by_cases c6 : c = '{'
          · rw [if_pos c6] at h ⊢
            cases hw : skipWs t with
            | nil =>
              rw [hw] at h
              dsimp only at h
              cases f with
              | zero => simp [parseMember] at h
              | succ f => simp [parseMember, hw] at h
            | cons d t' =>
              rw [hw] at h
              rw [skipWs_more hw u]
              by_cases hd : d = '}'
              · subst hd
                simp only [Option.some.injEq, Prod.mk.injEq] at h ⊢
                exact ⟨h.1, by rw [h.2]⟩
              · split at h
                · rename_i e; simp only [List.cons.injEq] at e; exact absurd e.1 hd
                split
                · rename_i e; simp only [List.cons.injEq] at e; exact absurd e.1 hd
                cases hv : parseMember f t with
                | none => rw [hv] at h; simp at h
                | some q =>
                  obtain ⟨x, t1⟩ := q
                  rw [hv] at h
                  dsimp only at h
                  cases he : parseMembers f t1 with
                  | none => rw [he] at h; simp at h
                  | some q =>
                    obtain ⟨xs, t2⟩ := q
                    rw [he] at h
                    rw [im t x t1 hv (.inl (nonemptyM _ _ _ he)) f' u (by omega)]
                    dsimp only
                    rw [ims t1 xs t2 he f' u (by omega)]
                    simp only [Option.map_some, Option.some.injEq, Prod.mk.injEq] at h ⊢
                    exact ⟨h.1, by rw [h.2]⟩
          rw [if_neg c6] at h ⊢
          cases he : parseInt (c :: t) with
          | none => rw [he] at h; simp at h
          | some q =>
            obtain ⟨i, t1⟩ := q
            rw [he] at h
            simp only [Option.map_some, Option.some.injEq, Prod.mk.injEq] at h
            obtain ⟨rfl, rfl⟩ := h
            have hne : t1 ≠ [] := hc.resolve_right fun hcl => hcl i rfl
            have := parseInt_more he hne u
            rw [List.cons_append] at this
            rw [this]
            rfl
    · intro s v r h f' u hf
      cases f' with
      | zero => omega
      | succ f' =>
        unfold parseElems at h ⊢
        cases hs : skipWs s with
        | nil => rw [hs] at h; simp at h
        | cons c t =>
          rw [hs] at h
          rw [skipWs_more hs u]
          dsimp only at h ⊢
          by_cases c1 : c = ']'
          · rw [if_pos c1] at h ⊢
            simp only [Option.some.injEq, Prod.mk.injEq] at h ⊢
            exact ⟨h.1, by rw [h.2]⟩
          rw [if_neg c1] at h ⊢
          by_cases c2 : c = ','
          · rw [if_pos c2] at h ⊢
            cases hv : parseValue f t with
            | none => rw [hv] at h; simp at h
            | some q =>
              obtain ⟨x, t1⟩ := q
              rw [hv] at h
              dsimp only at h
              cases he : parseElems f t1 with
              | none => rw [he] at h; simp at h
              | some q =>
                obtain ⟨xs, t2⟩ := q
                rw [he] at h
                rw [iv t x t1 hv (.inl (nonemptyE _ _ _ he)) f' u (by omega)]
                dsimp only
                rw [ie t1 xs t2 he f' u (by omega)]
                simp only [Option.map_some, Option.some.injEq, Prod.mk.injEq] at h ⊢
                exact ⟨h.1, by rw [h.2]⟩
          · rw [if_neg c2] at h; simp at h
    · intro s v r h hc f' u hf
      cases f' with
      | zero => omega
      | succ f' =>
        unfold parseMember at h ⊢
        cases hs : skipWs s with
        | nil => rw [hs] at h; simp at h
        | cons c t =>
          rw [hs] at h
          rw [skipWs_more hs u]
          dsimp only at h ⊢
          by_cases c1 : c = '"'
          · rw [if_pos c1] at h ⊢
            cases hk : parseStr t with
            | none => rw [hk] at h; simp at h
            | some q =>
              obtain ⟨k, t1⟩ := q
              rw [hk] at h
              rw [parseStr_more hk u]
              dsimp only at h ⊢
              cases hw : skipWs t1 with
              | nil => rw [hw] at h; simp at h
              | cons d t2 =>
                rw [hw] at h
                rw [skipWs_more hw u]
                dsimp only at h ⊢
                by_cases hd : d = ':'
                · rw [if_pos hd] at h ⊢
                  cases hv : parseValue f t2 with
                  | none => rw [hv] at h; simp at h
                  | some q =>
                    obtain ⟨x, t3⟩ := q
                    rw [hv] at h
                    simp only [Option.map_some, Option.some.injEq, Prod.mk.injEq] at h
                    obtain ⟨rfl, rfl⟩ := h
                    rw [iv t2 x t3 hv hc f' u (by omega)]
                    rfl
                · rw [if_neg hd] at h; simp at h
          · rw [if_neg c1] at h; simp at h
    · intro s v r h f' u hf
      cases f' with
      | zero => omega
      | succ f' =>
        unfold parseMembers at h ⊢
        cases hs : skipWs s with
        | nil => rw [hs] at h; simp at h
        | cons c t =>
          rw [hs] at h
          rw [skipWs_more hs u]
          dsimp only at h ⊢
          by_cases c1 : c = '}'
          · rw [if_pos c1] at h ⊢
            simp only [Option.some.injEq, Prod.mk.injEq] at h ⊢
            exact ⟨h.1, by rw [h.2]⟩
          rw [if_neg c1] at h ⊢
          by_cases c2 : c = ','
          · rw [if_pos c2] at h ⊢
            cases hv : parseMember f t with
            | none => rw [hv] at h; simp at h
            | some q =>
              obtain ⟨x, t1⟩ := q
              rw [hv] at h
              dsimp only at h
              cases he : parseMembers f t1 with
              | none => rw [he] at h; simp at h
              | some q =>
                obtain ⟨xs, t2⟩ := q
                rw [he] at h
                rw [im t x t1 hv (.inl (nonemptyM _ _ _ he)) f' u (by omega)]
                dsimp only
                rw [ims t1 xs t2 he f' u (by omega)]
                simp only [Option.map_some, Option.some.injEq, Prod.mk.injEq] at h ⊢
                exact ⟨h.1, by rw [h.2]⟩
          · rw [if_neg c2] at h; simp at h

/-! ## UTF-8 -/

theorem unUtf8Char_more {b r : Bytes} {c : Char} (h : unUtf8Char b = some (c, r)) (u : Bytes) :
    unUtf8Char (b ++ u) = some (c, r ++ u) := by
  cases b with
  | nil => simp [unUtf8Char] at h
  | cons x b =>
    simp only [List.cons_append]
    unfold unUtf8Char at h ⊢
    dsimp only at h ⊢
    by_cases h1 : x.toNat < 0x80
    · rw [if_pos h1] at h ⊢; cases h; rfl
    rw [if_neg h1] at h ⊢
    by_cases h2 : x.toNat < 0xC0
    · rw [if_pos h2] at h; simp at h
    rw [if_neg h2] at h ⊢
    by_cases h3 : x.toNat < 0xE0
    · rw [if_pos h3] at h ⊢
      cases b with
      | nil => simp at h
      | cons y b =>
        simp only [List.cons_append] at h ⊢
        split at h
        · rename_i hg; rw [if_pos hg]; simp only [Option.some.injEq, Prod.mk.injEq] at h ⊢; exact ⟨h.1, by rw [h.2]⟩
        · simp at h
    rw [if_neg h3] at h ⊢
    by_cases h4 : x.toNat < 0xF0
    · rw [if_pos h4] at h ⊢
      rcases b with _ | ⟨y, _ | ⟨z, b⟩⟩
      · simp at h
      · simp at h
      · simp only [List.cons_append] at h ⊢
        split at h
        · rename_i hg; rw [if_pos hg]; simp only [Option.some.injEq, Prod.mk.injEq] at h ⊢; exact ⟨h.1, by rw [h.2]⟩
        · simp at h
    rw [if_neg h4] at h ⊢
    rcases b with _ | ⟨y, _ | ⟨z, _ | ⟨w, b⟩⟩⟩
    · simp at h
    · simp at h
    · simp at h
    · simp only [List.cons_append] at h ⊢
      split at h
      · rename_i hg; rw [if_pos hg]; simp only [Option.some.injEq, Prod.mk.injEq] at h ⊢; exact ⟨h.1, by rw [h.2]⟩
      · simp at h

theorem unUtf8Aux_more (f : Nat) : ∀ {b : Bytes} {s' : Str}, unUtf8Aux f b = some s' → ∀ {f' : Nat} {u : Bytes} {s : Str},
    unUtf8Aux f' (b ++ u) = some s → u ≠ [] → ∃ w, s = s' ++ w ∧ w ≠ [] := by
  induction f with
  | zero =>
    intro b s' h f' u s hs hu
    cases b with
    | cons x b => simp [unUtf8Aux] at h
    | nil =>
      simp only [unUtf8Aux, Option.some.injEq] at h
      subst h
      refine ⟨s, rfl, ?_⟩
      rintro rfl
      cases u with
      | nil => exact hu rfl
      | cons y u =>
        cases f' with
        | zero => simp [unUtf8Aux] at hs
        | succ f' =>
          simp only [List.nil_append, unUtf8Aux] at hs
          split at hs <;> simp at hs
  | succ f ih =>
    intro b s' h f' u s hs hu
    cases b with
    | nil =>
      simp only [unUtf8Aux, Option.some.injEq] at h
      subst h
      refine ⟨s, rfl, ?_⟩
      rintro rfl
      cases u with
      | nil => exact hu rfl
      | cons y u =>
        cases f' with
        | zero => simp [unUtf8Aux] at hs
        | succ f' =>
          simp only [List.nil_append, unUtf8Aux] at hs
          split at hs <;> simp at hs
    | cons x b =>
      cases f' with
      | zero => simp [unUtf8Aux] at hs
      | succ f' =>
        simp only [List.cons_append, unUtf8Aux] at h hs
        cases hc : unUtf8Char (x :: b) with
        | none => rw [hc] at h; simp at h
        | some q =>
          obtain ⟨c, r⟩ := q
          have hm := unUtf8Char_more hc u
          rw [List.cons_append] at hm
          rw [hc] at h
          rw [hm] at hs
          simp only [Option.map_eq_some_iff] at h hs
          obtain ⟨a, ha, rfl⟩ := h
          obtain ⟨a', ha', rfl⟩ := hs
          obtain ⟨w, rfl, hw⟩ := ih ha ha' hu
          exact ⟨w, rfl, hw⟩

/-- No proper beginning of the text of an object is a JSON text. -/
theorem jsonText_cut (n : Nat) (o : JsonObject) (hc : Json.canon (fun _ => false) n (.obj o) = true) (k : Nat)
    (hk : k < (jsonText.print (.obj o)).length) : jsonText.raw ((jsonText.print (.obj o)).take k) = none := by
  have hp := parseValue_print n (.obj o) hc
  simp only [jsonText] at hk ⊢
  generalize hu : (utf8 (printJson (.obj o))).drop k = u
  have hsplit : (utf8 (printJson (.obj o))).take k ++ u = utf8 (printJson (.obj o)) := by
    rw [← hu]; exact List.take_append_drop _ _
  have hune : u ≠ [] := by
    rintro rfl
    have := List.drop_eq_nil_iff.mp hu
    omega
  cases h8 : unUtf8 ((utf8 (printJson (.obj o))).take k) with
  | none => rfl
  | some s' =>
    have hall : unUtf8 ((utf8 (printJson (.obj o))).take k ++ u) = some (printJson (.obj o)) := by
      rw [hsplit]; exact unUtf8_utf8 _
    obtain ⟨w, hw, hwne⟩ := unUtf8Aux_more _ h8 hall hune
    simp only [Option.bind_some]
    cases hd : parseDoc s' with
    | none => rfl
    | some j =>
      exfalso
      unfold parseDoc at hd
      cases hv : parseValue (s'.length + 1) s' with
      | none => rw [hv] at hd; simp at hd
      | some q =>
        obtain ⟨v, r⟩ := q
        have hopen : ∃ t, printJson (.obj o) = '{' :: t := by
          rcases o with _ | ⟨⟨k, v⟩, m⟩ <;> simp [printJson]
        obtain ⟨t, ht⟩ := hopen
        have hcl : v.Closed := by
          rintro i rfl
          unfold parseValue at hv
          cases s' with
          | nil => simp [skipWs] at hv
          | cons c s'' =>
            rw [ht] at hw
            simp only [List.cons_append, List.cons.injEq] at hw
            obtain ⟨rfl, _⟩ := hw
            rw [skipWs_of (by decide)] at hv
            simp only [show ('{' : Char) ≠ 'n' by decide, show ('{' : Char) ≠ 't' by decide,
              show ('{' : Char) ≠ 'f' by decide, show ('{' : Char) ≠ '"' by decide, show ('{' : Char) ≠ '[' by decide,
              if_false, if_true] at hv
            split at hv
            · simp at hv
            · split at hv
              · simp at hv
              · simp only [Option.map_eq_some_iff] at hv
                obtain ⟨_, _, e⟩ := hv
                simp at e
        have hlen : s'.length + 1 ≤ (printJson (.obj o)).length + 1 := by rw [hw]; simp
        have hmore := (parse_more _).1 s' v r hv (.inr hcl) ((printJson (.obj o)).length + 1) w hlen
        rw [← hw] at hmore
        have hfull := hp ((printJson (.obj o)).length + 1) [] (by omega) (by intro c s h; simp at h)
        rw [List.append_nil, hmore] at hfull
        simp only [Option.some.injEq, Prod.mk.injEq, List.append_eq_nil_iff] at hfull
        exact hwne hfull.2.2

end Zarr
