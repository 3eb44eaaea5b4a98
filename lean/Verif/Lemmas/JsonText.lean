import Verif.Model.JsonText
import Verif.Lemmas.Json
import Verif.Lemmas.ChunkKey
/-! The concrete JSON text form is lawful. -/

namespace Zarr

/-! ## UTF-8 -/

theorem byte_toNat (n : Nat) (h : n < 256) : (byte n).toNat = n := by
  simp [byte]; omega

theorem Char.toNat_lt (c : Char) : c.toNat < 0x110000 := by
  have h := c.valid
  have e : c.toNat = c.val.toNat := rfl
  rcases h with h | h <;> simp only [UInt32.toNat] at * <;> omega

theorem isCont_byte (n : Nat) : isCont (byte (0x80 + n % 64)) = true := by
  simp only [isCont, byte_toNat (0x80 + n % 64) (by omega)]
  simp; omega

theorem unUtf8Char_utf8Char (c : Char) (r : Bytes) : unUtf8Char (utf8Char c ++ r) = some (c, r) := by
  have hv : c.toNat.isValidChar := c.valid
  have hlt := Char.toNat_lt c
  have hof := Char.ofNat_toNat c
  unfold utf8Char
  generalize hn : c.toNat = n at *
  simp only
  split
  · rename_i h
    simp only [List.cons_append, List.nil_append, unUtf8Char]
    rw [byte_toNat n (by omega), if_pos h, hof]
  split
  · rename_i h1 h2
    have e : (192 + n / 64 - 192) * 64 + (128 + n % 64 - 128) = n := by omega
    simp only [List.cons_append, List.nil_append, unUtf8Char, isCont_byte,
      byte_toNat (0xC0 + n / 64) (by omega), byte_toNat (0x80 + n % 64) (by omega), e]
    rw [if_neg (by omega), if_neg (by omega), if_pos (by omega), if_pos (by simp; omega), hof]
  split
  · rename_i h1 h2 h3
    have e : (224 + n / 4096 - 224) * 4096 + (128 + n / 64 % 64 - 128) * 64 + (128 + n % 64 - 128) = n := by
      omega
    simp only [List.cons_append, List.nil_append, unUtf8Char, isCont_byte,
      byte_toNat (0xE0 + n / 4096) (by omega), byte_toNat (0x80 + n / 64 % 64) (by omega),
      byte_toNat (0x80 + n % 64) (by omega), e]
    rw [if_neg (by omega), if_neg (by omega), if_neg (by omega), if_pos (by omega),
      if_pos (by simp [hv]; omega), hof]
  · rename_i h1 h2 h3
    have e : (240 + n / 262144 - 240) * 262144 + (128 + n / 4096 % 64 - 128) * 4096
        + (128 + n / 64 % 64 - 128) * 64 + (128 + n % 64 - 128) = n := by omega
    simp only [List.cons_append, List.nil_append, unUtf8Char, isCont_byte,
      byte_toNat (0xF0 + n / 262144) (by omega), byte_toNat (0x80 + n / 4096 % 64) (by omega),
      byte_toNat (0x80 + n / 64 % 64) (by omega), byte_toNat (0x80 + n % 64) (by omega), e]
    rw [if_neg (by omega), if_neg (by omega), if_neg (by omega), if_neg (by omega),
      if_pos (by simp [hv]; omega), hof]

theorem utf8Char_length_pos (c : Char) : 1 ≤ (utf8Char c).length := by
  unfold utf8Char; simp only; split <;> try split <;> try split
  all_goals simp

theorem unUtf8_utf8 (s : Str) : unUtf8 (utf8 s) = some s := by
  have key : ∀ (s : Str) (f : Nat), (utf8 s).length ≤ f → unUtf8Aux f (utf8 s) = some s := by
    intro s
    induction s with
    | nil => intro f _; cases f <;> rfl
    | cons c s ih =>
      intro f hf
      have e : utf8 (c :: s) = utf8Char c ++ utf8 s := by simp [utf8]
      rw [e] at hf ⊢
      have hp := utf8Char_length_pos c
      have hdec := unUtf8Char_utf8Char c (utf8 s)
      rw [List.length_append] at hf
      cases f with
      | zero => omega
      | succ f =>
        cases hl : utf8Char c ++ utf8 s with
        | nil => rw [hl] at hdec; simp [unUtf8Char] at hdec
        | cons b bs =>
          rw [hl] at hdec
          rw [unUtf8Aux, hdec]
          simp only
          rw [ih f (by omega)]
          rfl
  exact key s _ (Nat.le_refl _)

/-! ## Strings -/

theorem parseStrChar_esc (c : Char) (r : Str) :
    parseStrChar (escChar c ++ r) = some (some c, r) := by
  unfold escChar
  split
  · rename_i h; subst h; rfl
  split
  · rename_i h; subst h; rfl
  split
  · rename_i h; subst h; rfl
  split
  · rename_i h; subst h; rfl
  split
  · rename_i h; subst h; rfl
  split
  · rename_i h
    rw [← Char.ofNat_toNat c, h]; rfl
  split
  · rename_i h
    rw [← Char.ofNat_toNat c, h]; rfl
  split
  · rename_i h
    have key : ∀ n < 32, unescapeU '0' '0' (hexDigit (n / 16)) (hexDigit (n % 16))
        = some (Char.ofNat n) := by decide
    simp only [List.cons_append, List.nil_append, parseStrChar]
    rw [if_neg (by decide), if_pos trivial, key _ h, Char.ofNat_toNat]
    rfl
  · rename_i h1 h2 _ _ _ _ _ h3
    simp [parseStrChar, h1, h2, h3]

theorem escChar_length (c : Char) : 1 ≤ (escChar c).length := by
  unfold escChar
  repeat' split
  all_goals simp

theorem parseStr_print (s r : Str) : parseStr (s.flatMap escChar ++ '"' :: r) = some (s, r) := by
  have key : ∀ (s : Str) (f : Nat), (s.flatMap escChar).length < f →
      parseStrAux f (s.flatMap escChar ++ '"' :: r) = some (s, r) := by
    intro s
    induction s with
    | nil =>
      intro f hf
      cases f with
      | zero => omega
      | succ f => rfl
    | cons c s ih =>
      intro f hf
      have := escChar_length c
      rw [List.flatMap_cons, List.length_append] at hf
      cases f with
      | zero => omega
      | succ f =>
        rw [List.flatMap_cons, List.append_assoc, parseStrAux, parseStrChar_esc]
        simp only
        rw [ih f (by omega)]
        rfl
  exact key s _ (by simp; omega)

/-! ## Numbers -/

/-- What may follow a number: nothing that continues it. -/
def Stop (r : Str) : Prop :=
  ∀ c s, r = c :: s → isDigitChar c = false ∧ c ≠ '.' ∧ c ≠ 'e' ∧ c ≠ 'E'

theorem parseNat_dec (n : Nat) (r : Str) (h : Stop r) : parseNat (dec n ++ r) = some (n, r) := by
  have hd : ∀ c ∈ dec n, isDigitChar c = true := fun c hc => dec_digits n c hc
  have h1 : (dec n ++ r).takeWhile isDigitChar = dec n := by
    rw [List.takeWhile_append_of_pos hd]
    cases r with
    | nil => simp
    | cons c s => rw [List.takeWhile_cons, if_neg (by simp [(h c s rfl).1])]; simp
  have h2 : (dec n ++ r).dropWhile isDigitChar = r := by
    rw [List.dropWhile_append_of_pos hd]
    cases r with
    | nil => simp
    | cons c s => rw [List.dropWhile_cons, if_neg (by simp [(h c s rfl).1])]
  unfold parseNat
  simp only [h1, h2, parseDigits_dec]
  rw [if_neg (by simp [dec_ne_nil]), if_neg]
  · rfl
  · cases r with
    | nil => simp
    | cons c s => have := h c s rfl; simp [this]

theorem parseInt_print (i : Int) (r : Str) (h : Stop r) (h1 : -(2 ^ 63 : Int) ≤ i) (h2 : i < 2 ^ 64) :
    parseInt (printInt i ++ r) = some (i, r) := by
  unfold printInt
  split
  · rename_i hn
    simp only [List.cons_append, parseInt, if_true, parseNat_dec _ r h]
    rw [if_pos (by omega)]
    congr 2; omega
  · rename_i hn
    obtain ⟨c, s, hc, hd⟩ := dec_cons i.natAbs
    have hm : c ≠ '-' := by intro e; rw [e] at hd; simp [isDigit] at hd
    have hp := parseNat_dec i.natAbs r h
    rw [hc] at hp ⊢
    rw [List.cons_append] at hp ⊢
    simp only [parseInt, if_neg hm, hp]
    rw [if_pos (by omega)]
    congr 2; omega

/-! ## Values -/

theorem skipWs_of {c : Char} {r : Str} (h : ¬ (c = ' ' ∨ c = '\n' ∨ c = '\r' ∨ c = '\t')) :
    skipWs (c :: r) = c :: r := by simp only [skipWs, if_neg h]

theorem printInt_head (i : Int) : ∃ c r, printInt i = c :: r ∧ (c = '-' ∨ isDigit c = true) := by
  unfold printInt
  split
  · exact ⟨_, _, rfl, .inl rfl⟩
  · obtain ⟨c, r, h, hd⟩ := dec_cons i.natAbs
    exact ⟨c, r, h, .inr hd⟩

theorem printInt_head_ne {c : Char} (h : c = '-' ∨ isDigit c = true) :
    c ≠ 'n' ∧ c ≠ 't' ∧ c ≠ 'f' ∧ c ≠ '"' ∧ c ≠ '[' ∧ c ≠ '{' ∧ c ≠ ']' ∧ c ≠ '}' ∧
      ¬ (c = ' ' ∨ c = '\n' ∨ c = '\r' ∨ c = '\t') := by
  have hr : 45 ≤ c.toNat ∧ c.toNat ≤ 57 := by
    rcases h with rfl | h
    · decide
    · simp [isDigit] at h; omega
  refine ⟨?_, ?_, ?_, ?_, ?_, ?_, ?_, ?_, ?_⟩
  all_goals first
    | (rintro rfl; revert hr; decide)
    | (rintro (rfl | rfl | rfl | rfl) <;> revert hr <;> decide)

/-- A printed value starts with something that is not white space and does not close a list. -/
theorem printJson_head (j : Json) : ∃ c r, printJson j = c :: r ∧ c ≠ ']' ∧ c ≠ '}' ∧
    ¬ (c = ' ' ∨ c = '\n' ∨ c = '\r' ∨ c = '\t') := by
  cases j with
  | null => exact ⟨_, _, rfl, by decide⟩
  | bool b => cases b <;> exact ⟨_, _, rfl, by decide⟩
  | int i =>
    obtain ⟨c, r, h, hd⟩ := printInt_head i
    have := printInt_head_ne hd
    exact ⟨c, r, by rw [printJson, h], this.2.2.2.2.2.2.1, this.2.2.2.2.2.2.2.1, this.2.2.2.2.2.2.2.2⟩
  | float b => exact ⟨_, _, rfl, by decide⟩
  | str s => exact ⟨_, _, rfl, by decide⟩
  | arr l => cases l <;> exact ⟨_, _, rfl, by decide⟩
  | obj l => rcases l with _ | ⟨⟨k, v⟩, m⟩ <;> exact ⟨_, _, rfl, by decide⟩

theorem stop_elems (xs : List Json) (r : Str) : Stop (printElems xs ++ r) := by
  intro c s h
  cases xs <;> simp [printElems] at h <;> obtain ⟨rfl, _⟩ := h <;> decide

theorem stop_members (m : List (Str × Json)) (r : Str) : Stop (printMembers m ++ r) := by
  intro c s h
  rcases m with _ | ⟨⟨k, v⟩, m⟩ <;> simp [printMembers] at h <;> obtain ⟨rfl, _⟩ := h <;> decide

theorem printJson_length (j : Json) : 1 ≤ (printJson j).length := by
  obtain ⟨c, r, h, _⟩ := printJson_head j
  rw [h]; simp

theorem expect_append (lit r : Str) : expect lit (lit ++ r) = some r := by
  unfold expect
  rw [if_pos (by simp [List.isPrefixOf_iff_prefix])]
  simp

theorem parseMember_print (k : Str) (v : Json) (rest : Str) (f : Nat)
    (hf : (printStr k ++ ':' :: printJson v).length ≤ f)
    (ih : ∀ f', (printJson v).length ≤ f' → parseValue f' (printJson v ++ rest) = some (v, rest)) :
    parseMember f (printStr k ++ ':' :: printJson v ++ rest) = some ((k, v), rest) := by
  cases f with
  | zero => simp [printStr] at hf
  | succ f =>
    simp only [printStr, List.cons_append, List.append_assoc, List.nil_append, parseMember]
    rw [skipWs_of (by decide)]
    simp only [if_true]
    rw [parseStr_print]
    simp only
    rw [skipWs_of (by decide)]
    simp only [if_true]
    rw [ih f (by simp [printStr] at hf; omega)]
    rfl

mutual
theorem parseValue_print (n : Nat) (j : Json) (hc : j.canon (fun _ => false) n = true) (f : Nat) (rest : Str)
    (hf : (printJson j).length ≤ f) (hs : Stop rest) :
    parseValue f (printJson j ++ rest) = some (j, rest) := by
  cases f with
  | zero => have := printJson_length j; omega
  | succ f =>
    match n, j, hc, hf with
    | _, .null, _, _ =>
      simp only [printJson, List.cons_append, List.nil_append, parseValue]
      rw [skipWs_of (by decide)]
      simp only [if_true]
      exact congrArg _ (expect_append str!"ull" rest)
    | _, .bool true, _, _ =>
      simp only [printJson, List.cons_append, List.nil_append, parseValue]
      rw [skipWs_of (by decide)]
      simp only [if_neg (show ¬ 't' = 'n' by decide), if_true]
      exact congrArg _ (expect_append str!"rue" rest)
    | _, .bool false, _, _ =>
      simp only [printJson, List.cons_append, List.nil_append, parseValue]
      rw [skipWs_of (by decide)]
      simp only [if_neg (show ¬ 'f' = 'n' by decide), if_neg (show ¬ 'f' = 't' by decide), if_true]
      exact congrArg _ (expect_append str!"alse" rest)
    | _, .int i, hc, _ =>
      simp [Json.canon] at hc
      obtain ⟨c, r, h, hd⟩ := printInt_head i
      have hi := parseInt_print i rest hs hc.1 (by omega)
      obtain ⟨h1, h2, h3, h4, h5, h6, h7, h8, h9⟩ := printInt_head_ne hd
      rw [h] at hi
      rw [printJson, h, List.cons_append, parseValue, skipWs_of h9]
      simp only [if_neg h1, if_neg h2, if_neg h3, if_neg h4, if_neg h5, if_neg h6]
      rw [← List.cons_append, hi]
      rfl
    | _, .float b, hc, _ => simp [Json.canon] at hc
    | _, .str s, _, _ =>
      simp only [printJson, printStr, List.cons_append, List.nil_append, List.append_assoc, parseValue]
      rw [skipWs_of (by decide)]
      simp only [if_neg (show ¬ '"' = 'n' by decide), if_neg (show ¬ '"' = 't' by decide),
        if_neg (show ¬ '"' = 'f' by decide), if_true]
      rw [parseStr_print]
      rfl
    | _, .arr [], _, _ =>
      simp only [printJson, List.cons_append, List.nil_append, parseValue]
      rw [skipWs_of (by decide)]
      simp only [if_neg (show ¬ '[' = 'n' by decide), if_neg (show ¬ '[' = 't' by decide),
        if_neg (show ¬ '[' = 'f' by decide), if_neg (show ¬ '[' = '"' by decide), if_true]
      rw [skipWs_of (by decide)]
      rfl
    | 0, .arr (x :: xs), hc, _ => simp [Json.canon] at hc
    | n + 1, .arr (x :: xs), hc, hf =>
      simp [Json.canon, Json.canonArr] at hc
      simp only [printJson, List.length_cons, List.length_append] at hf
      simp only [printJson, List.cons_append, List.append_assoc, parseValue]
      rw [skipWs_of (by decide)]
      simp only [if_neg (show ¬ '[' = 'n' by decide), if_neg (show ¬ '[' = 't' by decide),
        if_neg (show ¬ '[' = 'f' by decide), if_neg (show ¬ '[' = '"' by decide), if_true]
      have hx := parseValue_print n x hc.1 f (printElems xs ++ rest) (by omega) (stop_elems xs rest)
      have hxs := parseElems_print n xs hc.2 f rest (by omega)
      obtain ⟨c, r, h, h1, h2, h3⟩ := printJson_head x
      rw [h] at hx ⊢
      rw [List.cons_append] at hx ⊢
      rw [skipWs_of h3]
      split
      · rename_i heq
        exact absurd (List.cons.inj heq).1 h1
      · rw [hx]
        simp only [hxs]
        rfl
    | _, .obj [], _, _ =>
      simp only [printJson, List.cons_append, List.nil_append, parseValue]
      rw [skipWs_of (by decide)]
      simp only [if_neg (show ¬ '{' = 'n' by decide), if_neg (show ¬ '{' = 't' by decide),
        if_neg (show ¬ '{' = 'f' by decide), if_neg (show ¬ '{' = '"' by decide),
        if_neg (show ¬ '{' = '[' by decide), if_true]
      rw [skipWs_of (by decide)]
      rfl
    | 0, .obj ((k, v) :: m), hc, _ => simp [Json.canon] at hc
    | n + 1, .obj ((k, v) :: m), hc, hf =>
      simp only [Json.canon, Json.canonObj, Bool.and_eq_true] at hc
      simp only [printJson, List.length_cons, List.length_append] at hf
      simp only [printJson, List.cons_append, List.append_assoc, parseValue]
      rw [skipWs_of (by decide)]
      simp only [if_neg (show ¬ '{' = 'n' by decide), if_neg (show ¬ '{' = 't' by decide),
        if_neg (show ¬ '{' = 'f' by decide), if_neg (show ¬ '{' = '"' by decide),
        if_neg (show ¬ '{' = '[' by decide), if_true]
      have hmem := parseMember_print k v (printMembers m ++ rest) f
        (by simp only [List.length_append, List.length_cons]; omega)
        (fun f' hf' => parseValue_print n v hc.1.1 f' (printMembers m ++ rest) hf' (stop_members m rest))
      have hm := parseMembers_print n m hc.2 f rest (by omega)
      simp only [printStr, List.cons_append, List.append_assoc, List.nil_append] at hmem ⊢
      rw [skipWs_of (by decide)]
      simp only [hmem, hm]
      rfl

theorem parseElems_print (n : Nat) (xs : List Json) (hc : Json.canonArr (fun _ => false) n xs = true) (f : Nat) (rest : Str)
    (hf : (printElems xs).length ≤ f) :
    parseElems f (printElems xs ++ rest) = some (xs, rest) := by
  cases f with
  | zero => cases xs <;> simp [printElems] at hf
  | succ f =>
    match xs, hc, hf with
    | [], _, _ =>
      simp only [printElems, List.cons_append, List.nil_append, parseElems]
      rw [skipWs_of (by decide)]
      simp
    | x :: xs, hc, hf =>
      simp [Json.canonArr] at hc
      simp only [printElems, List.length_cons, List.length_append] at hf
      simp only [printElems, List.cons_append, List.append_assoc, parseElems]
      rw [skipWs_of (by decide)]
      simp only [if_neg (show ¬ ',' = ']' by decide), if_true]
      rw [parseValue_print n x hc.1 f (printElems xs ++ rest) (by omega) (stop_elems xs rest)]
      simp only [parseElems_print n xs hc.2 f rest (by omega)]
      rfl

theorem parseMembers_print (n : Nat) (m : List (Str × Json)) (hc : Json.canonObj (fun _ => false) n m = true) (f : Nat)
    (rest : Str) (hf : (printMembers m).length ≤ f) :
    parseMembers f (printMembers m ++ rest) = some (m, rest) := by
  cases f with
  | zero => rcases m with _ | ⟨⟨k, v⟩, m⟩ <;> simp [printMembers] at hf
  | succ f =>
    match m, hc, hf with
    | [], _, _ =>
      simp only [printMembers, List.cons_append, List.nil_append, parseMembers]
      rw [skipWs_of (by decide)]
      simp
    | (k, v) :: m, hc, hf =>
      simp only [Json.canonObj, Bool.and_eq_true] at hc
      simp only [printMembers, List.length_cons, List.length_append] at hf
      simp only [printMembers, List.cons_append, parseMembers]
      rw [skipWs_of (by decide)]
      simp only [if_neg (show ¬ ',' = '}' by decide), if_true]
      have hmem := parseMember_print k v (printMembers m ++ rest) f
        (by simp only [List.length_append, List.length_cons]; omega)
        (fun f' hf' => parseValue_print n v hc.1.1 f' (printMembers m ++ rest) hf' (stop_members m rest))
      rw [List.append_assoc, hmem]
      simp only [parseMembers_print n m hc.2 f rest (by omega)]
      rfl
end

theorem parseDoc_print (n : Nat) (j : Json) (hj : j.canon (fun _ => false) n = true) :
    parseDoc (printJson j) = some j := by
  have := parseValue_print n j hj ((printJson j).length + 1) [] (by omega) (by intro c s h; simp at h)
  rw [List.append_nil] at this
  rw [parseDoc, this]
  simp [skipWs]

/-- Printing and parsing in the concrete text form satisfies what the theorems assume of
serde_json. -/
theorem jsonText_lawful : jsonText.Lawful where
  raw_print := by
    intro j hj
    simp only [jsonText, unUtf8_utf8, Option.bind_some]
    rw [parseDoc_print 127 j hj, Option.filter_some, if_pos (Json.canon_within 127 j hj)]
  raw_deep := by
    intro n j hj hw
    simp only [jsonText, unUtf8_utf8, Option.bind_some]
    rw [parseDoc_print n j hj, Option.filter_some, if_neg (by simp [hw])]
  raw_within := by
    intro t j h
    exact (Option.filter_eq_some_iff.mp h).2
  raw_nil := by decide

end Zarr
