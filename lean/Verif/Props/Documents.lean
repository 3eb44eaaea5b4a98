import Verif.Spec.Documents
import Verif.Props.Metadata
import Verif.Props.Open
import Verif.Lemmas.Nodes
/-!
# The form of metadata documents: C66
-/

namespace Zarr

open Spec

theorem field_eq (o : JsonObject) (k : Str) : field o k = objGet o k := by
  induction o with
  | nil => rfl
  | cons e o ih =>
    obtain ⟨a, v⟩ := e
    simp only [field, List.find?_cons, objGet] at ih ⊢
    by_cases h : a = k <;> simp [h, ih]

theorem objField_eq_ok {o : JsonObject} {k : Str} {j : Json} : objField o k = .ok j ↔ field o k = some j := by
  rw [field_eq]
  exact ⟨objField_ok, fun h => by simp [objField, h]⟩

theorem digitVal_eq_some {c : Char} {d : Nat} : digitVal c = some d ↔ c.isDigit = true ∧ d = c.toNat - 48 := by
  have : c.isDigit = true ↔ 48 ≤ c.toNat ∧ c.toNat ≤ 57 := by
    simp only [Char.isDigit, Bool.and_eq_true, decide_eq_true_eq, Char.toNat]
    exact Iff.rfl
  rw [this]
  unfold digitVal
  constructor
  · intro h; split at h <;> simp_all
  · rintro ⟨h, rfl⟩; rw [if_pos h]

theorem parseDigits_eq_some {s : Str} {acc n : Nat} :
    parseDigits acc s = some n ↔ (∀ c ∈ s, c.isDigit = true) ∧ Nat.ofDigitChars 10 s acc = n := by
  induction s generalizing acc with
  | nil => simp [parseDigits, Nat.ofDigitChars]
  | cons c s ih =>
    have ho : Nat.ofDigitChars 10 (c :: s) acc = Nat.ofDigitChars 10 s (acc * 10 + (c.toNat - 48)) := by
      simp [Nat.ofDigitChars, Nat.mul_comm]
    simp only [parseDigits]
    cases hd : digitVal c with
    | none =>
      simp only [List.mem_cons, forall_eq_or_imp, reduceCtorEq, false_iff]
      rintro ⟨⟨h, _⟩, _⟩
      have := digitVal_eq_some.mpr ⟨h, rfl⟩
      rw [hd] at this; simp at this
    | some d =>
      obtain ⟨h1, rfl⟩ := digitVal_eq_some.mp hd
      simp only [ih, ho, List.mem_cons, forall_eq_or_imp, h1, true_and]

theorem parseUsize_eq_some {s : Str} {n : Nat} :
    parseUsize s = some n ↔ ∃ plus digits, s = plus ++ digits ∧ (plus = [] ∨ plus = ['+']) ∧ digits ≠ [] ∧
      (∀ c ∈ digits, c.isDigit = true) ∧ Nat.ofDigitChars 10 digits 0 = n ∧ n < 2 ^ 64 := by
  have key : ∀ body : Str, (if body.isEmpty then none
      else match parseDigits 0 body with
        | some n => if n < 2 ^ 64 then some n else none
        | none => none) = some n ↔
      body ≠ [] ∧ (∀ c ∈ body, c.isDigit = true) ∧ Nat.ofDigitChars 10 body 0 = n ∧ n < 2 ^ 64 := by
    intro body
    cases body with
    | nil => simp
    | cons c cs =>
      simp only [List.isEmpty_cons, Bool.false_eq_true, if_false, ne_eq, reduceCtorEq, not_false_eq_true, true_and]
      cases hp : parseDigits 0 (c :: cs) with
      | none =>
        simp only [reduceCtorEq, false_iff]
        rintro ⟨h1, h2, _⟩
        have := parseDigits_eq_some.mpr ⟨h1, h2⟩
        rw [hp] at this; simp at this
      | some k =>
        obtain ⟨h1, h2⟩ := parseDigits_eq_some.mp hp
        constructor
        · intro h
          simp only at h
          split at h
          · rename_i hk
            obtain rfl : k = n := by simpa using h
            exact ⟨h1, h2, hk⟩
          · simp at h
        · rintro ⟨_, h3, h4⟩
          have : k = n := by rw [← h2, h3]
          subst this
          simp [h4]
  unfold parseUsize
  split
  · rename_i t
    refine (key t).trans ?_
    constructor
    · rintro ⟨h1, h2, h3, h4⟩
      exact ⟨['+'], t, rfl, Or.inr rfl, h1, h2, h3, h4⟩
    · rintro ⟨plus, digits, he, hp, h1, h2, h3, h4⟩
      rcases hp with rfl | rfl
      · simp only [List.nil_append] at he
        subst he
        have := h2 '+' (by simp)
        exact absurd this (by decide)
      · simp at he; subst he; exact ⟨h1, h2, h3, h4⟩
  · rename_i hs
    refine (key s).trans ?_
    constructor
    · rintro ⟨h1, h2, h3, h4⟩
      exact ⟨[], s, rfl, Or.inl rfl, h1, h2, h3, h4⟩
    · rintro ⟨plus, digits, he, hp, h1, h2, h3, h4⟩
      rcases hp with rfl | rfl
      · simp only [List.nil_append] at he
        subst he; exact ⟨h1, h2, h3, h4⟩
      · exact absurd he (hs _)

theorem byteLen_cons (c : Char) (s : Str) : byteLen (c :: s) = c.utf8Size + byteLen s := by
  simp [byteLen]

theorem byteLen_eq_zero {s : Str} (h : byteLen s = 0) : s = [] := by
  cases s with
  | nil => rfl
  | cons c s => have := utf8Size_pos c; rw [byteLen_cons] at h; omega

theorem Endian.deserialChar_some {c : Char} {e : Endian} (h : Endian.deserialChar c = some e) :
    (c = '>' ∧ e = .big) ∨ (c = '<' ∧ e = .little) := by
  unfold Endian.deserialChar at h
  split at h
  · simp at h; simp [*]
  · split at h
    · simp at h; simp [*]
    · simp at h

theorem IntSize.deserialChar_some {c : Char} {e : IntSize} (h : IntSize.deserialChar c = some e) :
    (c = '1' ∧ e = .B1) ∨ (c = '2' ∧ e = .B2) ∨ (c = '4' ∧ e = .B4) ∨ (c = '8' ∧ e = .B8) := by
  unfold IntSize.deserialChar at h
  split at h
  · simp at h; simp [*]
  split at h
  · simp at h; simp [*]
  split at h
  · simp at h; simp [*]
  split at h
  · simp at h; simp [*]
  · simp at h

theorem FloatSize.deserialChar_some {c : Char} {e : FloatSize} (h : FloatSize.deserialChar c = some e) :
    (c = '2' ∧ e = .B2) ∨ (c = '4' ∧ e = .B4) ∨ (c = '8' ∧ e = .B8) := by
  unfold FloatSize.deserialChar at h
  split at h
  · simp at h; simp [*]
  split at h
  · simp at h; simp [*]
  split at h
  · simp at h; simp [*]
  · simp at h

theorem visit3_ok {s : Str} {d : DataType} (hl : byteLen s = 3) (h : DataType.visit3 s = .ok d) :
    (s, d) ∈ typeTable := by
  unfold DataType.visit3 at h
  cases s with
  | nil => simp at h
  | cons c0 r0 =>
    simp only at h
    cases he : Endian.deserialChar c0 with
    | none => rw [he] at h; simp at h
    | some e =>
      rw [he] at h
      cases r0 with
      | nil => simp at h
      | cons c1 r1 =>
        simp only at h
        have hc0 : c0.utf8Size = 1 := by
          rcases Endian.deserialChar_some he with ⟨rfl, _⟩ | ⟨rfl, _⟩ <;> decide
        have fin : ∀ (c2 : Char) (r2 : Str), c1.utf8Size = 1 → c2.utf8Size = 1 → r1 = c2 :: r2 → r2 = [] := by
          intro c2 r2 h1 h2 hr
          subst hr
          rw [byteLen_cons, byteLen_cons, byteLen_cons, hc0, h1, h2] at hl
          exact byteLen_eq_zero (by omega)
        split at h
        · rename_i hc1; subst hc1
          cases r1 with
          | nil => simp at h
          | cons c2 r2 =>
            simp only at h
            cases hz : IntSize.deserialChar c2 with
            | none => rw [hz] at h; simp at h
            | some z =>
              rw [hz] at h; simp at h; subst h
              rcases Endian.deserialChar_some he with ⟨rfl, rfl⟩ | ⟨rfl, rfl⟩ <;>
                rcases IntSize.deserialChar_some hz with ⟨rfl, rfl⟩ | ⟨rfl, rfl⟩ | ⟨rfl, rfl⟩ | ⟨rfl, rfl⟩ <;>
                (have := fin _ r2 (by decide) (by decide) rfl; subst this; decide)
        split at h
        · rename_i hc1; subst hc1
          cases r1 with
          | nil => simp at h
          | cons c2 r2 =>
            simp only at h
            cases hz : IntSize.deserialChar c2 with
            | none => rw [hz] at h; simp at h
            | some z =>
              rw [hz] at h; simp at h; subst h
              rcases Endian.deserialChar_some he with ⟨rfl, rfl⟩ | ⟨rfl, rfl⟩ <;>
                rcases IntSize.deserialChar_some hz with ⟨rfl, rfl⟩ | ⟨rfl, rfl⟩ | ⟨rfl, rfl⟩ | ⟨rfl, rfl⟩ <;>
                (have := fin _ r2 (by decide) (by decide) rfl; subst this; decide)
        split at h
        · rename_i hc1; subst hc1
          cases r1 with
          | nil => simp at h
          | cons c2 r2 =>
            simp only at h
            cases hz : FloatSize.deserialChar c2 with
            | none => rw [hz] at h; simp at h
            | some z =>
              rw [hz] at h; simp at h; subst h
              rcases Endian.deserialChar_some he with ⟨rfl, rfl⟩ | ⟨rfl, rfl⟩ <;>
                rcases FloatSize.deserialChar_some hz with ⟨rfl, rfl⟩ | ⟨rfl, rfl⟩ | ⟨rfl, rfl⟩ <;>
                (have := fin _ r2 (by decide) (by decide) rfl; subst this; decide)
        · simp at h

theorem typeTable_visit : ∀ e ∈ typeTable, DataType.visitStr e.1 = .ok e.2 := by decide

theorem visitStr_eq_ok {s : Str} {d : DataType} : DataType.visitStr s = .ok d ↔ TypeName s d := by
  constructor
  · intro h
    unfold DataType.visitStr at h
    split at h
    · rename_i hs; subst hs; simp at h; subst h; exact .fixed (by decide)
    split at h
    · rename_i hs; subst hs; simp at h; subst h; exact .fixed (by decide)
    split at h
    · rename_i hs; subst hs; simp at h; subst h; exact .fixed (by decide)
    split at h
    · split at h
      · rename_i hp
        split at h
        · rename_i h8
          simp at h; subst h
          obtain ⟨plus, digits, rfl, h1, h2, h3, h4, h5⟩ := parseUsize_eq_some.mp hp
          exact .raw h1 h2 h3 h4 h5 h8
        · simp at h
      · simp at h
    · split at h
      · rename_i hl
        exact .fixed (visit3_ok hl h)
      · simp at h
  · intro h
    cases h with
    | fixed h => exact typeTable_visit _ h
    | @raw plus digits n h1 h2 h3 h4 h5 h8 =>
      have hp := parseUsize_eq_some.mpr ⟨plus, digits, rfl, h1, h2, h3, h4, h5⟩
      unfold DataType.visitStr
      rw [if_neg (by simp), if_neg (by simp), if_neg (by simp)]
      simp only [hp, h8, if_true]

theorem DataType.fromJson_eq_ok {j : Json} {d : DataType} : DataType.fromJson j = .ok d ↔ TypeText j d := by
  cases j <;> simp [DataType.fromJson, TypeText, visitStr_eq_ok]

theorem asStr_eq_ok {j : Json} {s : Str} : j.asStr = .ok s ↔ j = .str s := by
  cases j <;> simp [Json.asStr]

theorem asBool_eq_ok {j : Json} {b : Bool} : j.asBool = .ok b ↔ j = .bool b := by
  cases j <;> simp [Json.asBool]

theorem asObj_eq_ok {j : Json} {b : JsonObject} : j.asObj = .ok b ↔ j = .obj b := by
  cases j <;> simp [Json.asObj]

theorem asMap_eq_ok {j : Json} {b : JsonObject} : j.asMap = .ok b ↔ j.dedup = .obj b := asObj_eq_ok

theorem asArr_eq_ok {j : Json} {b : List Json} : j.asArr = .ok b ↔ j = .arr b := by
  cases j <;> simp [Json.asArr]

theorem extFromJson_eq_ok {o : JsonObject} {x : ExtensibleDataType} :
    ExtensibleDataType.extFromJson (.obj o) = .ok x ↔ (∀ k ∈ [str!"extension", str!"type", str!"fallback"], (o.map Prod.fst).count k ≤ 1) ∧
      ∃ e t f, x = .extended e t f ∧
      field o str!"extension" = some (.str e) ∧ field o str!"type" = some (.str t) ∧
      Optional (field o str!"fallback") TypeText f := by
  simp only [ExtensibleDataType.extFromJson, Outcome.bind_eq_ok, objField_eq_ok, asStr_eq_ok,
    Outcome.pure_def]
  have hf : ∀ k : Option DataType → ExtensibleDataType, (match objGet o str!"fallback" with
      | none => (Outcome.ok none >>= fun f => Outcome.ok (k f) : Outcome ExtensibleDataType)
      | some .null => Outcome.ok none >>= fun f => Outcome.ok (k f)
      | some j => DataType.fromJson j >>= fun d => Outcome.ok (some d) >>= fun f => Outcome.ok (k f)) = .ok x ↔
        ∃ f, Optional (field o str!"fallback") TypeText f ∧ k f = x := by
    intro k
    rw [field_eq]
    cases hg : objGet o str!"fallback" with
    | none => simp [Optional, Option.exists]
    | some j =>
      cases j with
      | null => simp [Optional, Option.exists, TypeText]
      | str s => simp [Optional, Option.exists, Outcome.bind_eq_ok, DataType.fromJson_eq_ok]
      | _ => simp [Optional, Option.exists, DataType.fromJson, TypeText]
  constructor
  · rintro ⟨o', ho, j1, h1, e, rfl, j2, h2, t, rfl, h3⟩
    obtain ⟨rfl, hu⟩ := uniqueMembers_eq_ok.mp ho
    obtain ⟨f, h4, rfl⟩ := (hf _).mp h3
    exact ⟨hu, e, t, f, rfl, h1, h2, h4⟩
  · rintro ⟨hu, e, t, f, rfl, h1, h2, h3⟩
    exact ⟨o, uniqueMembers_eq_ok.mpr ⟨rfl, hu⟩, _, h1, e, rfl, _, h2, t, rfl, (hf _).mpr ⟨f, h3, rfl⟩⟩

theorem ExtensibleDataType.fromJson_eq_ok {j : Json} {x : ExtensibleDataType} :
    ExtensibleDataType.fromJson j = .ok x ↔ DataTypeDoc j x := by
  unfold ExtensibleDataType.fromJson
  cases hd : DataType.fromJson j with
  | ok d =>
    have ht := DataType.fromJson_eq_ok.mp hd
    obtain ⟨s, rfl, hs⟩ := ht
    constructor
    · intro h; simp at h; subst h; exact .core ⟨s, rfl, hs⟩
    · intro h
      cases h with
      | core h' => have := DataType.fromJson_eq_ok.mpr h'; rw [hd] at this; simp at this; simp [this]
  | panic =>
    constructor
    · intro h; simp at h
    · intro h
      cases h with
      | core h' => have := DataType.fromJson_eq_ok.mpr h'; rw [hd] at this; simp at this
      | extended _ _ _ _ => simp [DataType.fromJson] at hd
  | err k =>
    cases j with
    | obj o =>
      simp only
      rw [extFromJson_eq_ok]
      constructor
      · rintro ⟨h0, e, t, f, rfl, h1, h2, h3⟩; exact .extended h0 h1 h2 h3
      · intro h
        cases h with
        | core h' => have := DataType.fromJson_eq_ok.mpr h'; rw [hd] at this; simp at this
        | extended h0 h1 h2 h3 => exact ⟨h0, _, _, _, rfl, h1, h2, h3⟩
    | _ =>
      constructor
      · intro h; simp [ExtensibleDataType.extFromJson] at h
      · intro h
        cases h with
        | core h' => have := DataType.fromJson_eq_ok.mpr h'; rw [hd] at this; simp at this

theorem optObjField_eq_ok {o : JsonObject} {k : Str} {c : Option JsonObject} :
    optObjField o k = .ok c ↔ Optional (field o k) (fun j c => j.dedup = .obj c) c := by
  rw [field_eq]
  unfold optObjField
  cases hg : objGet o k with
  | none => cases c <;> simp [Optional]
  | some j => cases j <;> cases c <;> simp [Optional, Json.asMap, Json.asObj, Json.dedup]

theorem ExtensionMetadata.fromJson_eq_ok {j : Json} {e : ExtensionMetadata} :
    ExtensionMetadata.fromJson j = .ok e ↔ ExtensionDoc j e := by
  simp only [ExtensionMetadata.fromJson, Outcome.bind_eq_ok, objField_eq_ok, asStr_eq_ok, asBool_eq_ok,
    optObjField_eq_ok, Outcome.pure_def, Outcome.ok.injEq, ExtensionDoc, members_iff]
  constructor
  · rintro ⟨o, ho, j1, h1, a, rfl, j2, h2, b, rfl, c, h3, rfl⟩
    exact ⟨o, ho, h1, h2, h3⟩
  · rintro ⟨o, ho, h1, h2, h3⟩
    exact ⟨o, ho, _, h1, _, rfl, _, h2, _, rfl, _, h3, rfl⟩

theorem mapOutcome_eq_ok {α β : Type} {f : α → Outcome β} {R : α → β → Prop}
    (hR : ∀ a b, f a = .ok b ↔ R a b) {xs : List α} {ys : List β} :
    mapOutcome f xs = .ok ys ↔ Pointwise R xs ys := by
  induction xs generalizing ys with
  | nil => cases ys <;> simp [mapOutcome, Pointwise]
  | cons x xs ih =>
    simp only [mapOutcome, Outcome.bind_eq_ok, Outcome.pure_def, Outcome.ok.injEq, hR, ih]
    constructor
    · rintro ⟨y, h1, ys', ⟨h2, h3⟩, rfl⟩
      refine ⟨by simp [h2], ?_⟩
      intro i h h'
      cases i with
      | zero => exact h1
      | succ i => exact h3 i _ _
    · rintro ⟨h1, h2⟩
      cases ys with
      | nil => simp at h1
      | cons y ys =>
        refine ⟨y, h2 0 (by simp) (by simp), ys, ⟨by simpa using h1, ?_⟩, rfl⟩
        intro i h h'
        exact h2 (i + 1) (by simpa using h) (by simpa using h')

theorem asNatBelow_eq_ok {hi : Nat} {j : Json} {n : Nat} :
    Json.asNatBelow hi j = .ok n ↔ j = .int (n : Int) ∧ n < hi := by
  cases j with
  | int i =>
    simp only [Json.asNatBelow, Json.asIntIn, Outcome.bind_eq_ok, Outcome.pure_def, Outcome.ok.injEq,
      Json.int.injEq]
    constructor
    · rintro ⟨k, h, rfl⟩
      split at h
      · simp at h; subst h; omega
      · simp at h
    · rintro ⟨rfl, h⟩
      exact ⟨(n : Int), by rw [if_pos (by omega)], by simp⟩
  | _ => simp [Json.asNatBelow, Json.asIntIn]

theorem asNats_eq_ok {hi : Nat} {j : Json} {l : List Nat} :
    Json.asNats hi j = .ok l ↔ NatsDoc hi j l := by
  simp only [Json.asNats, Outcome.bind_eq_ok, asArr_eq_ok,
    mapOutcome_eq_ok (R := fun (j : Json) (n : Nat) => j = .int (n : Int) ∧ n < hi) (fun _ _ => asNatBelow_eq_ok),
    NatsDoc]
  constructor
  · rintro ⟨xs, rfl, h1, h2⟩
    constructor
    · congr 1
      apply List.ext_getElem
      · simpa using h1
      · intro i a b
        rw [List.getElem_map]
        exact (h2 i a (by simpa using b)).1
    · intro n hn
      obtain ⟨i, hi', rfl⟩ := List.getElem_of_mem hn
      exact (h2 i (by rw [h1]; exact hi') hi').2
  · rintro ⟨rfl, h⟩
    refine ⟨_, rfl, by simp, ?_⟩
    intro i a b
    rw [List.getElem_map]
    exact ⟨rfl, h _ (List.getElem_mem _)⟩

theorem Order.fromJson_eq_ok {j : Json} {o : Order} : Order.fromJson j = .ok o ↔ OrderDoc j o := by
  have hs : ∀ s : Str, (if s = str!"C" then Outcome.ok Order.rowMajor else if s = str!"F" then
      .ok .columnMajor else .err .json) = .ok o ↔ s = (match o with | .rowMajor => str!"C" | .columnMajor => str!"F") := by
    intro s
    cases o <;> constructor
    · intro h; split at h
      · assumption
      · split at h <;> simp at h
    · rintro rfl; rfl
    · intro h; split at h
      · simp at h
      · split at h
        · assumption
        · simp at h
    · rintro rfl; rfl
  cases j with
  | str s =>
    simp only [Order.fromJson, hs]
    cases o <;> simp [OrderDoc]
  | obj m =>
    cases m with
    | nil => cases o <;> simp [Order.fromJson, OrderDoc]
    | cons e m =>
      obtain ⟨k, v⟩ := e
      cases m with
      | nil =>
        cases v with
        | null =>
          simp only [Order.fromJson, hs]
          cases o <;> simp [OrderDoc]
        | _ => cases o <;> simp [Order.fromJson, OrderDoc]
      | cons e' m => cases o <;> simp [Order.fromJson, OrderDoc]
  | _ => cases o <;> simp [Order.fromJson, OrderDoc]

theorem intFieldOr_eq_ok {dflt lo hi i : Int} {k : Str} {j : Json} (hd : lo ≤ dflt ∧ dflt < hi) :
    intFieldOr dflt lo hi k j = .ok i ↔ lo ≤ i ∧ i < hi ∧ ∃ p, Members [k] 0 j p ∧ IntMember p k dflt i := by
  have key : ∀ p : JsonObject, (match objGet p k with
      | none => Outcome.ok dflt
      | some j => j.asIntIn lo hi) = .ok i ↔ lo ≤ i ∧ i < hi ∧ IntMember p k dflt i := by
    intro p
    simp only [IntMember, field_eq]
    cases hg : objGet p k with
    | none =>
      simp only [Outcome.ok.injEq, true_and, reduceCtorEq, or_false]
      constructor
      · rintro rfl; exact ⟨hd.1, hd.2, rfl⟩
      · rintro ⟨_, _, rfl⟩; rfl
    | some v =>
      cases v with
      | int x =>
        simp only [Json.asIntIn, reduceCtorEq, false_and, false_or, Option.some.injEq, Json.int.injEq]
        constructor
        · intro h; split at h
          · simp at h; subst h; simp_all
          · simp at h
        · rintro ⟨h1, h2, rfl⟩; rw [if_pos ⟨h1, h2⟩]
      | _ => simp [Json.asIntIn]
  rw [intFieldOr, Outcome.bind_eq_ok]
  simp only [members_iff]
  constructor
  · rintro ⟨p, hp, h⟩
    obtain ⟨h1, h2, h3⟩ := (key p).mp h
    exact ⟨h1, h2, p, hp, h3⟩
  · rintro ⟨h1, h2, p, hp, h3⟩; exact ⟨p, hp, (key p).mpr ⟨h1, h2, h3⟩⟩

theorem CompressionType.fromJson_eq_ok {f : Features} {j : Json} {c : CompressionType} :
    CompressionType.fromJson f j = .ok c ↔ CodecDoc f j c := by
  simp only [CompressionType.fromJson, Outcome.bind_eq_ok, objField_eq_ok, asStr_eq_ok, members_iff]
  have hcanon : ∀ (t : Str) (cfg : Json), CompressionType.fromTag f t cfg = .ok c ↔
      match c with
      | .raw => t = str!"raw" ∧ cfg = .null
      | .bzip2 b => t = str!"bzip2" ∧ f.bzip = true ∧ b < 256 ∧
          ∃ p, Members [str!"blockSize"] 0 cfg p ∧ IntMember p str!"blockSize" 9 b
      | .gzip l => t = str!"https://purl.org/zarr/spec/codec/gzip/1.0" ∧
          f.gzip = true ∧ -(2 ^ 31) ≤ l ∧ l < 2 ^ 31 ∧
          ∃ p, Members [str!"level"] 0 cfg p ∧ IntMember p str!"level" (-1) l
      | .lz4 b => t = str!"lz4" ∧ (f.lz = true ∨ f.lzPure = true) ∧
          -(2 ^ 31) ≤ b ∧ b < 2 ^ 31 ∧ ∃ p, Members [str!"blockSize"] 0 cfg p ∧ IntMember p str!"blockSize" 65536 b
      | .xz p => t = str!"xz" ∧ f.xz = true ∧
          -(2 ^ 31) ≤ p ∧ p < 2 ^ 31 ∧ ∃ q, Members [str!"preset"] 0 cfg q ∧ IntMember q str!"preset" 6 p := by
    intro t cfg
    unfold CompressionType.fromTag
    split
    · rename_i ht; subst ht
      cases c <;> simp
      all_goals cases cfg <;> simp
    split
    · rename_i _ ht
      obtain ⟨rfl, hf⟩ := ht
      simp only [Outcome.bind_eq_ok, Outcome.pure_def, Outcome.ok.injEq,
        intFieldOr_eq_ok (show (0 : Int) ≤ 9 ∧ (9 : Int) < 2 ^ 8 by decide)]
      cases c with
      | bzip2 b =>
        simp only [true_and, hf, CompressionType.bzip2.injEq]
        constructor
        · rintro ⟨i, ⟨h1, h2, h3⟩, rfl⟩
          have : ((i.toNat : Nat) : Int) = i := by omega
          rw [this]
          exact ⟨by omega, h3⟩
        · rintro ⟨h1, h3⟩
          exact ⟨(b : Int), ⟨by omega, by omega, h3⟩, by simp⟩
      | _ => simp
    split
    · rename_i _ _ ht
      obtain ⟨rfl, hf⟩ := ht
      simp only [Outcome.bind_eq_ok, Outcome.pure_def, Outcome.ok.injEq,
        intFieldOr_eq_ok (show (-(2 ^ 31) : Int) ≤ -1 ∧ (-1 : Int) < 2 ^ 31 by decide)]
      cases c with
      | gzip b =>
        simp only [true_and, hf, CompressionType.gzip.injEq]
        constructor
        · rintro ⟨i, h, rfl⟩; exact h
        · intro h; exact ⟨b, h, rfl⟩
      | _ => simp
    split
    · rename_i _ _ _ ht
      obtain ⟨rfl, hf⟩ := ht
      simp only [Outcome.bind_eq_ok, Outcome.pure_def, Outcome.ok.injEq,
        intFieldOr_eq_ok (show (-(2 ^ 31) : Int) ≤ 65536 ∧ (65536 : Int) < 2 ^ 31 by decide)]
      have hf' : f.lz = true ∨ f.lzPure = true := by simpa using hf
      cases c with
      | lz4 b =>
        simp only [true_and, hf', CompressionType.lz4.injEq]
        constructor
        · rintro ⟨i, h, rfl⟩; exact h
        · intro h; exact ⟨b, h, rfl⟩
      | _ => simp
    split
    · rename_i _ _ _ _ ht
      obtain ⟨rfl, hf⟩ := ht
      simp only [Outcome.bind_eq_ok, Outcome.pure_def, Outcome.ok.injEq,
        intFieldOr_eq_ok (show (-(2 ^ 31) : Int) ≤ 6 ∧ (6 : Int) < 2 ^ 31 by decide)]
      cases c with
      | xz b =>
        simp only [true_and, hf, CompressionType.xz.injEq]
        constructor
        · rintro ⟨i, h, rfl⟩; exact h
        · intro h; exact ⟨b, h, rfl⟩
      | _ => simp
    · rename_i h1 h2 h3 h4 h5
      simp only [reduceCtorEq, false_iff]
      cases c with
      | raw => rintro ⟨h, _⟩; exact h1 h
      | bzip2 b => rintro ⟨h, h', _⟩; exact h2 ⟨h, h'⟩
      | gzip b => rintro ⟨h, h', _⟩; exact h3 ⟨h, h'⟩
      | lz4 b => rintro ⟨h, h', _⟩; exact h4 ⟨h, by simpa using h'⟩
      | xz b => rintro ⟨h, h', _⟩; exact h5 ⟨h, h'⟩
  constructor
  · rintro ⟨o, ho, j1, h1, t, rfl, cfg, h2, h3⟩
    rw [hcanon] at h3
    refine ⟨o, cfg, ho, h2, ?_⟩
    cases c <;> simp only at h3 ⊢ <;> obtain ⟨rfl, h3⟩ := h3 <;> exact ⟨h1, h3⟩
  · rintro ⟨o, cfg, ho, h2, h3⟩
    cases c <;> simp only at h3 <;> obtain ⟨h1, h3⟩ := h3 <;>
      exact ⟨o, ho, _, h1, _, rfl, cfg, h2, (hcanon _ _).mpr ⟨rfl, h3⟩⟩

/-- What array metadata deserializes from. -/
theorem ArrayMetadata.fromJson_eq_ok {f : Features} {j : Json} {m : ArrayMetadata} :
    ArrayMetadata.fromJson f j = .ok m ↔ ∃ o g, ArrayDocument f j m o g := by
  simp only [ArrayMetadata.fromJson, Outcome.bind_eq_ok, objField_eq_ok, asStr_eq_ok, asMap_eq_ok, members_iff,
    asArr_eq_ok, asNats_eq_ok, ExtensibleDataType.fromJson_eq_ok, Order.fromJson_eq_ok,
    mapOutcome_eq_ok (fun _ _ => ExtensionMetadata.fromJson_eq_ok), Outcome.pure_def]
  have hfill : ∀ (o : JsonObject) (v : Option Json), (match objGet o str!"fill_value" with
        | none => none
        | some .null => none
        | some j => some j.dedup) = v ↔
      Optional (field o str!"fill_value") (fun j v => j.dedup = v ∧ v ≠ .null) v := by
    intro o v
    rw [field_eq]
    cases hg : objGet o str!"fill_value" with
    | none => cases v <;> simp [Optional]
    | some x =>
      cases v with
      | none => cases x <;> simp [Optional]
      | some v =>
        simp only [Optional, Option.some.injEq, exists_eq_left']
        constructor
        · intro h
          split at h
          · simp at h
          · simp at h
          · rename_i j hne hj
            simp at h hj
            subst hj; subst h
            exact ⟨rfl, fun hn => hne (by cases x <;> simp [Json.dedup] at hn ⊢)⟩
        · rintro ⟨rfl, hn⟩
          cases x <;> first | rfl | exact absurd rfl hn
  have hcomp : ∀ (o : JsonObject) (k : CompressionType → ArrayMetadata), (match objGet o str!"compressor" with
        | none => (Outcome.ok CompressionType.default >>= fun c => Outcome.ok (k c) : Outcome ArrayMetadata)
        | some j => CompressionType.fromJson f j >>= fun c => Outcome.ok (k c)) = .ok m ↔
      ∃ c, ((field o str!"compressor" = none ∧ c = .raw) ∨
        ∃ j, field o str!"compressor" = some j ∧ CodecDoc f j c) ∧ k c = m := by
    intro o k
    rw [field_eq]
    cases hg : objGet o str!"compressor" with
    | none => simp [CompressionType.default]
    | some x => simp [CompressionType.fromJson_eq_ok, Outcome.bind_eq_ok]
  constructor
  · rintro ⟨o, ho, j1, h1, shape, h2, j3, h3, dt, h4, j5, h5, g, hg, j6, h6, gt, rfl, j7, h7, cs, h8,
      j9, h9, sep, rfl, j10, h10, ord, h11, j12, h12, l, rfl, xs, h13, j14, h14, a, ha, h15⟩
    obtain ⟨c, h16, rfl⟩ := (hcomp _ _).mp h15
    exact ⟨o, g, ho, ⟨j1, h1, h2⟩, ⟨j3, h3, h4⟩, ⟨j5, h5, hg⟩, h6, ⟨j7, h7, h8⟩, h9, ⟨j10, h10, h11⟩,
      (hfill _ _).mp rfl, ⟨l, h12, h13⟩, ⟨j14, h14, ha⟩, h16⟩
  · rintro ⟨o, g, ho, ⟨j1, h1, h2⟩, ⟨j3, h3, h4⟩, ⟨j5, h5, hg⟩, h6, ⟨j7, h7, h8⟩, h9, ⟨j10, h10, h11⟩,
      hf, ⟨l, h12, h13⟩, ⟨j14, h14, ha⟩, hc⟩
    refine ⟨o, ho, j1, h1, _, h2, j3, h3, _, h4, _, h5, g, hg, _, h6, _, rfl, j7, h7, _, h8, _, h9, _, rfl,
      j10, h10, _, h11, _, h12, l, rfl, _, h13, _, h14, _, ha, (hcomp _ _).mpr ⟨_, hc, ?_⟩⟩
    cases m
    simp only [ArrayMetadata.mk.injEq, true_and, and_true]
    exact (hfill _ _).mpr hf

/-! ## C66 -/

theorem parseArrayMetadata_eq_ok {env : Env} {b : Bytes} {m : ArrayMetadata} :
    parseArrayMetadata env b = .ok m ↔ ∃ doc o g, env.json.raw b = some doc ∧
      ArrayDocument env.features doc m o g ∧ ∀ e ∈ m.extensions, e.mustUnderstand = false := by
  simp only [parseArrayMetadata, Outcome.bind_eq_ok, Outcome.pure_def, Outcome.ok.injEq,
    ArrayMetadata.fromJson_eq_ok, checkExtensions_eq]
  cases hp : env.json.raw b with
  | none => simp
  | some j =>
    simp only [Outcome.ofOption_some, Outcome.ok.injEq, Option.some.injEq, exists_eq_left']
    constructor
    · rintro ⟨m', ⟨o, g, hd⟩, u, hx, rfl⟩
      refine ⟨j, o, g, rfl, hd, fun e he => ?_⟩
      split at hx
      · simp at hx
      · rename_i hn
        cases hm : e.mustUnderstand with
        | false => rfl
        | true => exact absurd ⟨e, he, hm⟩ hn
    · rintro ⟨_, o, g, rfl, hd, hx⟩
      refine ⟨m, ⟨o, g, hd⟩, (), ?_, rfl⟩
      rw [if_neg]
      rintro ⟨e, he, hm⟩
      rw [hx e he] at hm
      simp at hm

/-- **C66, reading.** `get_array_metadata` returns exactly the metadata that the array's document
describes, and returns an error or panics if the document describes none or there is no document. -/
theorem C66_read {env : Env} {h : Hier} {path : Str} {m : ArrayMetadata} {fs : Fs} (hwf : fs.WF)
    (hb : Plain (segs h.base)) (hs : GoodSuffix h.entry) (hp : Plain (segs path)) :
    (getArrayMetadata env h path fs).1 = .ok m ↔
      ∃ b doc o g, arrayDoc h fs path = some b ∧ env.json.raw b = some doc ∧
        ArrayDocument env.features doc m o g ∧ ∀ e ∈ m.extensions, e.mustUnderstand = false := by
  simp only [getArrayMetadata, M.bind_apply, storeGet_array hwf hb hs hp, M.lift_apply]
  cases hd : arrayDoc h fs path with
  | none => simp
  | some b =>
    simp only [Outcome.ofOption_some, Option.some.injEq, parseArrayMetadata_eq_ok]
    constructor
    · rintro ⟨doc, o, g, hx⟩; exact ⟨b, doc, o, g, rfl, hx⟩
    · rintro ⟨_, doc, o, g, rfl, hx⟩; exact ⟨doc, o, g, hx⟩

/-- The member names of an array document. -/
def Spec.arrayMembers (c : CompressionType) : List Str :=
  [str!"shape", str!"data_type", str!"chunk_grid", str!"chunk_memory_layout", str!"fill_value",
   str!"extensions", str!"attributes"] ++ if c = .raw then [] else [str!"compressor"]

theorem ArrayMetadata.toJson_members {m : ArrayMetadata} {kvs : JsonObject} (h : m.toJson = .ok (.obj kvs)) :
    kvs.map Prod.fst = arrayMembers m.compressor := by
  simp only [ArrayMetadata.toJson, Outcome.bind_eq_ok, Outcome.pure_def, Outcome.ok.injEq, Json.obj.injEq] at h
  obtain ⟨dt, _, rfl⟩ := h
  by_cases hc : m.compressor = .raw
  · simp [arrayMembers, CompressionType.isDefault, CompressionType.default, hc]
  · simp [arrayMembers, CompressionType.isDefault, CompressionType.default, hc]

/-- **C66, writing (partial).** A successful `create_array` leaves as the array's document the text of
a JSON object that describes the metadata and has the members listed, and a successful `create_group` on
a path without one the text of the empty group document. Missing: metadata that is not faithful (raw and
big-endian byte types, explicit null fill values, required extensions; see `C31_violated`). -/
theorem C66_partial {env : Env} {h : Hier} {path : Str} {fs fs' : Fs} (hwf : fs.WF)
    (hb : Plain (segs h.base)) (hs : GoodSuffix h.entry) (hp : Plain (segs path)) :
    (∀ m, Faithful env.features env.json.floats m → createArray env h path m fs = (.ok (), fs') →
      ∃ doc o g, arrayDoc h fs' path = some (env.json.print doc) ∧
        ArrayDocument env.features doc m o g ∧ o.map Prod.fst = arrayMembers m.compressor) ∧
    (createGroup env h path fs = (.ok (), fs') → groupDoc h fs path = none →
      groupDoc h fs' path = some (env.json.print
        (.obj [(str!"extensions", .arr []), (str!"attributes", .obj [])]))) := by
  have hplA : Plain (h.loc (arrayMetadataKey h.entry path)) := by
    rw [loc_arrayKey hs hp]; exact plain_docLoc hb hp (by simp)
  have hplG : Plain (h.loc (groupMetadataKey h.entry path)) := by
    rw [loc_groupKey hs hp]; exact plain_docLoc hb hp (by simp)
  constructor
  · intro m hm hc
    rw [createArray_eq hwf hb hs hp] at hc
    split at hc
    · simp at hc
    split at hc
    · simp at hc
    have hget := storeGet_of_storeSet hc
    obtain ⟨hwf', _⟩ := storeSet_frame hwf hplA hc
    rw [storeGet_array hwf' hb hs hp] at hget
    obtain ⟨kvs, h1, h2, h3⟩ := ArrayMetadata.roundTrip hm
    obtain ⟨o, g, hd⟩ := ArrayMetadata.fromJson_eq_ok.mp h3
    have ho : kvs = o := by
      have := hd.members
      cases this
      rfl
    refine ⟨.obj kvs, o, g, ?_, hd, ?_⟩
    · have : (arrayMetadataText env m).1 = env.json.print (.obj kvs) := by simp [arrayMetadataText, h1]
      rw [this] at hget
      simpa using hget
    · rw [← ho]; exact ArrayMetadata.toJson_members h1
  · intro hc hn
    rw [createGroup_eq hwf hb hs hp] at hc
    split at hc
    · simp at hc
    rw [hn] at hc
    simp only [Option.isSome_none, Bool.false_eq_true, if_false] at hc
    have hget := storeGet_of_storeSet hc
    obtain ⟨hwf', _⟩ := storeSet_frame hwf hplG hc
    rw [storeGet_group hwf' hb hs hp] at hget
    simpa [GroupMetadata.toJson, GroupMetadata.default] using hget

set_option maxRecDepth 20000 in
/-- **C66, violated.** For a raw data type `create_array` succeeds and stores a document that does not
describe the metadata, for no features and no reading of its members. -/
theorem C66_violated : ∃ fs' b doc, createArray Demo.envJ Demo.hier Demo.path Demo.arrRaw Demo.emptyFs = (.ok (), fs') ∧
    arrayDoc Demo.hier fs' Demo.path = some b ∧ Demo.envJ.json.raw b = some doc ∧
    ¬ ∃ o g, ArrayDocument Demo.envJ.features doc Demo.arrRaw o g := by
  refine ⟨(createArray Demo.envJ Demo.hier Demo.path Demo.arrRaw Demo.emptyFs).2, _, _, ?_, rfl, rfl, ?_⟩
  · refine Prod.ext ?_ rfl
    decide +kernel
  · rw [← ArrayMetadata.fromJson_eq_ok]
    decide +kernel

/-- **C66, entry point.** Where there is none, `open_or_create` writes an entry point document that
names version 3.0 of the protocol, the metadata suffix `.json`, and no extension. -/
theorem C66_entry {env : Env} {base : Str} {fs fs' : Fs} {h : Hier} (hwf : fs.WF) (hb : Plain (segs base))
    (hn : fs.get (segs base ++ [str!"zarr.json"]) = none) (ho : openOrCreate env base fs = (.ok h, fs')) :
    fs'.content (segs base ++ [str!"zarr.json"]) = some (env.json.print (.obj
      [(str!"zarr_format", .str str!"https://purl.org/zarr/spec/protocol/core/3.0"),
       (str!"metadata_encoding", .str str!"https://purl.org/zarr/spec/protocol/core/3.0"),
       (str!"metadata_key_suffix", .str str!".json"), (str!"extensions", .arr [])])) ∧
    h.entry.metadataKeySuffix = str!".json" := by
  have hp : Plain (segs base ++ [str!"zarr.json"]) := hb.append (by decide)
  have hex : fs.pathExists (segs (joinPath base entryPointKey)) = false := by
    simp [Fs.pathExists, segs_entryPoint, Fs.node_plain hwf hp, hn]
  obtain ⟨h1, h2⟩ := createEntryPoint_spec (env := env) hwf hb hn
  simp only [openOrCreate, hex, Bool.false_eq_true, if_false] at ho
  by_cases hw : Writable fs (segs base ++ [str!"zarr.json"])
  · obtain ⟨fs1, hc, hwf1, hget⟩ := h1 hw
    rw [hc] at ho
    simp only [Prod.mk.injEq] at ho
    obtain ⟨ho, rfl⟩ := ho
    constructor
    · refine Fs.content_eq_some.mpr ?_
      rw [hget]; simp [setSpec, EntryPointMetadata.toJson, EntryPointMetadata.default]
    · simp only [checkVersion, Outcome.bind_eq_ok] at ho
      obtain ⟨b, _, hb⟩ := ho
      split at hb
      · simp at hb; subst hb; rfl
      · simp at hb
  · obtain ⟨e, hc⟩ := h2 hw
    rw [hc] at ho
    simp at ho

example : ∃ fs', openOrCreate Demo.env str!"/h" Demo.emptyFs = (.ok Demo.hier, fs') ∧
    Demo.emptyFs.get (segs str!"/h" ++ [str!"zarr.json"]) = none := ⟨_, rfl, rfl⟩

/-- The document of the demonstration array. -/
example : ∃ o g, ArrayDocument Demo.envJ.features (.obj
    [(str!"shape", .arr [.int 5]), (str!"data_type", .str str!">u2"),
     (str!"chunk_grid", .obj [(str!"type", .str str!"regular"), (str!"chunk_shape", .arr [.int 2]),
       (str!"separator", .str str!"/")]),
     (str!"chunk_memory_layout", .str str!"F"), (str!"fill_value", .null), (str!"extensions", .arr []),
     (str!"attributes", .obj [])]) Demo.arr o g :=
  ArrayMetadata.fromJson_eq_ok.mp (by decide +kernel)

example : Faithful Demo.envJ.features Demo.envJ.json.floats Demo.arr ∧
    (createArray Demo.envJ Demo.hier Demo.path Demo.arr Demo.emptyFs).1 = .ok () ∧
    (createGroup Demo.envJ Demo.hier Demo.path Demo.emptyFs).1 = .ok () :=
  ⟨⟨by simp [Demo.arr], by simp [Demo.arr], by simp [Demo.arr, TypeFaithful], by simp [Demo.arr],
    by simp [Demo.arr], by simp [Demo.arr], by simp [Demo.arr, Json.canon, Json.canonObj],
    by simp [Demo.arr, CompressionType.WellTyped, CompressionType.enabled]⟩,
    by decide +kernel, by decide +kernel⟩

end Zarr
