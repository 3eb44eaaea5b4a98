import Verif.Model.Metadata
/-! Lemmas about JSON objects and canonical documents. -/

namespace Zarr

theorem objGet_objInsert (m : JsonObject) (k k' : Str) (v : Json) :
    objGet (objInsert m k v) k' = if k' = k then some v else objGet m k' := by
  induction m with
  | nil => simp only [objInsert, objGet]; by_cases h : k = k' <;> simp [h, eq_comm]
  | cons e m ih =>
    obtain ⟨x, w⟩ := e
    simp only [objInsert]
    by_cases hx : x = k
    · rw [if_pos hx]; subst hx
      simp only [objGet]
      by_cases h : x = k'
      · simp [h]
      · rw [if_neg h, if_neg h, if_neg (Ne.symm h)]
    · rw [if_neg hx]
      simp only [objGet, ih]
      by_cases h : x = k'
      · subst h; simp [hx]
      · simp [h]

theorem objGet_none {m : JsonObject} {k : Str} : objGet m k = none ↔ k ∉ m.map Prod.fst := by
  induction m with
  | nil => simp [objGet]
  | cons e m ih =>
    obtain ⟨x, w⟩ := e
    simp only [objGet, List.map_cons, List.mem_cons, not_or]
    by_cases h : x = k
    · subst h; simp
    · rw [if_neg h, ih]; exact ⟨fun h' => ⟨Ne.symm h, h'⟩, fun h' => h'.2⟩

theorem objGet_some_mem {m : JsonObject} {k : Str} {v : Json} (h : objGet m k = some v) :
    (k, v) ∈ m := by
  induction m with
  | nil => simp [objGet] at h
  | cons e m ih =>
    obtain ⟨x, w⟩ := e
    simp only [objGet] at h
    split at h
    · rename_i hx; subst hx; simp at h; subst h; simp
    · exact List.mem_cons_of_mem _ (ih h)

/-- Inserting the value a key already has changes nothing. -/
theorem objInsert_same {m : JsonObject} {k : Str} {v : Json} (h : objGet m k = some v) :
    objInsert m k v = m := by
  induction m with
  | nil => simp [objGet] at h
  | cons e m ih =>
    obtain ⟨x, w⟩ := e
    simp only [objGet] at h
    simp only [objInsert]
    split at h
    · rename_i hx; simp at h; subst h; simp [hx]
    · rename_i hx; rw [if_neg hx, ih h]

theorem map_fst_objInsert (m : JsonObject) (k : Str) (v : Json) :
    (objInsert m k v).map Prod.fst
      = if k ∈ m.map Prod.fst then m.map Prod.fst else m.map Prod.fst ++ [k] := by
  induction m with
  | nil => simp [objInsert]
  | cons e m ih =>
    obtain ⟨x, w⟩ := e
    simp only [objInsert]
    by_cases h : x = k
    · subst h; simp
    · rw [if_neg h]
      simp only [List.map_cons, ih, List.mem_cons]
      by_cases h' : k ∈ m.map Prod.fst
      · rw [if_pos h', if_pos (Or.inr h')]
      · rw [if_neg h', if_neg (by simp [h', Ne.symm h]), List.cons_append]

namespace Json

theorem canonArr_iff {fl : BitVec 64 → Bool} {n : Nat} {l : List Json} : canonArr fl n l = true ↔ ∀ j ∈ l, canon fl n j = true := by
  induction l with
  | nil => simp [canonArr]
  | cons x xs ih => simp [canonArr, ih]

theorem canonObj_iff {fl : BitVec 64 → Bool} {n : Nat} {m : JsonObject} :
    canonObj fl n m = true ↔ (∀ e ∈ m, canon fl n e.2 = true) ∧ (m.map Prod.fst).Nodup := by
  induction m with
  | nil => simp [canonObj]
  | cons e m ih =>
    obtain ⟨k, v⟩ := e
    simp only [canonObj, Bool.and_eq_true, ih, List.map_cons, List.nodup_cons, List.mem_cons,
      forall_eq_or_imp, Bool.not_eq_true', List.contains_eq_mem, decide_eq_false_iff_not]
    constructor
    · rintro ⟨⟨a, b⟩, c, d⟩; exact ⟨⟨a, c⟩, b, d⟩
    · rintro ⟨⟨a, c⟩, b, d⟩; exact ⟨⟨a, b⟩, c, d⟩

theorem canonObj_insert {fl : BitVec 64 → Bool} {n : Nat} {m : JsonObject} {k : Str} {v : Json}
    (hm : canonObj fl n m = true) (hv : canon fl n v = true) : canonObj fl n (objInsert m k v) = true := by
  rw [canonObj_iff] at hm ⊢
  refine ⟨?_, ?_⟩
  · have : ∀ (m : JsonObject), (∀ e ∈ m, canon fl n e.2 = true) →
        ∀ e ∈ objInsert m k v, canon fl n e.2 = true := by
      intro m
      induction m with
      | nil => intro _ e he; simp [objInsert] at he; subst he; exact hv
      | cons x m ih =>
        intro h e he
        simp only [objInsert] at he
        split at he
        · rcases List.mem_cons.mp he with rfl | he
          · exact hv
          · exact h e (List.mem_cons_of_mem _ he)
        · rcases List.mem_cons.mp he with rfl | he
          · exact h _ (by simp)
          · exact ih (fun e he => h e (List.mem_cons_of_mem _ he)) e he
    exact this m hm.1
  · rw [map_fst_objInsert]
    split
    · exact hm.2
    · rename_i h
      rw [List.nodup_append]
      exact ⟨hm.2, by simp, by
        intro a ha b hb
        rw [List.mem_singleton] at hb
        subst hb
        intro hab; subst hab; exact h ha⟩

theorem canon_of_objGet {fl : BitVec 64 → Bool} {n : Nat} {m : JsonObject} {k : Str} {v : Json}
    (hm : canonObj fl n m = true) (h : objGet m k = some v) : canon fl n v = true := (canonObj_iff.mp hm).1 _ (objGet_some_mem h)

mutual
/-- A canonical document is nested at most that deep. -/
theorem canon_within {fl : BitVec 64 → Bool} (n : Nat) (j : Json) (h : canon fl n j = true) :
    within n j = true := by
  match n, j, h with
  | _, .null, _ => simp [within]
  | _, .bool _, _ => simp [within]
  | _, .int _, _ => simp [within]
  | _, .float _, _ => simp [within]
  | _, .str _, _ => simp [within]
  | 0, .arr _, h => simp [canon] at h
  | n + 1, .arr l, h => exact canonArr_within n l (by simpa only [canon] using h)
  | 0, .obj _, h => simp [canon] at h
  | n + 1, .obj m, h => exact canonObj_within n m (by simpa only [canon] using h)
theorem canonArr_within {fl : BitVec 64 → Bool} (n : Nat) (l : List Json) (h : canonArr fl n l = true) :
    withinArr n l = true := by
  match l, h with
  | [], _ => rfl
  | x :: xs, h =>
    simp only [canonArr, Bool.and_eq_true] at h
    simp only [withinArr, Bool.and_eq_true]
    exact ⟨canon_within n x h.1, canonArr_within n xs h.2⟩
theorem canonObj_within {fl : BitVec 64 → Bool} (n : Nat) (m : JsonObject) (h : canonObj fl n m = true) :
    withinObj n m = true := by
  match m, h with
  | [], _ => rfl
  | (k, v) :: m, h =>
    simp only [canonObj, Bool.and_eq_true] at h
    simp only [withinObj, Bool.and_eq_true]
    exact ⟨canon_within n v h.1.1, canonObj_within n m h.2⟩
end

mutual
/-- A canonical document is canonical for the depth it has. -/
theorem canon_of_within {fl : BitVec 64 → Bool} (n k : Nat) (j : Json) (h : canon fl n j = true)
    (hw : within k j = true) : canon fl k j = true := by
  match n, k, j, h, hw with
  | _, _, .null, _, _ => simp [canon]
  | _, _, .bool _, _, _ => simp [canon]
  | _, _, .int _, h, _ => simp only [canon] at h ⊢; exact h
  | _, _, .float _, h, _ => simp only [canon] at h ⊢; exact h
  | _, _, .str _, _, _ => simp [canon]
  | _, 0, .arr _, _, h => simp [within] at h
  | 0, _, .arr _, h, _ => simp [canon] at h
  | n + 1, k + 1, .arr l, h, hw =>
    simp only [canon, within] at h hw ⊢; exact canonArr_of_within n k l h hw
  | _, 0, .obj _, _, h => simp [within] at h
  | 0, _, .obj _, h, _ => simp [canon] at h
  | n + 1, k + 1, .obj m, h, hw =>
    simp only [canon, within] at h hw ⊢; exact canonObj_of_within n k m h hw
theorem canonArr_of_within {fl : BitVec 64 → Bool} (n k : Nat) (l : List Json) (h : canonArr fl n l = true)
    (hw : withinArr k l = true) : canonArr fl k l = true := by
  match l, h, hw with
  | [], _, _ => rfl
  | x :: xs, h, hw =>
    simp only [canonArr, withinArr, Bool.and_eq_true] at h hw ⊢
    exact ⟨canon_of_within n k x h.1 hw.1, canonArr_of_within n k xs h.2 hw.2⟩
theorem canonObj_of_within {fl : BitVec 64 → Bool} (n k : Nat) (m : JsonObject) (h : canonObj fl n m = true)
    (hw : withinObj k m = true) : canonObj fl k m = true := by
  match m, h, hw with
  | [], _, _ => rfl
  | (x, v) :: m, h, hw =>
    simp only [canonObj, withinObj, Bool.and_eq_true] at h hw ⊢
    exact ⟨⟨canon_of_within n k v h.1.1 hw.1, h.1.2⟩, canonObj_of_within n k m h.2 hw.2⟩
end

mutual
theorem within_mono (n k : Nat) (hk : n ≤ k) (j : Json) (h : within n j = true) : within k j = true := by
  match n, k, hk, j, h with
  | _, _, _, .null, _ => simp [within]
  | _, _, _, .bool _, _ => simp [within]
  | _, _, _, .int _, _ => simp [within]
  | _, _, _, .float _, _ => simp [within]
  | _, _, _, .str _, _ => simp [within]
  | 0, _, _, .arr _, h => simp [within] at h
  | n + 1, k + 1, hk, .arr l, h =>
    simp only [within] at h ⊢; exact withinArr_mono n k (by omega) l h
  | 0, _, _, .obj _, h => simp [within] at h
  | n + 1, k + 1, hk, .obj m, h =>
    simp only [within] at h ⊢; exact withinObj_mono n k (by omega) m h
theorem withinArr_mono (n k : Nat) (hk : n ≤ k) (l : List Json) (h : withinArr n l = true) :
    withinArr k l = true := by
  match l, h with
  | [], _ => rfl
  | x :: xs, h =>
    simp only [withinArr, Bool.and_eq_true] at h ⊢
    exact ⟨within_mono n k hk x h.1, withinArr_mono n k hk xs h.2⟩
theorem withinObj_mono (n k : Nat) (hk : n ≤ k) (m : JsonObject) (h : withinObj n m = true) :
    withinObj k m = true := by
  match m, h with
  | [], _ => rfl
  | (x, v) :: m, h =>
    simp only [withinObj, Bool.and_eq_true] at h ⊢
    exact ⟨within_mono n k hk v h.1, withinObj_mono n k hk m h.2⟩
end

theorem canon_mono {fl : BitVec 64 → Bool} {n k : Nat} (hk : n ≤ k) {j : Json} (h : canon fl n j = true) :
    canon fl k j = true :=
  canon_of_within n k j h (within_mono n k hk j (canon_within n j h))

theorem withinObj_iff {n : Nat} {m : JsonObject} : withinObj n m = true ↔ ∀ e ∈ m, within n e.2 = true := by
  induction m with
  | nil => simp [withinObj]
  | cons e m ih => obtain ⟨k, v⟩ := e; simp [withinObj, ih]

mutual
/-- Documents without repeated members are read as they stand. -/
theorem dedup_canon {fl : BitVec 64 → Bool} (n : Nat) (j : Json) (h : canon fl n j = true) : dedup j = j := by
  match n, j, h with
  | _, .null, _ => rfl
  | _, .bool _, _ => rfl
  | _, .int _, _ => rfl
  | _, .float _, _ => rfl
  | _, .str _, _ => rfl
  | 0, .arr _, h => simp [canon] at h
  | n + 1, .arr l, h =>
    simp only [canon] at h
    rw [dedup, dedupArr_canon n l h]
  | 0, .obj _, h => simp [canon] at h
  | n + 1, .obj m, h =>
    simp only [canon] at h
    rw [dedup, dedupObj_canon n m h]
theorem dedupArr_canon {fl : BitVec 64 → Bool} (n : Nat) (l : List Json) (h : canonArr fl n l = true) :
    dedupArr l = l := by
  match l, h with
  | [], _ => rfl
  | x :: xs, h =>
    simp only [canonArr, Bool.and_eq_true] at h
    rw [dedupArr, dedup_canon n x h.1, dedupArr_canon n xs h.2]
theorem dedupObj_canon {fl : BitVec 64 → Bool} (n : Nat) (m : JsonObject) (h : canonObj fl n m = true) :
    dedupObj m = m := by
  match m, h with
  | [], _ => rfl
  | (k, v) :: m, h =>
    simp only [canonObj, Bool.and_eq_true, Bool.not_eq_true'] at h
    rw [dedupObj, h.1.2, if_neg (by simp), dedup_canon n v h.1.1, dedupObj_canon n m h.2]
end

mutual
theorem dedup_within (n : Nat) (j : Json) (h : within n j = true) : within n (dedup j) = true := by
  match n, j, h with
  | _, .null, _ => rfl
  | _, .bool _, _ => rfl
  | _, .int _, _ => rfl
  | _, .float _, _ => rfl
  | _, .str _, _ => rfl
  | 0, .arr _, h => simp [within] at h
  | n + 1, .arr l, h =>
    simp only [within] at h
    rw [dedup, within]; exact dedupArr_within n l h
  | 0, .obj _, h => simp [within] at h
  | n + 1, .obj m, h =>
    simp only [within] at h
    rw [dedup, within]; exact dedupObj_within n m h
theorem dedupArr_within (n : Nat) (l : List Json) (h : withinArr n l = true) :
    withinArr n (dedupArr l) = true := by
  match l, h with
  | [], _ => rfl
  | x :: xs, h =>
    simp only [withinArr, Bool.and_eq_true] at h
    rw [dedupArr, withinArr, dedup_within n x h.1, dedupArr_within n xs h.2]; rfl
theorem dedupObj_within (n : Nat) (m : JsonObject) (h : withinObj n m = true) :
    withinObj n (dedupObj m) = true := by
  match m, h with
  | [], _ => rfl
  | (k, v) :: m, h =>
    simp only [withinObj, Bool.and_eq_true] at h
    rw [dedupObj]
    split
    · exact dedupObj_within n m h.2
    · rw [withinObj, dedup_within n v h.1, dedupObj_within n m h.2]; rfl
end

end Json

namespace JsonText.Lawful

theorem parse_print {T : JsonText} (h : T.Lawful) (j : Json) (hc : j.canon T.floats 127 = true) :
    T.parse (T.print j) = some j := by
  rw [JsonText.parse, h.raw_print j hc, Option.map_some, Json.dedup_canon 127 j hc]

theorem parse_deep {T : JsonText} (h : T.Lawful) (n : Nat) (j : Json) (hc : j.canon T.floats n = true)
    (hd : j.within 127 = false) : T.parse (T.print j) = none := by
  rw [JsonText.parse, h.raw_deep n j hc hd]; rfl

theorem parse_within {T : JsonText} (h : T.Lawful) (t : Bytes) (j : Json) (hp : T.parse t = some j) :
    j.within 127 = true := by
  rw [JsonText.parse, Option.map_eq_some_iff] at hp
  obtain ⟨r, hr, rfl⟩ := hp
  exact Json.dedup_within 127 r (h.raw_within t r hr)

theorem parse_nil {T : JsonText} (h : T.Lawful) : T.parse [] = none := by
  rw [JsonText.parse, h.raw_nil]; rfl

end JsonText.Lawful

/-- A document without repeated members is read to the same `Value`. -/
theorem parse_of_raw {T : JsonText} {t : Bytes} {n : Nat} {j : Json} (hr : T.raw t = some j)
    (hc : j.canon T.floats n = true) : T.parse t = some j := by
  rw [JsonText.parse, hr, Option.map_some, Json.dedup_canon n j hc]

theorem uniqueMembers_eq_ok {names : List Str} {m o : JsonObject} :
    uniqueMembers names m = .ok o ↔ o = m ∧ ∀ k ∈ names, (m.map Prod.fst).count k ≤ 1 := by
  unfold uniqueMembers
  split
  · rename_i h
    simp only [List.all_eq_true, decide_eq_true_eq] at h
    simp only [Outcome.ok.injEq]
    exact ⟨fun e => ⟨e.symm, h⟩, fun e => e.1.symm⟩
  · rename_i h
    simp only [List.all_eq_true, decide_eq_true_eq] at h
    simp [h]

theorem uniqueMembers_nodup {names : List Str} {m : JsonObject} (h : (m.map Prod.fst).Nodup) :
    uniqueMembers names m = .ok m :=
  uniqueMembers_eq_ok.mpr ⟨rfl, fun k _ => List.nodup_iff_count.mp h k⟩

theorem Json.members_eq_ok {names : List Str} {r : Nat} {j : Json} {o : JsonObject} :
    j.members names r = .ok o ↔ (j = .obj o ∧ ∀ k ∈ names, (o.map Prod.fst).count k ≤ 1) ∨
      ∃ l, j = .arr l ∧ r ≤ l.length ∧ l.length ≤ names.length ∧ o = names.zip l := by
  cases j with
  | obj m =>
    simp only [Json.members, uniqueMembers_eq_ok, Json.obj.injEq, reduceCtorEq, false_and, exists_false,
      or_false]
    constructor
    · rintro ⟨rfl, h⟩; exact ⟨rfl, h⟩
    · rintro ⟨rfl, h⟩; exact ⟨rfl, h⟩
  | arr l =>
    simp only [Json.members, reduceCtorEq, false_and, false_or, Json.arr.injEq]
    by_cases h : r ≤ l.length ∧ l.length ≤ names.length
    · rw [if_pos h]
      simp only [Outcome.ok.injEq]
      constructor
      · rintro rfl; exact ⟨l, rfl, h.1, h.2, rfl⟩
      · rintro ⟨_, rfl, _, _, rfl⟩; rfl
    · rw [if_neg h]
      simp only [reduceCtorEq, false_iff]
      rintro ⟨_, rfl, h1, h2, _⟩
      exact h ⟨h1, h2⟩
  | _ => simp [Json.members]

theorem objGet_zip (names : List Str) (l : List Json) {k : Str} (hk : k ∈ names) :
    objGet (names.zip l) k = l[names.idxOf k]? := by
  induction names generalizing l with
  | nil => simp at hk
  | cons x names ih =>
    cases l with
    | nil => simp [objGet]
    | cons v l =>
      simp only [List.zip_cons_cons, objGet]
      by_cases hx : x = k
      · subst hx; simp
      · have hb : (x == k) = false := by simpa using hx
        rw [if_neg hx, ih l (by simpa [Ne.symm hx] using hk), List.idxOf_cons, hb]
        simp

theorem members_nodup {names : List Str} {r : Nat} {m : JsonObject} (h : (m.map Prod.fst).Nodup) :
    (Json.obj m).members names r = .ok m := uniqueMembers_nodup h

theorem mapOutcome_map {α β : Type} {f : β → Outcome α} {g : α → β} {l : List α}
    (h : ∀ x ∈ l, f (g x) = .ok x) : mapOutcome f (l.map g) = .ok l := by
  induction l with
  | nil => rfl
  | cons x xs ih =>
    simp only [List.map_cons, mapOutcome, h x (by simp), Outcome.bind_ok,
      ih (fun y hy => h y (List.mem_cons_of_mem _ hy)), Outcome.pure_def]

theorem mapOutcome_ok {α β : Type} {f : α → Outcome β} {l : List α} {r : List β}
    (h : mapOutcome f l = .ok r) : r.length = l.length ∧
      ∀ (i : Nat) (x : α) (y : β), l[i]? = some x → r[i]? = some y → f x = .ok y := by
  induction l generalizing r with
  | nil => simp [mapOutcome] at h; subst h; simp
  | cons a l ih =>
    simp only [mapOutcome, Outcome.bind_eq_ok, Outcome.pure_def, Outcome.ok.injEq] at h
    obtain ⟨b, hb, bs, hbs, rfl⟩ := h
    obtain ⟨h1, h2⟩ := ih hbs
    refine ⟨by simp [h1], ?_⟩
    intro i x y hx hy
    cases i with
    | zero => simp at hx hy; subst hx hy; exact hb
    | succ i => simp at hx hy; exact h2 i x y hx hy

theorem mapOutcome_mem {α β : Type} {f : α → Outcome β} {l : List α} {r : List β}
    (h : mapOutcome f l = .ok r) : (∀ x ∈ l, ∃ y ∈ r, f x = .ok y) ∧ (∀ y ∈ r, ∃ x ∈ l, f x = .ok y) := by
  induction l generalizing r with
  | nil => simp [mapOutcome] at h; subst h; simp
  | cons a l ih =>
    simp only [mapOutcome, Outcome.bind_eq_ok, Outcome.pure_def, Outcome.ok.injEq] at h
    obtain ⟨b, hb, bs, hbs, rfl⟩ := h
    obtain ⟨h1, h2⟩ := ih hbs
    refine ⟨?_, ?_⟩
    · intro x hx
      rcases List.mem_cons.mp hx with rfl | hx
      · exact ⟨b, by simp, hb⟩
      · obtain ⟨y, hy, hf⟩ := h1 x hx; exact ⟨y, List.mem_cons_of_mem _ hy, hf⟩
    · intro y hy
      rcases List.mem_cons.mp hy with rfl | hy
      · exact ⟨a, by simp, hb⟩
      · obtain ⟨x, hx, hf⟩ := h2 y hy; exact ⟨x, List.mem_cons_of_mem _ hx, hf⟩

end Zarr
