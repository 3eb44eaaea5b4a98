import Verif.Lemmas.Json
import Verif.Lemmas.Store
import Verif.Lemmas.Chunk
/-! Overwriting an existing file, merging attribute objects. -/

namespace Zarr

/-! ## Overwriting -/

/-- Two filesystems with the same directories and the same files up to content. -/
def Fs.Same (fs fs' : Fs) : Prop := ∀ l,
  (fs.get l = none ↔ fs'.get l = none) ∧ (fs.get l = some .dir ↔ fs'.get l = some .dir)

theorem Fs.Same.walk {fs fs' : Fs} (h : fs.Same fs') (p : List Str) (cur : Loc) :
    fs'.walk cur p = fs.walk cur p := by
  induction p generalizing cur with
  | nil => rfl
  | cons s ss ih =>
    simp only [Fs.walk]
    obtain ⟨h1, h2⟩ := h cur
    cases hg : fs.get cur with
    | none => rw [h1.mp hg]
    | some n =>
      cases n with
      | dir => rw [h2.mp hg]; exact ih _
      | file b =>
        cases hg' : fs'.get cur with
        | none => rw [h1.mpr hg'] at hg; simp at hg
        | some n' =>
          cases n' with
          | dir => rw [h2.mpr hg'] at hg; simp at hg
          | file b' => rfl

theorem Fs.Same.isFile {fs fs' : Fs} (h : fs.Same fs') (p : List Str) : fs'.isFile p = fs.isFile p := by
  unfold Fs.isFile Fs.node Fs.locate
  rw [h.walk]
  cases fs.walk [] p with
  | ok l =>
    simp only
    obtain ⟨h1, h2⟩ := h l
    cases hg : fs.get l with
    | none => rw [h1.mp hg]
    | some n =>
      cases n with
      | dir => rw [h2.mp hg]
      | file b =>
        cases hg' : fs'.get l with
        | none => rw [h1.mpr hg'] at hg; simp at hg
        | some n' =>
          cases n' with
          | dir => rw [h2.mpr hg'] at hg; simp at hg
          | file b' => rfl
  | err e => rfl
  | panic => rfl

theorem Fs.Same.put {fs : Fs} {l : Loc} {b b' : Bytes} (h : fs.get l = some (.file b)) :
    fs.Same (fs.put l (.file b')) := by
  intro x
  rw [Fs.get_put]
  by_cases hx : x = l
  · subst hx; simp [h]
  · simp [hx]

theorem storeExists_same {fs fs' : Fs} (h : fs.Same fs') (hi : Hier) (key : Str) :
    (storeExists hi key fs').1 = (storeExists hi key fs).1 := by
  simp only [storeExists, M.read_apply]
  cases getPath hi.base key with
  | ok t => simp [h.isFile]
  | err e => rfl
  | panic => rfl

/-- What `exists` saying yes means. -/
theorem storeExists_true {h : Hier} {key : Str} {fs : Fs} (he : (storeExists h key fs).1 = .ok true) :
    ∃ t l b, getPath h.base key = .ok t ∧ fs.locate (segs t) = .ok l ∧ fs.get l = some (.file b) := by
  simp only [storeExists, M.read_apply] at he
  cases hg : getPath h.base key with
  | ok t =>
    rw [hg] at he
    simp at he
    unfold Fs.isFile Fs.node at he
    cases hl : fs.locate (segs t) with
    | ok l =>
      rw [hl] at he
      simp only at he
      cases hn : fs.get l with
      | none => rw [hn] at he; simp at he
      | some n => cases n with
        | dir => rw [hn] at he; simp at he
        | file b => exact ⟨t, l, b, rfl, hl, hn⟩
    | err e => rw [hl] at he; simp at he
    | panic => rw [hl] at he; simp at he
  | err e => rw [hg] at he; simp at he
  | panic => rw [hg] at he; simp at he

theorem storeGet_located {h : Hier} {key t : Str} {fs : Fs} {l : Loc} {b : Bytes}
    (hp : getPath h.base key = .ok t) (hl : fs.locate (segs t) = .ok l)
    (hn : fs.get l = some (.file b)) : storeGet h key fs = (.ok (some b), fs) := by
  have h1 : fs.isFile (segs t) = true := by simp [Fs.isFile, Fs.node, hl, hn]
  have h2 : fs.readFile (segs t) = .ok b := by simp [Fs.readFile, hl, hn]
  simp [storeGet, hp, h1, h2]

theorem walk_dropLast_dir {fs : Fs} (p : List Str) (s : Str) (cur l : Loc)
    (h : fs.walk cur (p ++ [s]) = .ok l) : ∃ l', fs.walk cur p = .ok l' ∧ fs.get l' = some .dir := by
  induction p generalizing cur with
  | nil =>
    simp only [List.nil_append, Fs.walk] at h
    refine ⟨cur, rfl, ?_⟩
    cases hg : fs.get cur with
    | none => rw [hg] at h; simp at h
    | some n => cases n with
      | dir => rfl
      | file b => rw [hg] at h; simp at h
  | cons x xs ih =>
    simp only [List.cons_append, Fs.walk] at h ⊢
    cases hg : fs.get cur with
    | none => rw [hg] at h; simp at h
    | some n => cases n with
      | dir => rw [hg] at h; exact ih _ h
      | file b => rw [hg] at h; simp at h

/-- `set` on a key that names a file replaces the content of that file and does nothing else. -/
theorem storeSet_located {h : Hier} {key t : Str} {fs : Fs} {l : Loc} {b : Bytes}
    (hp : getPath h.base key = .ok t) (hl : fs.locate (segs t) = .ok l)
    (hn : fs.get l = some (.file b)) (v : Bytes × Outcome Unit) :
    storeSet h key v fs = (v.2, fs.put l (.file v.1)) := by
  unfold storeSet
  rw [hp]
  simp only
  have hmk : (if (segs t).isEmpty = true ∨ fs.pathExists (segs t).dropLast = true then
      ((.ok () : Outcome Unit), fs) else Fs.mkdirAll (segs t).dropLast fs) = (.ok (), fs) := by
    rw [if_pos]
    by_cases he : segs t = []
    · left; simp [he]
    · right
      have := List.dropLast_concat_getLast he
      rw [← this] at hl
      obtain ⟨l', h1, h2⟩ := walk_dropLast_dir _ _ _ _ hl
      simp [Fs.pathExists, Fs.node, Fs.locate, h1, h2]
  rw [hmk]
  simp only [Fs.openCreate, hl, hn]

/-! ## Merging -/

/-- Keys of `b` have `b`'s values, all other keys keep their value. -/
theorem objGet_mergeObj (a b : JsonObject) (hb : (b.map Prod.fst).Nodup) (k : Str) :
    objGet (mergeObj a b) k = (objGet b k).or (objGet a k) := by
  unfold mergeObj
  induction b generalizing a with
  | nil => simp [objGet]
  | cons e b ih =>
    obtain ⟨x, v⟩ := e
    simp only [List.map_cons, List.nodup_cons] at hb
    rw [List.foldl_cons, ih _ hb.2, objGet_objInsert]
    simp only [objGet]
    by_cases h : x = k
    · subst h
      rw [if_pos rfl, if_pos rfl, objGet_none.mpr hb.1]; rfl
    · rw [if_neg h, if_neg (Ne.symm h)]

theorem mergeObj_id {a b : JsonObject} (h : ∀ e ∈ b, objGet a e.1 = some e.2) : mergeObj a b = a := by
  unfold mergeObj
  induction b with
  | nil => rfl
  | cons e b ih =>
    rw [List.foldl_cons, objInsert_same (h e (by simp)), ih fun e he => h e (List.mem_cons_of_mem _ he)]

theorem objGet_of_mem {b : JsonObject} (hb : (b.map Prod.fst).Nodup) {e : Str × Json} (he : e ∈ b) :
    objGet b e.1 = some e.2 := by
  induction b with
  | nil => simp at he
  | cons x b ih =>
    simp only [List.map_cons, List.nodup_cons] at hb
    simp only [objGet]
    rcases List.mem_cons.mp he with rfl | he
    · simp
    · have : x.1 ≠ e.1 := by
        intro hx
        exact hb.1 (hx ▸ List.mem_map_of_mem he)
      rw [if_neg this, ih hb.2 he]

theorem mergeObj_idem (a b : JsonObject) (hb : (b.map Prod.fst).Nodup) :
    mergeObj (mergeObj a b) b = mergeObj a b := by
  apply mergeObj_id
  intro e he
  rw [objGet_mergeObj _ _ hb, objGet_of_mem hb he]; rfl

theorem canonObj_mergeObj {fl : BitVec 64 → Bool} {n : Nat} {a b : JsonObject}
    (ha : Json.canonObj fl n a = true) (hb : ∀ e ∈ b, e.2.canon fl n = true) :
    Json.canonObj fl n (mergeObj a b) = true := by
  unfold mergeObj
  induction b generalizing a with
  | nil => exact ha
  | cons e b ih =>
    rw [List.foldl_cons]
    exact ih (Json.canonObj_insert ha (hb e (by simp))) fun e he => hb e (List.mem_cons_of_mem _ he)

/-- The attributes in the merged document. -/
theorem mergedDoc_eq (existing attributes : JsonObject) : ∃ a,
    mergedDoc existing attributes = objInsert existing attributesName (.obj a) ∧
    ((∃ o, objGet existing attributesName = some (.obj o) ∧ a = mergeObj o attributes) ∨
     ((∀ o, objGet existing attributesName ≠ some (.obj o)) ∧ a = attributes)) := by
  unfold mergedDoc
  cases hg : objGet existing attributesName with
  | none => exact ⟨attributes, rfl, .inr ⟨by simp, rfl⟩⟩
  | some j =>
    cases j with
    | obj o => exact ⟨_, rfl, .inl ⟨o, rfl, rfl⟩⟩
    | _ => exact ⟨attributes, rfl, .inr ⟨by simp, rfl⟩⟩

theorem mergedDoc_idem (existing b : JsonObject) (hb : (b.map Prod.fst).Nodup) :
    mergedDoc (mergedDoc existing b) b = mergedDoc existing b := by
  obtain ⟨a, h1, h2⟩ := mergedDoc_eq existing b
  rw [h1]
  have hg : objGet (objInsert existing attributesName (.obj a)) attributesName = some (.obj a) := by
    rw [objGet_objInsert]; simp
  have hm : mergeObj a b = a := by
    rcases h2 with ⟨o, _, rfl⟩ | ⟨_, rfl⟩
    · exact mergeObj_idem o b hb
    · exact mergeObj_id fun e he => objGet_of_mem hb he
  unfold mergedDoc
  rw [hg]
  simp only [mergeTopLevel, hm]
  exact objInsert_same hg

theorem mergedDoc_canon {fl : BitVec 64 → Bool} {n : Nat} {existing b : JsonObject}
    (he : Json.canonObj fl (n + 1) existing = true) (hb : Json.canonObj fl n b = true) :
    Json.canonObj fl (n + 1) (mergedDoc existing b) = true := by
  obtain ⟨a, h1, h2⟩ := mergedDoc_eq existing b
  rw [h1]
  apply Json.canonObj_insert he
  rcases h2 with ⟨o, ho, rfl⟩ | ⟨_, rfl⟩
  · have := Json.canon_of_objGet he ho
    exact canonObj_mergeObj this (Json.canonObj_iff.mp hb).1
  · exact hb

/-! ## `set_attributes` -/

/-- What a successful choice of the metadata key means. -/
theorem nodeMetadataKey_ok {h : Hier} {path : Str} {fs fs' : Fs} {key : Str}
    (hk : nodeMetadataKey h path fs = (.ok key, fs')) : fs' = fs ∧
      ((key = arrayMetadataKey h.entry path ∧ (storeExists h key fs).1 = .ok true) ∨
       (key = groupMetadataKey h.entry path ∧ (storeExists h key fs).1 = .ok true ∧
        (storeExists h (arrayMetadataKey h.entry path) fs).1 = .ok false)) := by
  simp only [nodeMetadataKey, M.bind_apply] at hk
  have ea : storeExists h (arrayMetadataKey h.entry path) fs
      = ((storeExists h (arrayMetadataKey h.entry path) fs).1, fs) := rfl
  have eg : storeExists h (groupMetadataKey h.entry path) fs
      = ((storeExists h (groupMetadataKey h.entry path) fs).1, fs) := rfl
  rw [ea] at hk
  cases ha : (storeExists h (arrayMetadataKey h.entry path) fs).1 with
  | ok a =>
    rw [ha] at hk
    cases a with
    | true =>
      simp at hk
      exact ⟨hk.2.symm, .inl ⟨hk.1.symm, hk.1 ▸ ha⟩⟩
    | false =>
      simp only [Bool.false_eq_true, if_false, M.bind_apply] at hk
      rw [eg] at hk
      cases hg : (storeExists h (groupMetadataKey h.entry path) fs).1 with
      | ok g =>
        rw [hg] at hk
        cases g with
        | true =>
          simp at hk
          exact ⟨hk.2.symm, .inr ⟨hk.1.symm, hk.1 ▸ hg, rfl⟩⟩
        | false => simp at hk
      | err e => rw [hg] at hk; simp at hk
      | panic => rw [hg] at hk; simp at hk
  | err e => rw [ha] at hk; simp at hk
  | panic => rw [ha] at hk; simp at hk

theorem nodeMetadataKey_same {fs fs' : Fs} (hs : fs.Same fs') {h : Hier} {path key : Str}
    (hk : nodeMetadataKey h path fs = (.ok key, fs)) : nodeMetadataKey h path fs' = (.ok key, fs') := by
  have ea := storeExists_same hs h (arrayMetadataKey h.entry path)
  have eg := storeExists_same hs h (groupMetadataKey h.entry path)
  have ea' : storeExists h (arrayMetadataKey h.entry path) fs'
      = ((storeExists h (arrayMetadataKey h.entry path) fs').1, fs') := rfl
  have eg' : storeExists h (groupMetadataKey h.entry path) fs'
      = ((storeExists h (groupMetadataKey h.entry path) fs').1, fs') := rfl
  simp only [nodeMetadataKey, M.bind_apply]
  rw [ea', ea]
  obtain ⟨_, ⟨rfl, h1⟩ | ⟨rfl, h1, h2⟩⟩ := nodeMetadataKey_ok hk
  · rw [h1]; simp
  · rw [h2]
    simp only [Bool.false_eq_true, if_false, M.bind_apply]
    rw [eg', eg, h1]; simp

/-- Everything a successful `set_attributes` does. -/
theorem setAttributes_ok {env : Env} {h : Hier} {path : Str} {b : JsonObject} {fs fs' : Fs}
    (hset : setAttributes env h path b fs = (.ok (), fs')) :
    ∃ key t l c kvs, nodeMetadataKey h path fs = (.ok key, fs) ∧ getPath h.base key = .ok t ∧
      fs.locate (segs t) = .ok l ∧ fs.get l = some (.file c) ∧ env.json.parse c = some (.obj kvs) ∧
      fs' = if mergedDoc kvs b = kvs then fs
        else fs.put l (.file (env.json.print (.obj (mergedDoc kvs b)))) := by
  simp only [setAttributes, M.bind_apply] at hset
  cases hk : nodeMetadataKey h path fs with
  | mk r s =>
    rw [hk] at hset
    cases r with
    | err e => simp at hset
    | panic => simp at hset
    | ok key =>
      obtain ⟨hs, hk'⟩ := nodeMetadataKey_ok hk
      have hs : fs = s := hs.symm
      subst hs
      have hex : (storeExists h key fs).1 = .ok true := by
        rcases hk' with ⟨_, h⟩ | ⟨_, h, _⟩ <;> exact h
      obtain ⟨t, l, c, h1, h2, h3⟩ := storeExists_true hex
      simp only [storeGet_located h1 h2 h3, M.lift_apply, Outcome.ofOption_some] at hset
      cases hp : env.json.parse c with
      | none => rw [hp] at hset; simp at hset
      | some j =>
        rw [hp] at hset
        simp only [Outcome.ofOption_some] at hset
        cases j with
        | obj kvs =>
          simp only [Json.asObj] at hset
          refine ⟨key, t, l, c, kvs, rfl, h1, h2, h3, hp, ?_⟩
          by_cases hm : mergedDoc kvs b = kvs
          · rw [if_pos hm]
            simp [hm] at hset
            exact hset.symm
          · rw [if_neg hm]
            simp only [ne_eq, hm, not_false_eq_true, if_true, storeSet_located h1 h2 h3] at hset
            exact (Prod.mk.inj hset).2.symm
        | _ => simp [Json.asObj] at hset

end Zarr
