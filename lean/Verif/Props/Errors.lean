import Verif.Props.CrashCalls
import Verif.Props.NdWrite
import Verif.Props.Open
import Verif.Props.ThreadRemove
/-!
# Errors tell their causes: C97
-/

namespace Zarr

open Spec

/-! ## Which errors can come out -/

/-- All errors of an outcome are of a kind in `K`. -/
def OnlyErr {α : Type} (K : ErrKind → Prop) (o : Outcome α) : Prop := ∀ e, o = .err e → K e

namespace OnlyErr

variable {α β : Type} {K : ErrKind → Prop}

theorem ok (a : α) : OnlyErr K (.ok a) := by intro e h; cases h
theorem pure (a : α) : OnlyErr K (Pure.pure a : Outcome α) := by intro e h; cases h
theorem panic : OnlyErr K (.panic : Outcome α) := by intro e h; cases h
theorem err {e : ErrKind} (h : K e) : OnlyErr K (.err e : Outcome α) := by intro e' h'; cases h'; exact h

theorem bind {x : Outcome α} {f : α → Outcome β} (hx : OnlyErr K x) (hf : ∀ a, OnlyErr K (f a)) :
    OnlyErr K (x >>= f) := by
  cases x with
  | ok a => simpa using hf a
  | err e => simpa using err (hx e rfl)
  | panic => simpa using panic

theorem ite {c : Prop} [Decidable c] {x y : Outcome α} (hx : OnlyErr K x) (hy : OnlyErr K y) :
    OnlyErr K (if c then x else y) := by split <;> assumption

theorem ofOption {e : ErrKind} (h : K e) (o : Option α) : OnlyErr K (Outcome.ofOption e o) := by
  cases o with
  | none => exact err h
  | some a => exact ok a

theorem map {f : α → Outcome β} (hf : ∀ a, OnlyErr K (f a)) : ∀ l, OnlyErr K (mapOutcome f l)
  | [] => ok _
  | x :: xs => bind (hf x) fun _ => bind (map hf xs) fun _ => pure _

end OnlyErr

/-- An error of serde_json. -/
abbrev IsJson : ErrKind → Prop := (· = .json)

theorem onlyErr_members (names : List Str) (n : Nat) (j : Json) : OnlyErr IsJson (j.members names n) := by
  cases j <;> simp only [Json.members, uniqueMembers] <;>
    first | exact .err rfl | exact .ite (.ok _) (.err rfl)

theorem onlyErr_objField (m : JsonObject) (k : Str) : OnlyErr IsJson (objField m k) :=
  OnlyErr.ofOption (K := IsJson) rfl _

theorem onlyErr_asStr (j : Json) : OnlyErr IsJson j.asStr := by
  cases j <;> first | exact .ok _ | exact .err rfl

theorem onlyErr_asBool (j : Json) : OnlyErr IsJson j.asBool := by
  cases j <;> first | exact .ok _ | exact .err rfl

theorem onlyErr_asArr (j : Json) : OnlyErr IsJson j.asArr := by
  cases j <;> first | exact .ok _ | exact .err rfl

theorem onlyErr_asObj (j : Json) : OnlyErr IsJson j.asObj := by
  cases j <;> first | exact .ok _ | exact .err rfl

theorem onlyErr_asIntIn (lo hi : Int) (j : Json) : OnlyErr IsJson (j.asIntIn lo hi) := by
  cases j <;> simp only [Json.asIntIn] <;> first | exact .err rfl | exact .ite (.ok _) (.err rfl)

theorem onlyErr_asNats (hi : Nat) (j : Json) : OnlyErr IsJson (j.asNats hi) :=
  .bind (onlyErr_asArr _) fun _ => .map (fun _ => .bind (onlyErr_asIntIn _ _ _) fun _ => .pure _) _

theorem onlyErr_extension (j : Json) : OnlyErr IsJson (ExtensionMetadata.fromJson j) :=
  .bind (onlyErr_members _ _ _) fun _ => .bind (onlyErr_objField _ _) fun _ => .bind (onlyErr_asStr _) fun _ =>
  .bind (onlyErr_objField _ _) fun _ => .bind (onlyErr_asBool _) fun _ => .bind (by
    unfold optObjField
    split
    · exact .ok _
    · exact .ok _
    · exact .bind (onlyErr_asObj _) fun _ => .pure _) fun _ => .pure _

theorem onlyErr_entryPoint (j : Json) : OnlyErr IsJson (EntryPointMetadata.fromJson j) :=
  .bind (onlyErr_members _ _ _) fun _ => .bind (onlyErr_objField _ _) fun _ => .bind (onlyErr_asStr _) fun _ =>
  .bind (onlyErr_objField _ _) fun _ => .bind (onlyErr_asStr _) fun _ => .bind (onlyErr_objField _ _) fun _ =>
  .bind (onlyErr_asStr _) fun _ => .bind (onlyErr_objField _ _) fun _ => .bind (onlyErr_asArr _) fun _ =>
  .bind (.map onlyErr_extension _) fun _ => .pure _

theorem onlyErr_dataType (j : Json) : OnlyErr IsJson (DataType.fromJson j) := by
  unfold DataType.fromJson
  split
  · unfold DataType.visitStr
    refine .ite (.ok _) (.ite (.ok _) (.ite (.ok _) ?_))
    split
    · split
      · exact .ite (.ok _) (.err rfl)
      · exact .err rfl
    · refine .ite ?_ (.err rfl)
      unfold DataType.visit3
      repeat' split
      all_goals first | exact .panic | exact .ok _ | exact .err rfl
  · exact .err rfl

theorem onlyErr_extensible (j : Json) : OnlyErr IsJson (ExtensibleDataType.fromJson j) := by
  unfold ExtensibleDataType.fromJson
  split
  · exact .ok _
  · exact .panic
  · unfold ExtensibleDataType.extFromJson
    split
    · refine .bind (.ite (.ok _) (.err rfl)) fun _ => .bind (onlyErr_objField _ _) fun _ => .bind (onlyErr_asStr _) fun _ =>
        .bind (onlyErr_objField _ _) fun _ => .bind (onlyErr_asStr _) fun _ => ?_
      dsimp only
      split
      · exact .bind (.pure _) fun _ => .pure _
      · exact .bind (.pure _) fun _ => .pure _
      · exact .bind (onlyErr_dataType _) fun _ => .bind (.pure _) fun _ => .pure _
    · exact .err rfl

theorem onlyErr_intFieldOr (d lo hi : Int) (k : Str) (j : Json) : OnlyErr IsJson (intFieldOr d lo hi k j) := by
  refine .bind (onlyErr_members _ _ _) fun m => ?_
  split
  · exact .ok _
  · exact onlyErr_asIntIn _ _ _

theorem onlyErr_compression (f : Features) (j : Json) : OnlyErr IsJson (CompressionType.fromJson f j) := by
  refine .bind (onlyErr_members _ _ _) fun _ => .bind (onlyErr_objField _ _) fun _ => .bind (onlyErr_asStr _) fun _ =>
    .bind (onlyErr_objField _ _) fun c => ?_
  unfold CompressionType.fromTag
  refine .ite ?_ (.ite ?_ (.ite ?_ (.ite ?_ (.ite ?_ (.err rfl)))))
  · split
    · exact .ok _
    · exact .err rfl
  all_goals exact .bind (onlyErr_intFieldOr _ _ _ _ _) fun _ => .pure _

theorem onlyErr_arrayMetadata (f : Features) (j : Json) : OnlyErr IsJson (ArrayMetadata.fromJson f j) := by
  unfold ArrayMetadata.fromJson
  refine .bind (onlyErr_members _ _ _) fun _ => .bind (onlyErr_objField _ _) fun _ => .bind (onlyErr_asNats _ _) fun _ =>
    .bind (onlyErr_objField _ _) fun _ => .bind (onlyErr_extensible _) fun _ => .bind (onlyErr_objField _ _) fun _ =>
    .bind (onlyErr_members _ _ _) fun _ => .bind (onlyErr_objField _ _) fun _ => .bind (onlyErr_asStr _) fun _ =>
    .bind (onlyErr_objField _ _) fun _ => .bind (onlyErr_asNats _ _) fun _ => .bind (onlyErr_objField _ _) fun _ =>
    .bind (onlyErr_asStr _) fun _ => .bind (onlyErr_objField _ _) fun o => .bind ?_ fun _ => ?_
  · unfold Order.fromJson
    split
    · exact .ite (.ok _) (.ite (.ok _) (.err rfl))
    · exact .ite (.ok _) (.ite (.ok _) (.err rfl))
    · exact .err rfl
  · refine .bind (onlyErr_objField _ _) fun _ => .bind (onlyErr_asArr _) fun _ => .bind (.map onlyErr_extension _) fun _ =>
      .bind (onlyErr_objField _ _) fun _ => .bind (onlyErr_asObj _) fun _ => ?_
    dsimp only
    split
    · exact .bind (.pure _) fun _ => .pure _
    · exact .bind (onlyErr_compression _ _) fun _ => .pure _

theorem OnlyErr.mono {α : Type} {K L : ErrKind → Prop} {o : Outcome α} (h : OnlyErr K o) (hk : ∀ e, K e → L e) :
    OnlyErr L o := fun e he => hk e (h e he)

theorem onlyErr_checkExtensions (xs : List ExtensionMetadata) : OnlyErr (· = .other) (checkExtensions xs) := by
  unfold checkExtensions
  split
  · exact .err rfl
  · exact .ok _

theorem onlyErr_parseArrayMetadata (env : Env) (b : Bytes) :
    OnlyErr (fun e => e = .json ∨ e = .other) (parseArrayMetadata env b) :=
  .bind (.ofOption (.inl rfl) _) fun _ => .bind ((onlyErr_arrayMetadata _ _).mono fun _ => .inl) fun _ =>
    .bind ((onlyErr_checkExtensions _).mono fun _ => .inr) fun _ => .pure _

theorem onlyErr_fill (env : Env) (m : ArrayMetadata) (t : RsType) : OnlyErr IsJson (effectiveFillValue env m t) := by
  unfold effectiveFillValue
  split
  · exact .ok _
  · rename_i j _
    unfold elFromJson
    refine OnlyErr.bind (f := fun n => .ok (El.ofNat t n)) ?_ fun _ => .ok _
    cases t
    case bool => exact .bind (onlyErr_asBool _) fun _ => .pure _
    case f16 => exact OnlyErr.ofOption (K := IsJson) rfl _
    case f32 => exact OnlyErr.ofOption (K := IsJson) rfl _
    case f64 => exact OnlyErr.ofOption (K := IsJson) rfl _
    all_goals exact .bind (onlyErr_asIntIn _ _ _) fun _ => .pure _

/-! ## Nodes -/

/-- The document of a node: that of an array before that of a group. -/
def Spec.nodeDoc (h : Hier) (fs : Fs) (path : Str) : Option Bytes := (arrayDoc h fs path).or (groupDoc h fs path)

theorem listAttributes_doc {env : Env} {h : Hier} {fs : Fs} {path : Str} (hwf : fs.WF) (hb : Plain (segs h.base))
    (hs : GoodSuffix h.entry) (hp : Plain (segs path)) :
    (listAttributes env h path fs).1 = match nodeDoc h fs path with
      | none => .err .notFound
      | some b => match env.json.parse b with
        | none => .err .json
        | some j => docAttributes j := by
  simp only [listAttributes, M.bind_apply, nodeMetadataKey_eq hwf hb hs hp, nodeDoc]
  cases ha : arrayDoc h fs path with
  | some b =>
    simp only [Option.isSome_some, if_true, storeGet_array hwf hb hs hp, ha, M.lift_apply, Outcome.ofOption_some]
    show _ = match env.json.parse b with
      | none => Outcome.err .json
      | some j => docAttributes j
    cases env.json.parse b <;> rfl
  | none =>
    cases hg : groupDoc h fs path with
    | some b =>
      simp only [Option.isSome_some, Option.isSome_none, Bool.false_eq_true, if_false, if_true,
        storeGet_group hwf hb hs hp, hg, M.lift_apply, Outcome.ofOption_some, Option.none_or]
      cases env.json.parse b <;> rfl
    | none => simp

theorem setAttributes_doc {env : Env} {h : Hier} {fs : Fs} {path : Str} (hwf : fs.WF) (hb : Plain (segs h.base))
    (hs : GoodSuffix h.entry) (hp : Plain (segs path)) (a : JsonObject) :
    (setAttributes env h path a fs).1 = match nodeDoc h fs path with
      | none => .err .notFound
      | some b => match env.json.parse b with
        | some (.obj _) => .ok ()
        | _ => .err .json := by
  have fin : ∀ key b, nodeMetadataKey h path fs = (.ok key, fs) → Plain (h.loc key) →
      fs.content (h.loc key) = some b → (setAttributes env h path a fs).1 = match env.json.parse b with
        | some (.obj _) => .ok ()
        | _ => .err .json := by
    intro key b hk hpl hc
    have hg : storeGet h key fs = (.ok (some b), fs) := by rw [storeGet_eq hwf hpl, hc]
    cases hd : (env.json.parse b).bind Json.asObject with
    | none =>
      rw [(setAttributes_bad (env := env) (b := a) hk hg hd).1]
      split
      · rename_i o e; rw [e] at hd; simp [Json.asObject] at hd
      · rfl
    | some kvs =>
      have hpar : env.json.parse b = some (.obj kvs) := by
        cases hj : env.json.parse b with
        | none => rw [hj] at hd; simp at hd
        | some j =>
          rw [hj] at hd
          cases j with
          | obj o => simp [Json.asObject] at hd; rw [hd]
          | _ => simp [Json.asObject] at hd
      obtain ⟨h1, h2⟩ := setAttributes_known (env := env) (b := a) hk hg hd
      rw [hpar]
      by_cases hm : mergedDoc kvs a = kvs
      · rw [(h1 hm).1]
      · rw [(h2 hm).1]
        have hget := Fs.content_eq_some.mp hc
        have hw : Writable fs (h.loc key) := by
          refine ⟨fun l hl hne b' hb' => ?_, by rw [hget]; simp⟩
          have := hwf.dir_of_prefix hl hne hget
          rw [hb'] at this; cases this
        obtain ⟨fs', h3, _⟩ := (storeSet_spec (h := h) (env.json.print (.obj (mergedDoc kvs a)), .ok ()) hwf hpl).1 hw
        rw [h3]
  have hka : Plain (h.loc (arrayMetadataKey h.entry path)) := hb.append (by
    rw [segs_arrayMetadataKey hs hp]; exact plain_extLast_meta hp (by simp))
  have hkg : Plain (h.loc (groupMetadataKey h.entry path)) := hb.append (by
    rw [segs_groupMetadataKey hs hp]; exact plain_extLast_meta hp (by simp))
  have hkey := nodeMetadataKey_eq (fs := fs) hwf hb hs hp
  rw [nodeDoc]
  cases ha : arrayDoc h fs path with
  | some b =>
    rw [ha] at hkey
    exact fin _ b (by simpa using hkey) hka (by rw [loc_arrayKey hs hp]; exact ha)
  | none =>
    rw [ha] at hkey
    cases hg : groupDoc h fs path with
    | some b =>
      rw [hg] at hkey
      exact fin _ b (by simpa using hkey) hkg (by rw [loc_groupKey hs hp]; exact hg)
    | none =>
      rw [hg] at hkey
      simp only [setAttributes, M.bind_apply, hkey]
      simp

theorem docAttributes_cases (j : Json) :
    (∃ a, docAttributes j = .ok a) ∧ (∀ o v, j = .obj o → objGet o str!"attributes" = some v → ∃ a, v = .obj a) ∨
    docAttributes j = .err .invalidData ∧
      ∃ o v, j = .obj o ∧ objGet o str!"attributes" = some v ∧ ∀ a, v ≠ .obj a := by
  unfold docAttributes
  split
  · rename_i a e
    refine .inl ⟨⟨a, rfl⟩, fun o v e1 e2 => ?_⟩
    subst e1
    simp only [Json.asObject, Option.bind_some, attributesName] at e
    rw [e2] at e; cases e
    exact ⟨a, rfl⟩
  · rename_i v hv e
    refine .inr ⟨rfl, ?_⟩
    cases j with
    | obj o => exact ⟨o, v, rfl, by simpa [Json.asObject, attributesName] using e, fun a ha => hv a ha⟩
    | _ => simp [Json.asObject] at e
  · rename_i e
    refine .inl ⟨⟨[], rfl⟩, fun o v e1 e2 => ?_⟩
    subst e1
    simp only [Json.asObject, Option.bind_some, attributesName] at e
    rw [e2] at e; cases e

theorem toJson_ne_err (m : ArrayMetadata) (e : ErrKind) : m.toJson ≠ .err e := by
  have hd : ∀ d : DataType, OnlyErr (fun _ => False) d.toJson := by
    intro d
    refine .bind ?_ fun _ => .pure _
    unfold DataType.serialize
    split <;> first | exact .ok _ | skip
    dsimp only
    split
    · exact .ok _
    · exact .panic
  have he : OnlyErr (fun _ => False) m.dataType.toJson := by
    cases m.dataType with
    | core d => exact hd d
    | extended a b f =>
      cases f with
      | none => exact .ok _
      | some d => exact .bind (hd d) fun _ => .pure _
  have : OnlyErr (fun _ => False) m.toJson := .bind he fun _ => .pure _
  exact fun h => this e h

/-- **C97** for the calls on nodes. `NotFound` means that there is no document, `AlreadyExists` that there is
one (unless the filesystem refuses to create the new document), and the other errors that the document is
damaged. -/
theorem C97_nodes (env : Env) (h : Hier) (path : Str) (fs : Fs) (hwf : fs.WF) (hb : Plain (segs h.base))
    (hs : GoodSuffix h.entry) (hp : Plain (segs path)) :
    ((getArrayMetadata env h path fs).1 = .err .notFound ↔ arrayDoc h fs path = none) ∧
    ((listAttributes env h path fs).1 = .err .notFound ↔ nodeDoc h fs path = none) ∧
    ((listAttributes env h path fs).1 = .err .json ↔
      ∃ b, nodeDoc h fs path = some b ∧ env.json.parse b = none) ∧
    ((listAttributes env h path fs).1 = .err .invalidData ↔
      ∃ b o v, nodeDoc h fs path = some b ∧ env.json.parse b = some (.obj o) ∧
        objGet o str!"attributes" = some v ∧ ∀ a, v ≠ .obj a) ∧
    (∀ e, (listAttributes env h path fs).1 = .err e → e = .notFound ∨ e = .json ∨ e = .invalidData) ∧
    (∀ a, ((setAttributes env h path a fs).1 = .err .notFound ↔ nodeDoc h fs path = none) ∧
      ((setAttributes env h path a fs).1 = .err .json ↔
        ∃ b, nodeDoc h fs path = some b ∧ ∀ o, env.json.parse b ≠ some (.obj o)) ∧
      ((setAttributes env h path a fs).1 = .ok () ↔
        ∃ b o, nodeDoc h fs path = some b ∧ env.json.parse b = some (.obj o))) ∧
    (Writable fs (h.loc (groupMetadataKey h.entry path)) →
      ((createGroup env h path fs).1 = .err .alreadyExists ↔ arrayDoc h fs path ≠ none) ∧
      ((createGroup env h path fs).1 = .ok () ↔ arrayDoc h fs path = none)) ∧
    (Writable fs (h.loc (arrayMetadataKey h.entry path)) → ∀ m,
      ((createArray env h path m fs).1 = .err .alreadyExists ↔ nodeDoc h fs path ≠ none) ∧
      (nodeDoc h fs path = none → m.toJson ≠ .panic → (createArray env h path m fs).1 = .ok ())) := by
  have hka : Plain (h.loc (arrayMetadataKey h.entry path)) := hb.append (by
    rw [segs_arrayMetadataKey hs hp]; exact plain_extLast_meta hp (by simp))
  have hkg : Plain (h.loc (groupMetadataKey h.entry path)) := hb.append (by
    rw [segs_groupMetadataKey hs hp]; exact plain_extLast_meta hp (by simp))
  refine ⟨?_, ?_, ?_, ?_, ?_, fun a => ⟨?_, ?_, ?_⟩, fun hw => ?_, fun hw m => ?_⟩
  · simp only [getArrayMetadata, M.bind_apply, storeGet_array hwf hb hs hp]
    cases arrayDoc h fs path with
    | none => simp
    | some b =>
      simp only [M.lift_apply, Outcome.ofOption_some, reduceCtorEq, iff_false]
      intro e
      rcases onlyErr_parseArrayMetadata env b _ e with e | e <;> cases e
  · rw [listAttributes_doc hwf hb hs hp]
    cases nodeDoc h fs path with
    | none => simp
    | some b =>
      simp only [reduceCtorEq, iff_false]
      cases env.json.parse b with
      | none => simp
      | some j => rcases docAttributes_cases j with ⟨⟨a, e⟩, _⟩ | ⟨e, _⟩ <;> simp [e]
  · rw [listAttributes_doc hwf hb hs hp]
    cases nodeDoc h fs path with
    | none => simp
    | some b =>
      cases hj : env.json.parse b with
      | none => simp [hj]
      | some j => rcases docAttributes_cases j with ⟨⟨a, e⟩, _⟩ | ⟨e, _⟩ <;> simp [e, hj]
  · rw [listAttributes_doc hwf hb hs hp]
    cases nodeDoc h fs path with
    | none => simp
    | some b =>
      cases hj : env.json.parse b with
      | none => simp [hj]
      | some j =>
        rcases docAttributes_cases j with ⟨⟨a, e⟩, hn⟩ | ⟨e, o, v, h1, h2, h3⟩
        · simp only [hj, e, reduceCtorEq, false_iff]
          rintro ⟨b', o, v, e1, e2, e3, e4⟩
          cases e1
          rw [hj] at e2
          cases e2
          obtain ⟨a, ha⟩ := hn o v rfl e3
          exact e4 a ha
        · simp only [hj, e, true_iff]
          exact ⟨b, o, v, rfl, by rw [hj, h1], h2, h3⟩
  · rw [listAttributes_doc hwf hb hs hp]
    intro e
    cases nodeDoc h fs path with
    | none => simp; exact fun h => .inl h.symm
    | some b =>
      cases hj : env.json.parse b with
      | none => simp [hj]; exact fun h => .inr (.inl h.symm)
      | some j =>
        rcases docAttributes_cases j with ⟨⟨a, e⟩, hn⟩ | ⟨e, _⟩ <;> simp [e, hj]
        exact fun h => .inr (.inr h.symm)
  · rw [setAttributes_doc hwf hb hs hp]
    cases nodeDoc h fs path with
    | none => simp
    | some b => simp only [reduceCtorEq, iff_false]; split <;> simp
  · rw [setAttributes_doc hwf hb hs hp]
    cases nodeDoc h fs path with
    | none => simp
    | some b =>
      simp only [Option.some.injEq, exists_eq_left']
      split
      · rename_i o e; simp [e]
      · rename_i hn; simp; exact hn
  · rw [setAttributes_doc hwf hb hs hp]
    cases nodeDoc h fs path with
    | none => simp
    | some b =>
      simp only [Option.some.injEq, exists_eq_left', exists_and_left]
      split
      · rename_i o e; simp [e]
      · rename_i hn; simp; exact hn
  · simp only [createGroup, M.bind_apply, storeExists_array hwf hb hs hp]
    cases arrayDoc h fs path with
    | some b => simp
    | none =>
      simp only [Option.isSome_none, Bool.false_eq_true, if_false, M.bind_apply, storeExists_group hwf hb hs hp]
      cases groupDoc h fs path with
      | some b => simp
      | none =>
        obtain ⟨fs', h3, _⟩ := (storeSet_spec (h := h) (env.json.print GroupMetadata.default.toJson, .ok ()) hwf hkg).1 hw
        simp [h3]
  · simp only [createArray, M.bind_apply, storeExists_group hwf hb hs hp, nodeDoc]
    cases groupDoc h fs path with
    | some b => simp
    | none =>
      simp only [Option.isSome_none, Bool.false_eq_true, if_false, M.bind_apply, storeExists_array hwf hb hs hp]
      cases arrayDoc h fs path with
      | some b => simp
      | none =>
        obtain ⟨fs', h3, _⟩ := (storeSet_spec (h := h) (arrayMetadataText env m) hwf hka).1 hw
        simp only [Option.isSome_none, Bool.false_eq_true, if_false, h3]
        have : (arrayMetadataText env m).2 = .ok () ∨ (arrayMetadataText env m).2 = .panic ∧ m.toJson = .panic := by
          unfold arrayMetadataText
          cases hj : m.toJson with
          | ok j => exact .inl rfl
          | err e => exact absurd hj (toJson_ne_err m e)
          | panic => exact .inr ⟨rfl, rfl⟩
        rcases this with e | ⟨e, e'⟩ <;> simp [e]
        exact e'

/-! ## Chunks -/

/-- The error of an outcome. -/
def Spec.errOf {α : Type} : Outcome α → Option ErrKind
  | .err e => some e
  | _ => none

/-- The error of reading a chunk of `need` bytes from a file (if there is one) that holds, or does not hold,
elements of the type asked for. -/
def Spec.readError (file : Option Bytes) (sameKind : Bool) (need : Nat) : Option ErrKind :=
  match file with
  | none => none
  | some b => if !sameKind then some .invalidInput else if b.length < need then some .unexpectedEof else none

/-- The error of writing a chunk of `n` elements where `need` are needed. -/
def Spec.writeError (sameKind : Bool) (n need : Nat) : Option ErrKind :=
  if !sameKind then some .invalidInput else if n ≠ need then some .invalidData else none

theorem readChunkIntoBytes_eq {ext : Codecs} {native : Endian} {m : ArrayMetadata} {t : RsType} {pos : List Nat}
    {b : Bytes} {buf : DataChunk t} :
    readChunkIntoBytes ext native m t pos b buf = readChunkBytes ext native m t pos b := by
  simp only [readChunkIntoBytes, readChunkBytes, createDataChunk, DataChunk.reinitialize,
    List.length_append, List.length_take, List.length_replicate]
  have : min (m.chunkNumElements % 2 ^ 32) buf.data.length
      + (m.chunkNumElements % 2 ^ 32 - buf.data.length) = m.chunkNumElements % 2 ^ 32 := by omega
  rw [this]

theorem readChunk_file {env : Env} {h : Hier} {path : Str} {m : ArrayMetadata} {t : RsType} {pos : List Nat} {fs : Fs}
    (hwf : fs.WF) (hpl : Plain (h.loc (chunkKey path m pos))) (hin : m.inBounds pos = .ok true) :
    (readChunk env h path m t pos fs).1 = (match fs.content (h.loc (chunkKey path m pos)) with
      | none => .ok none
      | some b => readChunkBytes env.codecs env.native m t pos b >>= fun c => .ok (some c)) ∧
    ∀ buf, (readChunkInto env h path m t pos buf fs).1 = (match fs.content (h.loc (chunkKey path m pos)) with
      | none => .ok (false, buf)
      | some b => readChunkBytes env.codecs env.native m t pos b >>= fun c => .ok (true, c)) := by
  have ha := assertInBounds_ok.mpr hin
  constructor
  · simp only [readChunk, M.bind_apply, M.lift_apply, ha, storeGet_eq hwf hpl]
    cases fs.content (h.loc (chunkKey path m pos)) with
    | none => rfl
    | some b => simp only [M.bind_apply, M.lift_apply]; cases readChunkBytes env.codecs env.native m t pos b <;> rfl
  · intro buf
    simp only [readChunkInto, M.bind_apply, M.lift_apply, ha, storeGet_eq hwf hpl]
    cases fs.content (h.loc (chunkKey path m pos)) with
    | none => rfl
    | some b =>
      simp only [M.bind_apply, M.lift_apply, readChunkIntoBytes_eq]
      cases readChunkBytes env.codecs env.native m t pos b <;> rfl

/-- **C97** for chunks of an array without compression and with fewer than 2^32 elements per chunk. Reading fails
with `InvalidInput` if there is a chunk and the element type is another, with `UnexpectedEof` if the chunk's
file is too short, and never otherwise; writing where nothing is in the way fails with `InvalidInput` if the
element type is another, with `InvalidData` if it is not but the number of elements is wrong, and never
otherwise. -/
theorem C97_chunks (env : Env) (h : Hier) (path : Str) (m : ArrayMetadata) (t : RsType) (d : DataType) (fs : Fs)
    (hwf : fs.WF) (hd : effective m.dataType = some d) (hraw : m.compressor = .raw)
    (hlt : m.chunkShape.prod < 2 ^ 32) :
    (∀ pos, Plain (h.loc (chunkKey path m pos)) → m.inBounds pos = .ok true →
      let e := readError (fs.content (h.loc (chunkKey path m pos))) (decide (kindOf d = kindOfRs t))
        (m.chunkShape.prod * t.size)
      (errOf (readChunk env h path m t pos fs).1 = e ∧ (readChunk env h path m t pos fs).1 ≠ .panic) ∧
      ∀ buf, errOf (readChunkInto env h path m t pos buf fs).1 = e ∧
        (readChunkInto env h path m t pos buf fs).1 ≠ .panic) ∧
    (∀ c : DataChunk t, Plain (h.loc (chunkKey path m c.gridPosition)) →
      Writable fs (h.loc (chunkKey path m c.gridPosition)) → c.data.length < 2 ^ 32 →
      errOf (writeChunk env h path m c fs).1 =
        writeError (decide (kindOf d = kindOfRs t)) c.data.length m.chunkShape.prod ∧
      (writeChunk env h path m c fs).1 ≠ .panic) := by
  have hd' := effective_iff.mpr hd
  have hmod : m.chunkShape.prod % 2 ^ 32 = m.chunkShape.prod := Nat.mod_eq_of_lt hlt
  have hk : ∀ (hk : kindOf d ≠ kindOfRs t), checkArrayType env.native m t = .err .invalidInput := by
    intro hk
    apply checkArrayType_err hd'
    rw [Bool.eq_false_iff]
    intro hh; exact hk ((eqModuloEndian_iff_kind _ _ _).mp hh)
  constructor
  · intro pos hpl hin e
    obtain ⟨r1, r2⟩ := readChunk_file (env := env) (t := t) hwf hpl hin
    simp only [e, r1, r2, readError]
    cases fs.content (h.loc (chunkKey path m pos)) with
    | none => simp [errOf]
    | some b =>
      dsimp only
      by_cases hs : kindOf d = kindOfRs t
      · rw [readChunkBytes_eq hd' ((eqModuloEndian_iff_kind _ _ _).mpr hs)]
        simp only [hraw, codecOf, rawCodec, Outcome.bind_ok, ArrayMetadata.chunkNumElements, hmod, hs]
        by_cases hn : m.chunkShape.prod * t.size ≤ b.length
        · simp [if_pos hn, errOf, Nat.not_lt.mpr hn]
        · simp [if_neg hn, errOf, Nat.lt_of_not_le hn]
      · rw [readChunkBytes_check_err (hk hs)]
        simp [errOf, hs]
  · intro c hpl hw hc
    have hcm : c.data.length % 2 ^ 32 = c.data.length := Nat.mod_eq_of_lt hc
    obtain ⟨fs', h1, _⟩ := (storeSet_spec (writeChunkBytes env.codecs env.native m c) hwf hpl).1 hw
    unfold writeChunk
    rw [h1, writeError]
    by_cases hs : kindOf d = kindOfRs t
    · have ht := (eqModuloEndian_iff_kind env.native d t).mpr hs
      by_cases hn : c.data.length = m.chunkShape.prod
      · obtain ⟨ss, _, h2⟩ := writeChunkBytes_fits (ext := env.codecs) (c := c) hd' ht (by rw [hcm]; exact hn)
        rw [h2, hraw]
        simp [codecOf, rawCodec, errOf, hs, hn]
      · have : writeChunkBytes env.codecs env.native m c = ([], .err .invalidData) := by
          unfold writeChunkBytes
          rw [checkArrayType_ok.mpr ⟨d, hd', ht⟩]
          simp only
          rw [if_pos (by rw [DataChunk.numElements, hcm]; exact hn)]
        rw [this]
        simp [errOf, hs, hn]
    · have : writeChunkBytes env.codecs env.native m c = ([], .err .invalidInput) := by
        unfold writeChunkBytes
        rw [hk hs]
      rw [this]
      simp [errOf, hs]

/-! ## Boxes -/

/-- All errors of a call are of a kind in `K`. -/
def CallErr {α : Type} (K : ErrKind → Prop) (x : M Fs α) : Prop := ∀ fs, OnlyErr K (x fs).1

namespace CallErr

variable {α β : Type} {K : ErrKind → Prop}

theorem bind {x : M Fs α} {f : α → M Fs β} (hx : CallErr K x)
    (hf : ∀ a, (∃ fs, (x fs).1 = .ok a) → CallErr K (f a)) : CallErr K (x >>= f) := by
  intro fs
  rw [M.bind_apply]
  cases h : x fs with
  | mk r fs' =>
    cases r with
    | ok a => exact hf a ⟨fs, by rw [h]⟩ fs'
    | err e => exact .err (hx fs e (by rw [h]))
    | panic => exact .panic

theorem pure (a : α) : CallErr K (Pure.pure a : M Fs α) := fun _ => OnlyErr.ok a
theorem lift {o : Outcome α} (h : OnlyErr K o) : CallErr K (M.lift o : M Fs α) := fun _ => h
theorem ite {c : Prop} [Decidable c] {x y : M Fs α} (hx : c → CallErr K x) (hy : ¬ c → CallErr K y) :
    CallErr K (if c then x else y) := by
  split
  · exact hx ‹_›
  · exact hy ‹_›

end CallErr

/-- Not `InvalidData`. -/
abbrev NotData : ErrKind → Prop := (· ≠ .invalidData)

theorem onlyErr_walk (fs : Fs) : ∀ (p : List Str) (cur : Loc), OnlyErr NotData (fs.walk cur p)
  | [], _ => .ok _
  | s :: ss, cur => by
    unfold Fs.walk
    split
    · exact onlyErr_walk fs ss _
    · exact .err (by decide)
    · exact .err (by decide)

theorem onlyErr_walk_other (fs : Fs) : ∀ (p : List Str) (cur : Loc), OnlyErr (· ≠ .other) (fs.walk cur p)
  | [], _ => .ok _
  | s :: ss, cur => by
    unfold Fs.walk
    split
    · exact onlyErr_walk_other fs ss _
    · exact .err (by decide)
    · exact .err (by decide)

theorem onlyErr_mkdir (fs : Fs) (p : List Str) : OnlyErr NotData (fs.mkdir p) := by
  unfold Fs.mkdir
  split
  · split
    · exact .err (by decide)
    · exact .ok _
  · rename_i e he; exact .err (onlyErr_walk fs p [] e he)
  · exact .panic

theorem onlyErr_mkdirAllRev : ∀ (p : List Str) (fs : Fs), OnlyErr NotData (Fs.mkdirAllRev p fs).1
  | [], fs => by
    unfold Fs.mkdirAllRev
    split
    · exact .ok _
    · exact .err (by decide)
  | s :: r, fs => by
    unfold Fs.mkdirAllRev
    split
    · exact .ok _
    · exact .panic
    · rename_i e he
      by_cases hn : e = .notFound
      · rw [if_pos hn]
        have ih := onlyErr_mkdirAllRev r fs
        split
        · split
          · exact .ok _
          · exact .panic
          · rename_i e' he'
            split
            · exact .ok _
            · exact .err (onlyErr_mkdir _ _ e' he')
        · exact ih
      · rw [if_neg hn]
        split
        · exact .ok _
        · exact .err (onlyErr_mkdir _ _ e he)

theorem onlyErr_openCreate (p : List Str) (fs : Fs) : OnlyErr NotData (Fs.openCreate p fs) := by
  unfold Fs.openCreate
  split
  · split
    · exact .ok _
    · exact .err (by decide)
    · exact .ok _
  · rename_i e he; exact .err (onlyErr_walk fs p [] e he)
  · exact .panic

theorem onlyErr_readFile (p : List Str) (fs : Fs) : OnlyErr NotData (Fs.readFile p fs) := by
  unfold Fs.readFile
  split
  · split
    · exact .ok _
    · exact .err (by decide)
    · exact .err (by decide)
  · rename_i e he; exact .err (onlyErr_walk fs p [] e he)
  · exact .panic

theorem onlyErr_getPath (b k : Str) : OnlyErr NotData (getPath b k) := .ite (.err (by decide)) (.ok _)

theorem callErr_storeSet (h : Hier) (key : Str) {v : Bytes × Outcome Unit} (hv : OnlyErr NotData v.2) :
    CallErr NotData (storeSet h key v) := by
  intro fs
  unfold storeSet
  split
  · rename_i e he; exact .err (onlyErr_getPath _ _ e he)
  · exact .panic
  · dsimp only
    split
    · rename_i e fs1 he
      refine .err ?_
      split at he
      · cases he
      · exact onlyErr_mkdirAllRev _ _ e (by unfold Fs.mkdirAll at he; rw [he])
    · exact .panic
    · split
      · rename_i e he; exact .err (onlyErr_openCreate _ _ e he)
      · exact .panic
      · exact hv

theorem callErr_storeGet (h : Hier) (key : Str) : CallErr NotData (storeGet h key) := by
  intro fs
  unfold storeGet
  rw [M.read_apply]
  refine OnlyErr.bind (onlyErr_getPath _ _) fun t => ?_
  split
  · exact .bind (onlyErr_readFile _ _) fun _ => .pure _
  · exact .ok _

variable {env : Env} {h : Hier} {path : Str} {m : ArrayMetadata} {t : RsType}

theorem onlyErr_checkArrayType (native : Endian) (m : ArrayMetadata) (t : RsType) :
    OnlyErr NotData (checkArrayType native m t) := by
  unfold checkArrayType
  cases m.dataType with
  | core d => exact .bind (.ok _) fun _ => .ite (.ok _) (.err (by decide))
  | extended a b f =>
    cases f with
    | none => exact .bind .panic fun _ => .ite (.ok _) (.err (by decide))
    | some d => exact .bind (.ok _) fun _ => .ite (.ok _) (.err (by decide))

theorem onlyErr_readChunkBytes (hraw : m.compressor = .raw) (pos : List Nat) (b : Bytes) :
    OnlyErr NotData (readChunkBytes env.codecs env.native m t pos b) := by
  cases hc : checkArrayType env.native m t with
  | err e => rw [readChunkBytes_check_err hc]; exact .err (onlyErr_checkArrayType _ _ _ e hc)
  | panic => rw [readChunkBytes, hc]; exact .panic
  | ok u =>
    obtain ⟨d, hd, ht⟩ := checkArrayType_ok.mp hc
    rw [readChunkBytes_eq hd ht, hraw]
    simp only [codecOf, rawCodec, Outcome.bind_ok]
    exact .ite (.ok _) (.err (by decide))

theorem onlyErr_zip {f : Nat → Nat → Outcome Nat} (hf : ∀ a b, OnlyErr NotData (f a b)) :
    ∀ l l', OnlyErr NotData (zipOutcome f l l')
  | [], _ => by unfold zipOutcome; exact .ok _
  | _ :: _, [] => by unfold zipOutcome; exact .ok _
  | _ :: l, _ :: l' => .bind (hf _ _) fun _ => .bind (onlyErr_zip hf l l') fun _ => .pure _

theorem callErr_assertInBounds (pos : List Nat) : CallErr NotData (M.lift (assertInBounds m pos)) := by
  refine .lift (.bind ?_ fun _ => .ite (.ok _) .panic)
  unfold ArrayMetadata.inBounds ArrayMetadata.gridExtent
  refine .ite (.bind (onlyErr_zip (fun _ _ => ?_) _ _) fun _ => .pure _) (.ok _)
  exact .ite .panic (.ok _)

theorem callErr_readChunk (hraw : m.compressor = .raw) (pos : List Nat) : CallErr NotData (readChunk env h path m t pos) := by
  refine .bind (callErr_assertInBounds pos) fun _ _ => .bind (callErr_storeGet _ _) fun v _ => ?_
  cases v with
  | none => exact .pure _
  | some b => exact .bind (.lift (onlyErr_readChunkBytes hraw _ _)) fun _ _ => .pure _

theorem callErr_readChunkInto (hraw : m.compressor = .raw) (pos : List Nat) (buf : DataChunk t) :
    CallErr NotData (readChunkInto env h path m t pos buf) := by
  refine .bind (callErr_assertInBounds pos) fun _ _ => .bind (callErr_storeGet _ _) fun v _ => ?_
  cases v with
  | none => exact .pure _
  | some b =>
    refine .bind (.lift ?_) fun _ _ => .pure _
    rw [readChunkIntoBytes_eq]
    exact onlyErr_readChunkBytes hraw _ _

theorem callErr_writeChunk (hraw : m.compressor = .raw) (hlt : m.chunkShape.prod < 2 ^ 32) (c : DataChunk t)
    (hc : c.data.length = m.chunkShape.prod) : CallErr NotData (writeChunk env h path m c) := by
  refine callErr_storeSet _ _ ?_
  cases hk : checkArrayType env.native m t with
  | err e => rw [writeChunkBytes, hk]; exact .err (onlyErr_checkArrayType _ _ _ e hk)
  | panic => rw [writeChunkBytes, hk]; exact .panic
  | ok u =>
    obtain ⟨d, hd, ht⟩ := checkArrayType_ok.mp hk
    obtain ⟨ss, _, e⟩ := writeChunkBytes_fits (ext := env.codecs) (c := c) hd ht
      (by rw [hc, Nat.mod_eq_of_lt hlt]; rfl)
    rw [e, hraw]
    exact .ok _

theorem onlyErr_intersect (a b : BBox) : OnlyErr NotData (a.intersect b) := .ite (.ok _) .panic

theorem onlyErr_sub (a : BBox) (o : List Nat) : OnlyErr NotData (a.sub o) :=
  .bind (onlyErr_zip (fun _ _ => .ite (.ok _) .panic) _ _) fun _ => .pure _

theorem onlyErr_slice {α : Type} (a : NdArr α) (rs : List (Nat × Nat)) : OnlyErr NotData (a.slice rs) :=
  .ite (.ok _) .panic

theorem onlyErr_sliceAssign {α : Type} (a : NdArr α) (rs : List (Nat × Nat)) (b : NdArr α) :
    OnlyErr NotData (a.sliceAssign rs b) := .ite (.ok _) .panic

theorem onlyErr_boundedCoordIter (m : ArrayMetadata) (b : BBox) : OnlyErr NotData (m.boundedCoordIter b) :=
  .bind (onlyErr_intersect _ _) fun _ => .bind (onlyErr_zip (fun _ _ => .ite .panic (.ok _)) _ _) fun _ =>
    .bind (onlyErr_zip (fun _ _ => .ite .panic (.ok _)) _ _) fun _ => .pure _

theorem fromShapeVec_shape {o : Order} {shape : List Nat} {v : List (El t)} {a : NdArr (El t)}
    (h : fromShapeVec o shape v = .ok a) : a.shape = shape := by
  unfold fromShapeVec at h
  split at h
  · cases h; rfl
  · cases h

theorem sliceAssign_shape {α : Type} {a b c : NdArr α} {rs : List (Nat × Nat)} (h : a.sliceAssign rs b = .ok c) :
    c.shape = a.shape := by
  unfold NdArr.sliceAssign at h
  split at h
  · cases h; rfl
  · cases h

theorem callErr_writePartial (hraw : m.compressor = .raw) (hlt : m.chunkShape.prod < 2 ^ 32) (fill : El t)
    (pos : List Nat) (nomBb writeBb : BBox) (hnom : nomBb.shape = m.chunkShape) (v : NdArr (El t))
    (existing : List (El t)) : CallErr NotData (writePartial env h path m fill pos nomBb writeBb v existing) := by
  unfold writePartial
  refine .bind (callErr_readChunkInto hraw _ _) fun r _ => .bind (.lift ?_) fun c hc =>
    .bind (.lift (onlyErr_sub _ _)) fun w _ => .bind (.lift (onlyErr_sliceAssign _ _ _)) fun a ha =>
    .bind (callErr_writeChunk hraw hlt _ ?_) fun _ _ => .pure _
  · exact .ite (.bind (.ite (.ok _) .panic) fun _ => .pure _) (.bind (.ite (.ok _) .panic) fun _ => .pure _)
  · obtain ⟨_, ha⟩ := ha
    obtain ⟨_, hc⟩ := hc
    simp only [M.lift_apply] at ha hc
    rw [toVec_length, sliceAssign_shape ha]
    congr 1
    split at hc
    · rw [Outcome.bind_eq_ok] at hc
      obtain ⟨x, hx, hc⟩ := hc
      cases hc
      exact fromShapeVec_shape hx
    · rw [Outcome.bind_eq_ok] at hc
      obtain ⟨x, hx, hc⟩ := hc
      cases hc
      rw [← hnom]
      exact fromShapeVec_shape hx

theorem zipOutcome_length {f : Nat → Nat → Outcome Nat} {l l' r : List Nat} (h : zipOutcome f l l' = .ok r) :
    r.length = min l.length l'.length := by
  induction l generalizing l' r with
  | nil => unfold zipOutcome at h; cases h; simp
  | cons a l ih =>
    cases l' with
    | nil => unfold zipOutcome at h; cases h; simp
    | cons b l' =>
      simp only [zipOutcome, Outcome.bind_eq_ok] at h
      obtain ⟨x, _, xs, h2, h3⟩ := h
      cases h3
      simp [ih h2]

theorem toSlice_shape {off s : List Nat} (h : off.length = s.length) :
    ((BBox.mk off s).toSlice.map fun r => r.2 - r.1) = s := by
  induction off generalizing s with
  | nil => cases s <;> simp_all [BBox.toSlice]
  | cons a off ih =>
    cases s with
    | nil => simp at h
    | cons b s =>
      have := ih (s := s) (by simpa using h)
      simp only [BBox.toSlice, BBox.end, List.zipWith_cons_cons, List.zip_cons_cons, List.map_cons] at this ⊢
      rw [this]
      congr 1; omega

theorem callErr_writeCoord (hraw : m.compressor = .raw) (hlt : m.chunkShape.prod < 2 ^ 32) {bbox : BBox} (fill : El t)
    (array : NdArr (El t)) (pos : List Nat) (hpl : pos.length = m.chunkShape.length)
    (h1 : bbox.offset.length = m.chunkShape.length) (h2 : bbox.shape.length = m.chunkShape.length)
    (existing : List (El t)) : CallErr NotData (writeCoord env h path m bbox fill array pos existing) := by
  have hck : (chunkOffset pos m.chunkShape).length = m.chunkShape.length := by simp [hpl]
  unfold writeCoord
  refine .bind (.lift (onlyErr_intersect _ _)) fun w hw => .bind (.lift (onlyErr_sub _ _)) fun a ha =>
    .bind (.lift (onlyErr_slice _ _)) fun v hv => .ite (fun hf => .bind (callErr_writeChunk hraw hlt _ ?_) fun _ _ => .pure _)
      fun _ => callErr_writePartial hraw hlt _ _ _ _ rfl _ _
  obtain ⟨_, hw⟩ := hw
  obtain ⟨_, ha⟩ := ha
  obtain ⟨_, hv⟩ := hv
  simp only [M.lift_apply] at hw ha hv
  subst hf
  simp only [BBox.sub, Outcome.bind_eq_ok] at ha
  obtain ⟨off, ho, ha⟩ := ha
  cases ha
  rw [toVec_length]
  congr 1
  unfold NdArr.slice at hv
  split at hv
  · cases hv
    refine toSlice_shape ?_
    rw [zipOutcome_length ho, h1]
    simp [ArrayMetadata.chunkBounds, hpl]
  · cases hv

theorem callErr_writeLoop (hraw : m.compressor = .raw) (hlt : m.chunkShape.prod < 2 ^ 32) {bbox : BBox} (fill : El t)
    (array : NdArr (El t)) (h1 : bbox.offset.length = m.chunkShape.length)
    (h2 : bbox.shape.length = m.chunkShape.length) :
    ∀ (l : List (List Nat)) (_ : ∀ pos ∈ l, pos.length = m.chunkShape.length) (existing : List (El t)),
      CallErr NotData (writeLoop env h path m bbox fill array l existing)
  | [], _, _ => .pure _
  | pos :: rest, hl, _ => .bind (callErr_writeCoord hraw hlt fill array pos (hl pos (by simp)) h1 h2 _) fun _ _ =>
      callErr_writeLoop hraw hlt fill array h1 h2 rest (fun p hp => hl p (by simp [hp])) _

theorem callErr_readLoop (hraw : m.compressor = .raw) (bbox : BBox) :
    ∀ (l : List (List Nat)) (arr : NdArr (El t)) (buf : Option (DataChunk t)),
      CallErr NotData (readLoop env h path m t bbox l arr buf)
  | [], _, _ => .pure _
  | pos :: rest, arr, buf => by
    unfold readLoop
    refine .bind ?_ fun r _ => ?_
    · cases buf with
      | none => exact .bind (callErr_readChunk hraw _) fun _ _ => .pure _
      | some b => exact .bind (callErr_readChunkInto hraw _ _) fun _ _ => .pure _
    · split
      · refine .bind (.lift ?_) fun _ _ => callErr_readLoop hraw bbox rest _ _
        exact .bind (onlyErr_intersect _ _) fun _ => .ite (.pure _) (.bind (onlyErr_sub _ _) fun _ =>
          .bind (onlyErr_sub _ _) fun _ => .bind (.ite (.ok _) .panic) fun _ => .bind (onlyErr_slice _ _) fun _ =>
          onlyErr_sliceAssign _ _ _)
      · exact callErr_readLoop hraw bbox rest _ _

/-- **C97** for boxes. `InvalidData` means that the dimensions do not fit (for an array without compression, with
fewer than 2^32 elements per chunk, and with a fill value of the element type), and then nothing is read or
written. A fill value that is not of the element type is an error of serde_json. -/
theorem C97_boxes (env : Env) (h : Hier) (path : Str) (m : ArrayMetadata) (t : RsType) (fs : Fs)
    (hraw : m.compressor = .raw) (hlt : m.chunkShape.prod < 2 ^ 32) (hl : m.shape.length = m.chunkShape.length) :
    (∀ bbox arr buf, (readNdarrayIntoWithBuffer env h path m t bbox arr buf fs).1 = .err .invalidData ↔
      ¬ (bbox.offset.length = m.shape.length ∧ arr.shape.length = m.shape.length ∧ bbox.shape = arr.shape)) ∧
    (∀ bbox, (readNdarray env h path m t bbox fs).1 = .err .invalidData ↔
      (∃ v, effectiveFillValue env m t = .ok v) ∧
        ¬ (bbox.offset.length = m.shape.length ∧ bbox.shape.length = m.shape.length)) ∧
    (∀ offset (array : NdArr (El t)),
      ((writeNdarray env h path m offset array fs).1 = .err .invalidData ↔
        array.shape.length ≠ m.shape.length) ∧
      (array.shape.length ≠ m.shape.length → (writeNdarray env h path m offset array fs).2 = fs)) ∧
    (∀ e, effectiveFillValue env m t = .err e → e = .json) := by
  have hread : ∀ bbox arr buf, (readNdarrayIntoWithBuffer env h path m t bbox arr buf fs).1 = .err .invalidData ↔
      ¬ (bbox.offset.length = m.shape.length ∧ arr.shape.length = m.shape.length ∧ bbox.shape = arr.shape) := by
    intro bbox arr buf
    unfold readNdarrayIntoWithBuffer
    by_cases h1 : bbox.offset.length ≠ m.shape.length ∨ m.shape.length ≠ arr.shape.length
    · rw [if_pos h1]
      simp only [M.lift_apply, true_iff]
      rintro ⟨h2, h3, _⟩
      exact h1.elim (fun h => h h2) (fun h => h h3.symm)
    · rw [if_neg h1]
      by_cases h2 : bbox.shape ≠ arr.shape
      · rw [if_pos h2]
        simp only [M.lift_apply, true_iff]
        exact fun h => h2 h.2.2
      · rw [if_neg h2]
        simp only [not_or, Decidable.not_not] at h1 h2
        refine iff_of_false (fun hc => ?_) (fun h => h ⟨h1.1, h1.2.symm, h2⟩)
        have : CallErr NotData (do
            let it ← M.lift (m.boundedCoordIter bbox)
            readLoop env h path m t bbox it.rest arr buf) :=
          .bind (.lift (onlyErr_boundedCoordIter _ _)) fun _ _ => callErr_readLoop hraw _ _ _ _
        exact this fs _ hc rfl
  refine ⟨hread, fun bbox => ?_, fun offset array => ?_, onlyErr_fill env m t⟩
  · rw [readNdarray, M.bind_apply, M.lift_apply]
    cases hf : effectiveFillValue env m t with
    | err e =>
      have := onlyErr_fill env m t e hf
      subst this
      simp
    | panic => simp
    | ok v =>
      simp only [Outcome.ok.injEq, exists_eq', true_and]
      have := hread bbox (NdArr.fromElem bbox.shape v) none
      rw [readNdarrayInto, M.bind_apply]
      simp only [NdArr.fromElem, and_true] at this ⊢
      rw [← this]
      cases readNdarrayIntoWithBuffer env h path m t bbox _ none fs with
      | mk r fs' => cases r <;> simp
  · unfold writeNdarray
    by_cases h1 : array.shape.length ≠ m.shape.length
    · rw [if_pos h1]
      simp [h1]
    · rw [if_neg h1]
      refine ⟨iff_of_false (fun hc => ?_) h1, fun h => absurd h h1⟩
      have h1 : array.shape.length = m.shape.length := Decidable.not_not.mp h1
      have : CallErr NotData (do
          let bbox : BBox := ⟨offset, array.shape⟩
          let fill ← M.lift (effectiveFillValue env m t)
          let it ← M.lift (m.boundedCoordIter bbox)
          writeLoop env h path m bbox fill array it.rest []) := by
        refine .bind (.lift ((onlyErr_fill _ _ _).mono fun e he => by rw [he]; decide)) fun fill _ =>
          .bind (.lift (onlyErr_boundedCoordIter _ _)) fun it hit => ?_
        obtain ⟨_, hit⟩ := hit
        rw [M.lift_apply] at hit
        have ho := boundedCoordIter_dim hit
        simp only at ho
        refine callErr_writeLoop hraw hlt fill array (ho.trans hl) (h1.trans hl) _ (fun pos hpos => ?_) _
        by_cases hn : m.shape = []
        · obtain ⟨_, _, h3, _⟩ := boundedCoordIter_ok hl (ho.trans h1.symm) hit
          have hc : m.chunkShape = [] := List.length_eq_zero_iff.mp (by rw [← hl, hn]; rfl)
          rw [h3, hn, hc] at hpos
          simp [boundedRanges, multiCartesian] at hpos
        · exact Touches.length ((mem_boundedCoordIter hl (ho.trans h1.symm) hn hit).mp hpos)
      exact this fs _ hc rfl

/-! ## Opening -/

theorem walk_notFound {fs : Fs} (hwf : fs.WF) : ∀ (p : List Str) (_ : Plain p) (cur : Loc),
    ((fs.walk cur p >>= fun l => match fs.get l with
      | none => .err .notFound
      | some _ => .panic : Outcome Unit) = .err .notFound) ↔
      fs.get (cur ++ p) = none ∧ ∀ q, q <+: p → q ≠ p → ∀ b, fs.get (cur ++ q) ≠ some (.file b)
  | [], _, cur => by
    simp only [Fs.walk, Outcome.bind_ok, List.append_nil]
    cases fs.get cur with
    | none =>
      simp only [true_and, true_iff]
      intro q hq hne
      exact absurd (List.prefix_nil.mp hq) hne
    | some n => simp
  | s :: ss, hp, cur => by
    have ih := walk_notFound hwf ss (fun hx => hp (List.mem_cons_of_mem _ hx)) (cur ++ [s])
    have hs : s ≠ dotdot := fun e => hp (by simp [e])
    unfold Fs.walk
    cases hg : fs.get cur with
    | none =>
      simp only [Outcome.bind_err, true_iff]
      have hnone : ∀ q, fs.get (cur ++ q) = none := by
        intro q
        cases hq : fs.get (cur ++ q) with
        | none => rfl
        | some n =>
          by_cases e : cur = cur ++ q
          · rw [← e, hg] at hq; cases hq
          · rw [hwf.dir_of_prefix (List.prefix_append _ _) e hq] at hg; cases hg
      exact ⟨hnone _, fun q _ _ b => by rw [hnone q]; simp⟩
    | some n =>
      cases n with
      | file b =>
        refine iff_of_false (by simp) fun h => h.2 [] (List.nil_prefix) (by simp) b (by simpa using hg)
      | dir =>
        simp only [if_neg hs]
        rw [ih]
        simp only [List.append_assoc, List.singleton_append]
        refine and_congr_right fun _ => ⟨fun h q hq hne b => ?_, fun h q hq hne b => ?_⟩
        · cases q with
          | nil => simp [hg]
          | cons x q =>
            obtain ⟨rfl, hq'⟩ := List.cons_prefix_cons.mp hq
            exact h q hq' (fun e => hne (by rw [e])) b
        · exact h (s :: q) (List.cons_prefix_cons.mpr ⟨rfl, hq⟩) (by simpa using hne) b

/-- **C97** for `open`. `NotFound` means that there is no `zarr.json` (and no file in the way), `InvalidData` that its
`zarr_format` does not end in a version requirement, and an error of kind `Other` that a version it does not
understand or an extension that must be understood is asked for. -/
theorem C97_open (env : Env) (base : Str) (fs : Fs) (hwf : fs.WF) (hb : Plain (segs base)) :
    let loc := segs base ++ [str!"zarr.json"]
    ((openHier env base fs).1 = .err .notFound ↔
      fs.get loc = none ∧ ∀ l, l <+: segs base → ∀ b, fs.get l ≠ some (.file b)) ∧
    ((openHier env base fs).1 = .err .invalidData ↔ ∃ b j e, fs.get loc = some (.file b) ∧
      env.json.raw b = some j ∧ EntryPointMetadata.fromJson j = .ok e ∧
      (∀ x ∈ e.extensions, x.mustUnderstand = false) ∧ VersionIs env e none) ∧
    ((openHier env base fs).1 = .err .other ↔ ∃ b j e, fs.get loc = some (.file b) ∧
      env.json.raw b = some j ∧ EntryPointMetadata.fromJson j = .ok e ∧
      ((∃ x ∈ e.extensions, x.mustUnderstand = true) ∨ VersionIs env e (some false))) := by
  intro loc
  simp only [versionIs_iff]
  have hpl : Plain loc := hb.append (by decide)
  have hfile : ∀ b, fs.get loc = some (.file b) → (openHier env base fs).1 =
      (parseEntryPoint env b >>= fun e => checkVersion env ⟨base, e⟩) := by
    intro b hg
    simp only [openHier, M.bind_apply, readEntryPointMetadata, M.read_apply, segs_entryPoint]
    rw [Fs.readFile_of_get hwf hpl hg, Outcome.bind_ok]
    cases parseEntryPoint env b <;> rfl
  have hother : (∀ b, fs.get loc ≠ some (.file b)) → ∃ e, (openHier env base fs).1 = .err e ∧
      e ≠ .invalidData ∧ e ≠ .other ∧ (e = .notFound ↔
        fs.get loc = none ∧ ∀ l, l <+: segs base → ∀ b, fs.get l ≠ some (.file b)) := by
    intro hn
    have hw := walk_notFound hwf loc hpl []
    simp only [List.nil_append] at hw
    have hq : (∀ q, q <+: loc → q ≠ loc → ∀ b, fs.get q ≠ some (.file b)) ↔
        ∀ l, l <+: segs base → ∀ b, fs.get l ≠ some (.file b) := by
      refine ⟨fun h l hl => h l (hl.trans (List.prefix_append _ _)) fun e => ?_, fun h q hq hne => ?_⟩
      · have := hl.length_le
        rw [e] at this
        simp only [loc, List.length_append, List.length_singleton] at this
        omega
      · rcases Fs.prefix_concat.mp hq with h' | h'
        · exact h q h'
        · exact absurd h' hne
    rw [hq] at hw
    have key : ∀ e, fs.readFile loc = .err e → (openHier env base fs).1 = .err e := by
      intro e he
      simp only [openHier, M.bind_apply, readEntryPointMetadata, M.read_apply, segs_entryPoint]
      rw [show Fs.readFile (segs base ++ [str!"zarr.json"]) fs = .err e from he]
      rfl
    suffices ∃ e, fs.readFile loc = .err e ∧ e ≠ .invalidData ∧ e ≠ .other ∧ (e = .notFound ↔
        fs.get loc = none ∧ ∀ l, l <+: segs base → ∀ b, fs.get l ≠ some (.file b)) by
      obtain ⟨e, h1, h2⟩ := this
      exact ⟨e, key e h1, h2⟩
    unfold Fs.readFile
    cases hlo : fs.locate loc with
    | panic => exact absurd hlo (Fs.walk_ne_panic _ _ _)
    | err e =>
      refine ⟨e, rfl, ?_, ?_, ?_⟩
      · exact onlyErr_walk fs loc [] e hlo
      · exact onlyErr_walk_other fs loc [] e hlo
      · rw [← hw, show fs.walk [] loc = .err e from hlo]; simp
    | ok l =>
      have := Fs.locate_plain_ok hpl hlo
      subst this
      cases hg : fs.get loc with
      | none =>
        refine ⟨.notFound, by simp [hg], by decide, by decide, ?_⟩
        simp only [hg, true_and, true_iff] at hw ⊢
        rw [← hw, show fs.walk [] loc = .ok loc from hlo]
        simp [hg]
      | some n =>
        cases n with
        | file b => exact absurd hg (hn b)
        | dir => exact ⟨.isADirectory, by simp [hg], by decide, by decide, by simp⟩
  have hopen : ∀ b, (parseEntryPoint env b >>= fun e => checkVersion env ⟨base, e⟩) =
      match env.json.raw b with
      | none => .err .json
      | some j => EntryPointMetadata.fromJson j >>= fun e =>
          if (e.extensions.any (·.mustUnderstand)) = true then .err .other
          else match env.versionReq (lastPiece e.zarrFormat) with
            | none => .err .invalidData
            | some true => .ok ⟨base, e⟩
            | some false => .err .other := by
    intro b
    unfold parseEntryPoint
    cases env.json.raw b with
    | none => rfl
    | some j =>
      simp only [Outcome.ofOption_some, Outcome.bind_ok]
      cases EntryPointMetadata.fromJson j with
      | err e => rfl
      | panic => rfl
      | ok e =>
        simp only [Outcome.bind_ok, checkExtensions, checkVersion, getVersion]
        cases hf : e.extensions.find? (·.mustUnderstand) with
        | some x =>
          rw [if_pos (by
            rw [List.any_eq_true]
            exact ⟨x, List.mem_of_find?_eq_some hf, List.find?_some hf⟩)]
          rfl
        | none =>
          rw [if_neg (by
            rw [List.any_eq_true]
            rintro ⟨x, hx, hm⟩
            exact (List.find?_eq_none.mp hf) x hx hm)]
          simp only [Outcome.bind_ok, Outcome.pure_def]
          cases env.versionReq (lastPiece e.zarrFormat) with
          | none => rfl
          | some v => cases v <;> rfl
  by_cases hn : ∃ b, fs.get loc = some (.file b)
  · obtain ⟨b, hg⟩ := hn
    rw [hfile b hg, hopen b]
    have h1 : ∀ {p : Bytes → Prop}, (∃ b', fs.get loc = some (.file b') ∧ p b') ↔ p b := by
      intro p
      rw [hg]
      exact ⟨fun ⟨b', e, h⟩ => by cases e; exact h, fun h => ⟨b, rfl, h⟩⟩
    simp only [exists_and_left, h1]
    cases env.json.raw b with
    | none => simp [hg]
    | some j =>
      simp only [Option.some.injEq, exists_eq_left']
      cases hj : EntryPointMetadata.fromJson j with
      | err e =>
        have := onlyErr_entryPoint j e hj
        subst this
        simp [hg, hj]
      | panic => simp [hg, hj]
      | ok e =>
        simp only [Outcome.bind_ok, hj, Outcome.ok.injEq, exists_eq_left', hg, reduceCtorEq, false_and, iff_false]
        by_cases ha : (e.extensions.any (·.mustUnderstand)) = true
        · rw [if_pos ha]
          simp only [List.any_eq_true] at ha
          refine ⟨by simp, ?_, ?_⟩
          · simp only [Outcome.err.injEq, reduceCtorEq, false_iff]
            rintro ⟨h2, _⟩
            obtain ⟨x, hx, hm⟩ := ha
            rw [h2 x hx] at hm; cases hm
          · exact iff_of_true rfl (.inl ha)
        · rw [if_neg ha]
          simp only [List.any_eq_true] at ha
          have ha' : ∀ x ∈ e.extensions, x.mustUnderstand = false := by
            intro x hx
            cases hm : x.mustUnderstand with
            | false => rfl
            | true => exact absurd ⟨x, hx, hm⟩ ha
          cases env.versionReq (lastPiece e.zarrFormat) with
          | none => simpa using ha'
          | some v =>
            cases v
            · simp
            · simpa using ha'
  · have hn' : ∀ b, fs.get loc ≠ some (.file b) := fun b hb => hn ⟨b, hb⟩
    obtain ⟨e, h1, h2, h3, h4⟩ := hother hn'
    rw [h1]
    refine ⟨by simpa using h4, ?_, ?_⟩
    · refine iff_of_false (by simpa using h2) ?_
      rintro ⟨b, _, _, hg, _⟩; exact hn' b hg
    · refine iff_of_false (by simpa using h3) ?_
      rintro ⟨b, _, _, hg, _⟩; exact hn' b hg

/-! ## Examples -/

/-- An array and a group with damaged attributes. -/
def Demo.errFs : Fs :=
  (storeSet Demo.hier str!"/meta/root/d.array.json" ([1], .ok ())
    (createGroup Demo.envJ Demo.hier str!"g" (writeChunk Demo.envJ Demo.hier str!"a" Demo.arr Demo.chunk
      (createArray Demo.envJ Demo.hier str!"a" Demo.arr Demo.emptyFs).2).2).2).2

/-- Every error of C97 for nodes is met, in a state that meets the hypotheses. -/
example : (fun fs : Fs => (getArrayMetadata Demo.envJ Demo.hier str!"g" fs).1 = .err .notFound ∧
    (listAttributes Demo.envJ Demo.hier str!"x" fs).1 = .err .notFound ∧
    (setAttributes Demo.envJ Demo.hier str!"x" [] fs).1 = .err .notFound ∧
    (listAttributes Demo.envJ Demo.hier str!"d" fs).1 = .err .json ∧
    (setAttributes Demo.envJ Demo.hier str!"d" [] fs).1 = .err .json ∧
    (createGroup Demo.envJ Demo.hier str!"a" fs).1 = .err .alreadyExists ∧
    (createArray Demo.envJ Demo.hier str!"g" Demo.arr fs).1 = .err .alreadyExists ∧
    Wide.wellFormed fs = true) Demo.errFs := by
  decide +kernel

/-- Every error of C97 for chunks and boxes. -/
example : (fun fs : Fs => (readChunk Demo.envJ Demo.hier str!"a" Demo.arr .i16 [1] fs).1 = .err .invalidInput ∧
    (writeChunk Demo.envJ Demo.hier str!"a" Demo.arr (⟨[1], [1#16]⟩ : DataChunk .u16) fs).1 = .err .invalidData ∧
    (readChunk Demo.envJ Demo.hier str!"a" Demo.arr .u16 [1]
      (writeChunk Demo.envJ Demo.hier str!"a" Demo.arr (⟨[1], [1#16]⟩ : DataChunk .u16) fs).2).1 = .err .unexpectedEof ∧
    (writeChunk Demo.envJ Demo.hier str!"a" Demo.arr (⟨[1], [1#16, 2#16]⟩ : DataChunk .i16) fs).1 =
      .err .invalidInput ∧
    errOf (readNdarray Demo.envJ Demo.hier str!"a" Demo.arr .u16 ⟨[0, 0], [1, 1]⟩ fs).1 = some .invalidData ∧
    errOf (writeNdarray Demo.envJ Demo.hier str!"a" Demo.arr [0] (⟨[1, 1], fun _ => 0#16⟩ : NdArr (El .u16)) fs).1 =
      some .invalidData ∧
    effective Demo.arr.dataType = some (.uint .B2 .big) ∧ Demo.arr.compressor = .raw) Demo.errFs := by
  decide +kernel

/-- A file where a directory is needed: creation fails though there is no node, so the hypothesis `Writable`
of `C97_nodes` is needed. The file is the document of another array. -/
example : (createArray Demo.envJ Demo.hier str!"a.array.json/b" Demo.arr Demo.errFs).1 = .err .notADirectory ∧
    nodeDoc Demo.hier Demo.errFs str!"a.array.json/b" = none := by
  decide +kernel

/-- The errors of `open`. -/
example : (openHier Demo.envJ str!"/h" Demo.emptyFs).1 = .err .notFound ∧
    (openHier { Demo.envJ with versionReq := fun _ => none } str!"/h"
      (openOrCreate Demo.envJ str!"/h" Demo.emptyFs).2).1 = .err .invalidData ∧
    (openHier { Demo.envJ with versionReq := fun _ => some false } str!"/h"
      (openOrCreate Demo.envJ str!"/h" Demo.emptyFs).2).1 = .err .other ∧
    (openHier Demo.envJ str!"/h" (openOrCreate Demo.envJ str!"/h" Demo.emptyFs).2).1 = .ok Demo.hier := by
  decide +kernel

end Zarr
