import Verif.Lemmas.Moved
import Verif.Props.Open
/-!
# A hierarchy can be moved or copied: C96
-/

namespace Zarr

/-! ## The specification -/

/-- Two calls return the same and leave directories that hold the same, if they start with directories
that hold the same. -/
def Spec.SameAt {α : Type} (b b' : Loc) (x x' : M Fs α) : Prop := ∀ fs fs', Moved b b' fs fs' →
  (x fs).1 = (x' fs').1 ∧ Moved b b' (x fs).2 (x' fs').2

open Spec

/-! ## Sorting does not depend on the order -/

theorem strLt_total (a b : Str) : strLt a b = true ∨ a = b ∨ strLt b a = true := by
  induction a generalizing b with
  | nil => cases b <;> simp [strLt]
  | cons x a ih =>
    cases b with
    | nil => simp [strLt]
    | cons y b =>
      simp only [strLt]
      by_cases h1 : x.toNat < y.toNat
      · simp [h1]
      · by_cases h2 : y.toNat < x.toNat
        · simp [h1, h2]
        · have e : x = y := Char.toNat_inj.mp (by omega)
          subst e
          simp only [h1, if_false, if_true, List.cons.injEq, true_and]
          exact ih b

theorem strLt_irrefl (a : Str) : strLt a a = false := by
  induction a with
  | nil => rfl
  | cons x a ih => simp [strLt, ih]

theorem strLt_trans {a b c : Str} (h1 : strLt a b = true) (h2 : strLt b c = true) : strLt a c = true := by
  induction a generalizing b c with
  | nil =>
    cases c with
    | nil => cases b <;> simp [strLt] at h1 h2
    | cons z c => simp [strLt]
  | cons x a ih =>
    cases b with
    | nil => simp [strLt] at h1
    | cons y b =>
      cases c with
      | nil => simp [strLt] at h2
      | cons z c =>
        simp only [strLt] at h1 h2 ⊢
        by_cases hxy : x.toNat < y.toNat
        · by_cases hyz : y.toNat < z.toNat
          · rw [if_pos (by omega)]
          · rw [if_neg hyz] at h2
            by_cases e : y = z
            · subst e; rw [if_pos hxy]
            · rw [if_neg e] at h2; simp at h2
        · rw [if_neg hxy] at h1
          by_cases e : x = y
          · subst e
            rw [if_pos rfl] at h1
            by_cases hyz : x.toNat < z.toNat
            · rw [if_pos hyz]
            · rw [if_neg hyz] at h2 ⊢
              by_cases e : x = z
              · subst e; rw [if_pos rfl] at h2 ⊢; exact ih h1 h2
              · rw [if_neg e] at h2; simp at h2
          · rw [if_neg e] at h1; simp at h1

theorem strLt_asymm {a b : Str} (h : strLt a b = true) : strLt b a = false := by
  cases hc : strLt b a with
  | false => rfl
  | true => have := strLt_trans h hc; rw [strLt_irrefl] at this; simp at this

theorem sortInsert_comm (x y : Str) (l : List Str) :
    sortInsert x (sortInsert y l) = sortInsert y (sortInsert x l) := by
  have hxy : ∀ x y : Str, strLt x y = true → ∀ l, sortInsert x (sortInsert y l) = sortInsert y (sortInsert x l) := by
    intro x y hlt l
    have hn := strLt_asymm hlt
    induction l with
    | nil => simp [sortInsert, hlt, hn]
    | cons z l ih =>
      by_cases h1 : strLt z y = true
      · by_cases h2 : strLt z x = true
        · simp [sortInsert, h1, h2, ih]
        · simp [sortInsert, h1, h2, hlt]
      · have h2 : ¬ strLt z x = true := fun h => h1 (strLt_trans h hlt)
        simp [sortInsert, h1, h2, hlt, hn]
  rcases strLt_total x y with h | h | h
  · exact hxy x y h l
  · rw [h]
  · exact (hxy y x h l).symm

theorem sortStrs_perm {l l' : List Str} (h : l.Perm l') : sortStrs l = sortStrs l' := by
  induction h with
  | nil => rfl
  | cons x _ ih => simp only [sortStrs, ih]
  | swap x y l => exact sortInsert_comm y x _
  | trans _ _ ih1 ih2 => exact ih1.trans ih2

/-- Outcomes of functions that do not return errors, on permuted lists. -/
inductive PermRel : Outcome (List Str) → Outcome (List Str) → Prop
  | ok {l l' : List Str} (h : l.Perm l') : PermRel (.ok l) (.ok l')
  | panic : PermRel .panic .panic

theorem mapOutcome_perm {f : Str → Outcome Str} (hf : ∀ x e, f x ≠ .err e) {l l' : List Str} (h : l.Perm l') :
    PermRel (mapOutcome f l) (mapOutcome f l') := by
  induction h with
  | nil => exact .ok .nil
  | @cons x l1 l2 _ ih =>
    simp only [mapOutcome]
    cases hx : f x with
    | err e => exact absurd hx (hf x e)
    | panic => exact .panic
    | ok y =>
      simp only [Outcome.bind_ok]
      generalize mapOutcome f l1 = o at ih ⊢
      generalize mapOutcome f l2 = o' at ih ⊢
      cases ih with
      | ok h => exact .ok (h.cons _)
      | panic => exact .panic
  | swap x y l =>
    simp only [mapOutcome]
    cases hx : f x with
    | err e => exact absurd hx (hf x e)
    | panic =>
      cases hy : f y with
      | err e => exact absurd hy (hf y e)
      | panic => exact .panic
      | ok b => exact .panic
    | ok a =>
      cases hy : f y with
      | err e => exact absurd hy (hf y e)
      | panic => exact .panic
      | ok b =>
        simp only [Outcome.bind_ok]
        have hl : ∀ e, mapOutcome f l ≠ .err e := by
          induction l with
          | nil => simp [mapOutcome]
          | cons z l ih =>
            intro e
            simp only [mapOutcome]
            cases hz : f z with
            | err e => exact absurd hz (hf z e)
            | panic => simp
            | ok c =>
              simp only [Outcome.bind_ok]
              cases hm : mapOutcome f l with
              | err e => exact absurd hm (ih e)
              | panic => simp
              | ok c => simp
        cases hm : mapOutcome f l with
        | err e => exact absurd hm (hl e)
        | panic => exact .panic
        | ok c => exact .ok (.swap _ _ _)
  | trans _ _ ih1 ih2 =>
    revert ih1 ih2
    generalize mapOutcome f _ = a
    generalize mapOutcome f _ = b
    generalize mapOutcome f _ = c
    intro ih1 ih2
    cases ih1 with
    | ok h1 => cases ih2 with | ok h2 => exact .ok (h1.trans h2)
    | panic => cases ih2; exact .panic

theorem truncateBytes_ne_err (n : Nat) (s : Str) (e : ErrKind) : truncateBytes n s ≠ .err e := by
  induction s generalizing n e with
  | nil => cases n <;> simp [truncateBytes]
  | cons c s ih =>
    cases n with
    | zero => simp [truncateBytes]
    | succ n =>
      simp only [truncateBytes]
      split
      · cases h : truncateBytes (n + 1 - c.utf8Size) s with
        | err e => exact absurd h (ih _ _)
        | ok t => simp
        | panic => simp
      · simp

theorem listNodesOf_perm (env : Env) (sfx kp : Str) {ks ks' ps ps' : List Str} (hk : ks.Perm ks') (hp : ps.Perm ps') :
    listNodesOf env sfx kp ks ps = listNodesOf env sfx kp ks' ps' := by
  unfold listNodesOf
  simp only
  have h1 := mapOutcome_perm (f := fun k => truncateBytes (byteLen k - byteLen sfx) k)
    (fun x e => truncateBytes_ne_err _ _ _) (hk.filter (endsWith · sfx))
  generalize mapOutcome (fun k => truncateBytes (byteLen k - byteLen sfx) k) (ks.filter (endsWith · sfx)) = o at h1 ⊢
  generalize mapOutcome (fun k => truncateBytes (byteLen k - byteLen sfx) k) (ks'.filter (endsWith · sfx)) = o' at h1 ⊢
  cases h1 with
  | panic => rfl
  | @ok l l' h1 =>
    simp only [Outcome.bind_ok]
    have h2 := mapOutcome_perm (f := fun k => (do
        let n ← usizeSub env.overflowChecks (byteLen k) (byteLen sfx + 5 + 1)
        truncateBytes n k : Outcome Str)) (fun x e => by
      cases hu : usizeSub env.overflowChecks (byteLen x) (byteLen sfx + 5 + 1) with
      | err e =>
        unfold usizeSub at hu
        by_cases hc : byteLen sfx + 5 + 1 ≤ byteLen x
        · rw [if_pos hc] at hu; simp at hu
        · rw [if_neg hc] at hu; split at hu <;> simp at hu
      | panic => simp
      | ok n => simpa using truncateBytes_ne_err n x e) (h1.filter fun k => endsWith k str!"array" || endsWith k str!"group")
    revert h2
    generalize mapOutcome _ _ = o
    generalize mapOutcome _ _ = o'
    intro h2
    cases h2 with
    | panic => rfl
    | ok h2 =>
      simp only [Outcome.bind_ok]
      rw [sortStrs_perm (h2.append (hp.map _))]

/-! ## The calls -/

namespace Wide

theorem keyed_of_uses {α : Type} {h : Hier} {R W : Loc → Prop} {p : Threads.Prog α} (hp : p.Uses h R W) :
    (Prog.of p).Keyed := by
  induction p with
  | done r => trivial
  | _ => rename_i ih; exact ⟨(plain_append.mp hp.1).2, fun r => ih r (hp.2.2 r)⟩

theorem keyed_record {α β : Type} {p : Prog α} {f : Outcome α → β} (hp : p.Keyed) : (p.record f).Keyed := by
  induction p with
  | done r => trivial
  | erasePrefix key k ih => exact ⟨hp.1, hp.2.1, fun r => ih r (hp.2.2 r)⟩
  | listDir key k ih =>
    exact ⟨hp.1, fun r r' h => congrArg (fun q => q.record f) (hp.2.1 r r' h), fun r => ih r (hp.2.2 r)⟩
  | _ => rename_i ih; exact ⟨hp.1, fun r => ih r (hp.2 r)⟩

section
variable {h : Hier} {path : Str}

theorem keyed_remove (hs : GoodSuffix h.entry) (hp : Plain (segs path)) : (remove h path).Keyed := by
  refine keyed_bind (p := .erase _ .done) ⟨?_, fun _ => trivial⟩ fun _ =>
    keyed_bind (p := .erase _ .done) ⟨?_, fun _ => trivial⟩ fun _ =>
    keyed_bind (p := .erasePrefix _ .done) ⟨?_, ?_, fun _ => trivial⟩ fun _ => trivial
  · rw [segs_groupMetadataKey hs hp]; exact plain_extLast_meta hp (by simp)
  · rw [segs_arrayMetadataKey hs hp]; exact plain_extLast_meta hp (by simp)
  · rw [segs_dataPathKey]; exact Plain.append (a := [str!"data", str!"root"]) (by decide) hp
  · rw [segs_dataPathKey]; simp

theorem keyed_listNodes (env : Env) (hp : Plain (segs path)) : (listNodes env h path).Keyed := by
  refine ⟨?_, ?_, ?_⟩
  · rw [segs_append_sep, segs_canonicalizePath]
    exact Plain.append (a := segs metaRoot) (by decide) hp
  · intro r r' hr
    cases hr with
    | err e => rfl
    | panic => rfl
    | ok hk hp => show Prog.done _ = Prog.done _; simp only; rw [listNodesOf_perm env _ _ hk hp]
  · intro r; cases r <;> trivial

end

end Wide

theorem sameAt_of_keyed {α : Type} {h h' : Hier} (hb : Plain (segs h.base)) (hb' : Plain (segs h'.base))
    {P : Wide.Prog α} (hP : P.Keyed) {x x' : M Fs α} (h1 : ∀ fs, P.run h fs = x fs) (h2 : ∀ fs, P.run h' fs = x' fs) :
    SameAt (segs h.base) (segs h'.base) x x' := by
  intro fs fs' hs
  rw [← h1, ← h2]
  exact Wide.keyed_run hb hb' P hP hs

section
variable {env : Env} {h : Hier} {base' : Str} {path : Str}

/-- **C96.** A hierarchy behaves the same wherever it is: if two directories hold the same (possibly listed
in another order), every call on a handle for one and the same call on a handle for the other return the
same and leave directories that hold the same. Paths, base directories and chunk keys have no `..`
components; for `exists` and `array_exists` the metadata suffix has no inner dot. -/
theorem C96 (env : Env) (h : Hier) (base' : Str) (path : Str) (hb : Plain (segs h.base))
    (hb' : Plain (segs base')) (hs : GoodSuffix h.entry) (hp : Plain (segs path)) :
    let h' : Hier := { h with base := base' }
    let b := segs h.base
    let b' := segs base'
    SameAt b b' (getArrayMetadata env h path) (getArrayMetadata env h' path) ∧
    ('.' ∉ stripDot h.entry.metadataKeySuffix →
      SameAt b b' (nodeExists h path) (nodeExists h' path) ∧
      SameAt b b' (arrayExists env h path) (arrayExists env h' path)) ∧
    SameAt b b' (listAttributes env h path) (listAttributes env h' path) ∧
    SameAt b b' (listNodes env h path) (listNodes env h' path) ∧
    (∀ attrs, SameAt b b' (setAttributes env h path attrs) (setAttributes env h' path attrs)) ∧
    SameAt b b' (createGroup env h path) (createGroup env h' path) ∧
    (∀ m, SameAt b b' (createArray env h path m) (createArray env h' path m)) ∧
    SameAt b b' (remove h path) (remove h' path) ∧
    ∀ m : ArrayMetadata, GoodSep m.separator →
      (∀ t pos, SameAt b b' (readChunk env h path m t pos) (readChunk env h' path m t pos)) ∧
      (∀ t pos buf, SameAt b b' (readChunkInto env h path m t pos buf) (readChunkInto env h' path m t pos buf)) ∧
      (∀ t (c : DataChunk t), SameAt b b' (writeChunk env h path m c) (writeChunk env h' path m c)) ∧
      (∀ pos, SameAt b b' (deleteChunk h path m pos) (deleteChunk h' path m pos)) ∧
      (∀ t bbox, SameAt b b' (readNdarray env h path m t bbox) (readNdarray env h' path m t bbox)) ∧
      (∀ t bbox arr buf, SameAt b b' (readNdarrayIntoWithBuffer env h path m t bbox arr buf)
        (readNdarrayIntoWithBuffer env h' path m t bbox arr buf)) ∧
      (∀ t offset (array : NdArr (El t)), SameAt b b' (writeNdarray env h path m offset array)
        (writeNdarray env h' path m offset array)) := by
  intro h' b b'
  have ka : Plain (h.loc (arrayMetadataKey h.entry path)) := hb.append (by
    rw [segs_arrayMetadataKey hs hp]; exact plain_extLast_meta hp (by simp))
  have kg : Plain (h.loc (groupMetadataKey h.entry path)) := hb.append (by
    rw [segs_groupMetadataKey hs hp]; exact plain_extLast_meta hp (by simp))
  -- a call that is a program
  have call : ∀ {α : Type} {P : Threads.Prog α} {x x' : M Fs α},
      P.Uses h (fun _ => True) (fun _ => True) → P.run h = x → P.run h' = x' → SameAt b b' x x' := by
    intro α P x x' hu h1 h2
    refine sameAt_of_keyed (h := h) (h' := h') hb hb' (Wide.keyed_of_uses hu) ?_ ?_
    · intro fs; rw [Wide.run_of, h1]
    · intro fs; rw [Wide.run_of, h2]
  have ra : (fun _ : Loc => True) (h.loc (arrayMetadataKey h.entry path)) ∨
      (fun _ : Loc => True) (h.loc (arrayMetadataKey h.entry path)) := .inl trivial
  refine ⟨?_, ?_, ?_, ?_, ?_, ?_, ?_, ?_, ?_⟩
  · exact call (Threads.uses_getArrayMetadata ka (.inl trivial)) (Threads.run_getArrayMetadata h env path)
      (Threads.run_getArrayMetadata h' env path)
  · intro hd
    have ki : Plain (h.loc (setExtension (setExtension (groupMetadataKey h.entry path) []) [])) := hb.append (by
      rw [segs_implicitKey hs hd hp]
      exact Plain.append (a := [str!"meta", str!"root"]) (by decide) hp)
    exact ⟨call (Threads.uses_nodeExists ka kg (.inl trivial) (.inl trivial) ki trivial)
        (Threads.run_nodeExists h path) (Threads.run_nodeExists h' path),
      call (Threads.uses_arrayExists ka kg (.inl trivial) (.inl trivial) ki trivial)
        (Threads.run_arrayExists h env path) (Threads.run_arrayExists h' env path)⟩
  · exact call (Threads.uses_listAttributes ka kg (.inl trivial) (.inl trivial)) (Threads.run_listAttributes h env path)
      (Threads.run_listAttributes h' env path)
  · exact sameAt_of_keyed (h := h) (h' := h') hb hb' (Wide.keyed_listNodes env hp) (Wide.run_listNodes env path)
      (Wide.run_listNodes (h := h') env path)
  · intro attrs
    exact call (Threads.uses_setAttributes ka kg (.inl trivial) (.inl trivial) attrs trivial trivial)
      (Threads.run_setAttributes h env path attrs) (Threads.run_setAttributes h' env path attrs)
  · exact call (Threads.uses_createGroup ka kg (.inl trivial) (.inl trivial) trivial) (Threads.run_createGroup h env path)
      (Threads.run_createGroup h' env path)
  · intro m
    exact call (Threads.uses_createArray ka kg (.inl trivial) (.inl trivial) m trivial)
      (Threads.run_createArray h env path m) (Threads.run_createArray h' env path m)
  · exact sameAt_of_keyed (h := h) (h' := h') hb hb' (Wide.keyed_remove hs hp) (Wide.run_remove path)
      (Wide.run_remove (h := h') path)
  · intro m hm
    have kc : ∀ pos, Plain (h.loc (chunkKey path m pos)) := fun pos => hb.append (plain_segs_chunkKey hp hm pos)
    refine ⟨?_, ?_, ?_, ?_, ?_, ?_, ?_⟩
    · intro t pos
      exact call (Threads.uses_readChunk (kc pos) (.inl trivial)) (Threads.run_readChunk h env path m t pos)
        (Threads.run_readChunk h' env path m t pos)
    · intro t pos buf
      exact call (Threads.uses_readChunkInto (kc pos) (.inl trivial)) (Threads.run_readChunkInto h env path m t pos buf)
        (Threads.run_readChunkInto h' env path m t pos buf)
    · intro t c
      exact call (Threads.uses_set (kc c.gridPosition) trivial) (Threads.run_writeChunk h env path m c)
        (Threads.run_writeChunk h' env path m c)
    · intro pos
      exact call (Threads.uses_erase (kc pos) trivial) (Threads.run_deleteChunk h path m pos)
        (Threads.run_deleteChunk h' path m pos)
    · intro t bbox
      exact call (Threads.uses_readNdarray kc fun _ _ _ _ => .inl trivial) (Threads.run_readNdarray h env path m t bbox)
        (Threads.run_readNdarray h' env path m t bbox)
    · intro t bbox arr buf
      refine call (P := Threads.readNdarrayIntoWithBuffer env path m t bbox arr buf) ?_ ?_ ?_
      · exact .ite (Threads.uses_lift _) (.ite (Threads.uses_lift _) ((Threads.uses_lift _).bind fun it =>
          Threads.uses_readLoop _ _ _ kc fun _ _ => .inl trivial))
      · simp only [Threads.readNdarrayIntoWithBuffer, Zarr.readNdarrayIntoWithBuffer, Threads.Prog.run_bind,
          Threads.run_ite, Threads.run_readLoop]
        rfl
      · simp only [Threads.readNdarrayIntoWithBuffer, Zarr.readNdarrayIntoWithBuffer, Threads.Prog.run_bind,
          Threads.run_ite, Threads.run_readLoop]
        rfl
    · intro t offset array
      exact call (Threads.uses_writeNdarray kc fun _ _ _ _ => trivial) (Threads.run_writeNdarray h env path m offset array)
        (Threads.run_writeNdarray h' env path m offset array)

/-! ## Histories -/

namespace Wide

theorem keyed_call {md : List Str → ArrayMetadata} {c : WCall} (hb : Plain (segs h.base)) (hs : GoodSuffix h.entry)
    (hd : '.' ∉ stripDot h.entry.metadataKeySuffix) (hm : ∀ q, GoodSep (md q).separator)
    (hp : Plain (segs c.path)) : (callProg env h md c).Keyed := by
  have ka : ∀ q, Plain (segs q) → Plain (h.loc (arrayMetadataKey h.entry q)) := fun q hq => hb.append (by
    rw [segs_arrayMetadataKey hs hq]; exact plain_extLast_meta hq (by simp))
  have kg : ∀ q, Plain (segs q) → Plain (h.loc (groupMetadataKey h.entry q)) := fun q hq => hb.append (by
    rw [segs_groupMetadataKey hs hq]; exact plain_extLast_meta hq (by simp))
  have ki : ∀ q, Plain (segs q) → Plain (h.loc (setExtension (setExtension (groupMetadataKey h.entry q) []) [])) :=
    fun q hq => hb.append (by
      rw [segs_implicitKey hs hd hq]
      exact Plain.append (a := [str!"meta", str!"root"]) (by decide) hq)
  have kc : ∀ q, Plain (segs q) → ∀ pos, Plain (h.loc (chunkKey q (md (segs q)) pos)) := fun q hq pos =>
    hb.append (plain_segs_chunkKey hq (hm _) pos)
  have lift : ∀ {γ : Type} {P : Threads.Prog γ}, P.Uses h (fun _ => True) (fun _ => True) → (Prog.of P).Keyed :=
    fun hp => keyed_of_uses hp
  have tl : ∀ {P : Threads.Prog HResult}, P.Uses h (fun _ => True) (fun _ => True) →
      ((Prog.of P).bind fun r => .done (.ok (WResult.plain (.plain r)))).Keyed :=
    fun hp => keyed_bind (lift hp) fun _ => trivial
  cases c with
  | listNodes p => exact keyed_record (keyed_listNodes env hp)
  | call c =>
    cases c with
    | readBox p t b => exact keyed_record (lift (Threads.uses_readNdarray (kc p hp) fun _ _ _ _ => .inl trivial))
    | writeBox p t o a => exact keyed_record (lift (Threads.uses_writeNdarray (kc p hp) fun _ _ _ _ => trivial))
    | call c =>
      cases c with
      | remove p => exact keyed_record (keyed_remove hs hp)
      | createGroup p => exact tl (Threads.uses_createGroup (ka p hp) (kg p hp) (.inl trivial) (.inl trivial) trivial).record
      | createArray p m =>
        exact tl (Threads.uses_createArray (ka p hp) (kg p hp) (.inl trivial) (.inl trivial) m trivial).record
      | setAttributes p b =>
        exact tl (Threads.uses_setAttributes (ka p hp) (kg p hp) (.inl trivial) (.inl trivial) b trivial trivial).record
      | nodeExists p =>
        exact tl (Threads.uses_nodeExists (ka p hp) (kg p hp) (.inl trivial) (.inl trivial) (ki p hp) trivial).record
      | arrayExists p =>
        exact tl (Threads.uses_arrayExists (ka p hp) (kg p hp) (.inl trivial) (.inl trivial) (ki p hp) trivial).record
      | getArrayMetadata p => exact tl (Threads.uses_getArrayMetadata (ka p hp) (.inl trivial)).record
      | listAttributes p =>
        exact tl (Threads.uses_listAttributes (ka p hp) (kg p hp) (.inl trivial) (.inl trivial)).record
      | writeChunk p t c => exact tl (Threads.Prog.Uses.record (Threads.uses_set (kc p hp _) trivial))
      | deleteChunk p pos => exact tl (Threads.Prog.Uses.record (Threads.uses_erase (kc p hp _) trivial))
      | readChunk p t pos => exact tl (Threads.uses_readChunk (kc p hp _) (.inl trivial)).record

end Wide

/-- **C96** for histories: a program that makes calls one after the other sees the same in both places. -/
theorem C96_history (env : Env) (h : Hier) (base' : Str) (md : List Str → ArrayMetadata) (cs : List WCall)
    (hb : Plain (segs h.base)) (hb' : Plain (segs base')) (hs : GoodSuffix h.entry)
    (hd : '.' ∉ stripDot h.entry.metadataKeySuffix) (hm : ∀ q, GoodSep (md q).separator)
    (hp : ∀ c ∈ cs, Plain (segs c.path)) (fs fs' : Fs) (hmv : Moved (segs h.base) (segs base') fs fs') :
    wResults env h md cs fs = wResults env { h with base := base' } md cs fs' ∧
    Moved (segs h.base) (segs base') (wState env h md cs fs) (wState env { h with base := base' } md cs fs') := by
  induction cs generalizing fs fs' with
  | nil => exact ⟨rfl, hmv⟩
  | cons c cs ih =>
    have e : Wide.callProg env { h with base := base' } md c = Wide.callProg env h md c := by
      cases c with
      | listNodes p => rfl
      | call c =>
        cases c with
        | readBox p t b => rfl
        | writeBox p t o a => rfl
        | call c => cases c <;> rfl
    obtain ⟨h1, h2⟩ := Wide.keyed_run (h := h) (h' := { h with base := base' }) hb hb' (Wide.callProg env h md c)
      (Wide.keyed_call hb hs hd hm (hp c (by simp))) hmv
    rw [← e, Wide.run_call, e, Wide.run_call] at h1 h2
    simp only [Outcome.ok.injEq] at h1
    simp only at h2
    obtain ⟨h3, h4⟩ := ih (fun c hc => hp c (List.mem_cons_of_mem _ hc)) _ _ h2
    exact ⟨by rw [wResults, wResults, h1, h3], h4⟩

end

/-! ## Opening -/

/-- **C96** for `open` and `open_or_create`: opened in the new place, the hierarchy has the same entry point
metadata; if it cannot be opened in one place it cannot be opened in the other, with the same error. -/
theorem C96_open (env : Env) (base base' : Str) (hb : Plain (segs base)) (hb' : Plain (segs base')) (fs fs' : Fs)
    (hmv : Moved (segs base) (segs base') fs fs') :
    let to (r : Outcome Hier) : Outcome Hier := r >>= fun h => .ok { h with base := base' }
    (Zarr.openHier env base' fs').1 = to (Zarr.openHier env base fs).1 ∧
    (Zarr.openOrCreate env base' fs').1 = to (Zarr.openOrCreate env base fs).1 ∧
    Moved (segs base) (segs base') (Zarr.openHier env base fs).2 (Zarr.openHier env base' fs').2 ∧
    Moved (segs base) (segs base') (Zarr.openOrCreate env base fs).2 (Zarr.openOrCreate env base' fs').2 := by
  intro to
  have hk : Plain [str!"zarr.json"] := by decide
  have hver : ∀ e : EntryPointMetadata, checkVersion env ⟨base', e⟩ = to (checkVersion env ⟨base, e⟩) := by
    intro e
    simp only [checkVersion]
    cases getVersion env e with
    | err e => rfl
    | panic => rfl
    | ok v => cases v <;> rfl
  have hread : (readEntryPointMetadata env base fs).1 = (readEntryPointMetadata env base' fs').1 := by
    simp only [readEntryPointMetadata, M.read_apply]
    rw [segs_entryPoint, segs_entryPoint, readFile_rel hb hb' hmv.rel hk]
  have hsame : ∀ b f, (readEntryPointMetadata env b f).2 = f := fun _ _ => rfl
  have hopen : (Zarr.openHier env base' fs').1 = to (Zarr.openHier env base fs).1 := by
    simp only [Zarr.openHier, M.bind_apply]
    rw [(Prod.eta (readEntryPointMetadata env base fs)).symm, (Prod.eta (readEntryPointMetadata env base' fs')).symm, ← hread]
    cases (readEntryPointMetadata env base fs).1 with
    | err e => rfl
    | panic => rfl
    | ok e => exact hver e
  have hro : Moved (segs base) (segs base') (Zarr.openHier env base fs).2 (Zarr.openHier env base' fs').2 := by
    rw [openHier_ro, openHier_ro]; exact hmv
  have hst : ∀ (c : Str) (g : Fs), g.WF → Plain (segs c) → g.get (segs c ++ [str!"zarr.json"]) ≠ none →
      Zarr.openOrCreate env c g = Zarr.openHier env c g := by
    intro c g hg hc hn
    have hs : (g.get (segs c ++ [str!"zarr.json"])).isSome = true := by
      cases h : g.get (segs c ++ [str!"zarr.json"]) with
      | none => exact absurd h hn
      | some n => rfl
    have hro : readEntryPointMetadata env c g = ((readEntryPointMetadata env c g).1, g) := rfl
    have hex : g.pathExists (segs (joinPath c entryPointKey)) = true := by
      simp [Fs.pathExists, segs_entryPoint, Fs.node_plain hg (hc.append hk), hs]
    simp only [Zarr.openOrCreate, hex, if_true, Zarr.openHier, M.bind_apply]
    rw [hro]
    cases (readEntryPointMetadata env c g).1 <;> rfl
  by_cases hn : fs.get (segs base ++ [str!"zarr.json"]) = none
  · have hn' : fs'.get (segs base' ++ [str!"zarr.json"]) = none := by rw [← hmv.same]; exact hn
    have hmk : ∀ (c : Str) (g : Fs), g.WF → Plain (segs c) → g.get (segs c) = some .dir →
        g.get (segs c ++ [str!"zarr.json"]) = none → ∃ g', g'.WF ∧
        Zarr.openOrCreate env c g = (checkVersion env ⟨c, EntryPointMetadata.default⟩, g') ∧
        ∀ l, g'.get l = setSpec g (segs c ++ [str!"zarr.json"]) (env.json.print EntryPointMetadata.default.toJson) l := by
      intro c g hg hc hd hn
      have hw : Writable g (segs c ++ [str!"zarr.json"]) := by
        refine ⟨fun l hl hne b => ?_, by rw [hn]; simp⟩
        rcases Fs.prefix_concat.mp hl with h | h
        · rw [rooted_of_wf hg hd l h]; simp
        · exact absurd h hne
      obtain ⟨g', h1, h2, h3⟩ := (createEntryPoint_spec (env := env) hg hc hn).1 hw
      have hex : g.pathExists (segs (joinPath c entryPointKey)) = false := by
        simp [Fs.pathExists, segs_entryPoint, Fs.node_plain hg (hc.append hk), hn]
      exact ⟨g', h2, by simp [Zarr.openOrCreate, hex, h1], h3⟩
    obtain ⟨g, w1, e1, s1⟩ := hmk base fs hmv.left hb hmv.leftDir hn
    obtain ⟨g', w2, e2, s2⟩ := hmk base' fs' hmv.right hb' hmv.rightDir hn'
    have hdir : ∀ (c : Loc) (f : Fs), f.get c = some .dir → ∀ v, setSpec f (c ++ [str!"zarr.json"]) v c = some .dir := by
      intro c f hd v
      rw [setSpec, if_neg (by intro e; have := congrArg List.length e; simp at this), if_neg (by rw [hd]; simp), hd]
    refine ⟨hopen, by rw [e1, e2]; exact hver _, hro, ?_⟩
    rw [e1, e2]
    refine ⟨w1, w2, ?_, ?_, fun l => ?_⟩
    · simp only; rw [s1]; exact hdir _ _ hmv.leftDir _
    · simp only; rw [s2]; exact hdir _ _ hmv.rightDir _
    · simp only
      rw [s1, s2, setSpec, setSpec, hmv.same]
      simp only [List.append_cancel_left_eq, List.prefix_append_right_inj]
  · have hn' : fs'.get (segs base' ++ [str!"zarr.json"]) ≠ none := by rw [← hmv.same]; exact hn
    rw [hst base fs hmv.left hb hn, hst base' fs' hmv.right hb' hn']
    exact ⟨hopen, hopen, hro, hro⟩

/-! ## Examples -/

/-- Entries put somewhere else. -/
def Demo.shift (b : Loc) (es : List (Loc × Node)) : List (Loc × Node) := es.map fun e => (b ++ e.1, e.2)

/-- What a hierarchy with an array with a chunk, and a group, holds. -/
def Demo.held : List (Loc × Node) :=
  below [str!"h"] (wState Demo.envJ Demo.hier (fun _ => Demo.arr)
    [.call (.call (.createArray str!"a" Demo.arr)), .call (.call (.createGroup str!"g")),
      .call (.call (.writeChunk str!"a" _ Demo.chunk))] Demo.emptyFs) |>.map fun e => (e.1.drop 1, e.2)

/-- The hierarchy at `/h`. -/
def Demo.placeA : Fs := ⟨([], .dir) :: Demo.shift [str!"h"] Demo.held⟩
/-- A copy at `/x/y`, in another order, beside another file. -/
def Demo.placeB : Fs :=
  ⟨([], .dir) :: ([str!"x"], .dir) :: ([str!"f"], .file [1]) :: Demo.shift [str!"x", str!"y"] Demo.held.reverse⟩

/-- `Moved` of concrete filesystems can be computed. -/
theorem moved_of_check {b b' : Loc} {fs fs' : Fs} (hw : Wide.wellFormed fs = true ∧ Wide.wellFormed fs' = true)
    (h : fs.get b = some .dir ∧ fs'.get b' = some .dir ∧
      (fs.ents.all fun e => decide (b <+: e.1 → fs'.get (b' ++ e.1.drop b.length) = some e.2)) = true ∧
      (fs'.ents.all fun e => decide (b' <+: e.1 → fs.get (b ++ e.1.drop b'.length) = some e.2)) = true) :
    Moved b b' fs fs' := by
  obtain ⟨h1, h2, h3, h4⟩ := h
  have half : ∀ {b b' : Loc} {fs fs' : Fs},
      (fs.ents.all fun e => decide (b <+: e.1 → fs'.get (b' ++ e.1.drop b.length) = some e.2)) = true →
      ∀ l n, fs.get (b ++ l) = some n → fs'.get (b' ++ l) = some n := by
    intro b b' fs fs' h l n hg
    have := List.all_eq_true.mp h _ (Fs.mem_of_lookup hg)
    simpa using this
  refine ⟨(Wide.wf_of_wellFormed hw.1).1, (Wide.wf_of_wellFormed hw.2).1, h1, h2, fun l => ?_⟩
  cases hg : fs.get (b ++ l) with
  | some n => rw [half h3 l n hg]
  | none =>
    cases hg' : fs'.get (b' ++ l) with
    | none => rfl
    | some n => rw [half h4 l n hg'] at hg; cases hg

example : Moved [str!"h"] [str!"x", str!"y"] Demo.placeA Demo.placeB :=
  moved_of_check (by decide +kernel) (by decide +kernel)

/-- The copy answers as the original does: the array is found, its chunk is read, the same names are listed. -/
example : (getArrayMetadata Demo.envJ Demo.hier str!"a" Demo.placeA).1 = .ok Demo.arr ∧
    (getArrayMetadata Demo.envJ { Demo.hier with base := str!"/x/y" } str!"a" Demo.placeB).1 = .ok Demo.arr ∧
    (readChunk Demo.envJ { Demo.hier with base := str!"/x/y" } str!"a" Demo.arr .u16 [1] Demo.placeB).1 =
      .ok (some Demo.chunk) ∧
    (listNodes Demo.envJ Demo.hier [] Demo.placeA).1 =
      (listNodes Demo.envJ { Demo.hier with base := str!"/x/y" } [] Demo.placeB).1 ∧
    (listNodes Demo.envJ Demo.hier [] Demo.placeA).1 ≠ .ok [] ∧
    Demo.placeA.children [str!"h", str!"meta", str!"root"] ≠
      Demo.placeB.children [str!"x", str!"y", str!"meta", str!"root"] := by
  decide +kernel

/-- The theorem for these two. -/
example : let h' : Hier := { Demo.hier with base := str!"/x/y" }
    let cs : List WCall := [.call (.call (.remove str!"g")), .call (.call (.createGroup str!"b/c")),
      .listNodes str!"b", .call (.call (.deleteChunk str!"a" [1]))]
    wResults Demo.envJ Demo.hier (fun _ => Demo.arr) cs Demo.placeA =
      wResults Demo.envJ h' (fun _ => Demo.arr) cs Demo.placeB :=
  (C96_history Demo.envJ Demo.hier str!"/x/y" (fun _ => Demo.arr) _ (by decide) (by decide) (by unfold GoodSuffix; decide)
    (by decide) (fun _ => .inl rfl) (by decide) Demo.placeA Demo.placeB (moved_of_check (by decide +kernel) (by decide +kernel))).1

/-- A hierarchy is made in the two places. -/
example : Moved [str!"h"] [str!"x", str!"y"] ⟨[([], .dir), ([str!"h"], .dir)]⟩
      ⟨[([], .dir), ([str!"x"], .dir), ([str!"x", str!"y"], .dir)]⟩ ∧
    (Zarr.openOrCreate Demo.envJ str!"/x/y" ⟨[([], .dir), ([str!"x"], .dir), ([str!"x", str!"y"], .dir)]⟩).1 =
      .ok { Demo.hier with base := str!"/x/y" } ∧
    (Zarr.openHier Demo.envJ str!"/h" ⟨[([], .dir), ([str!"h"], .dir)]⟩).1 = .err .notFound :=
  ⟨moved_of_check (by decide +kernel) (by decide +kernel), by decide +kernel⟩

end Zarr
