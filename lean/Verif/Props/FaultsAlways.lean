import Verif.Lemmas.Turns
import Verif.Props.Faults
import Verif.Props.SeenEmpty
import Verif.Props.LostNodes
/-!
# Failing system calls that go unnoticed, in every array and at every node: C87
-/

namespace Zarr.Threads

open Spec

variable {α : Type} {h : Hier} {pc pc1 : Pc α} {fs fs1 : Fs}

theorem runFaulty_append (pc : Pc α) (fs : Fs) (s s' : List (Option Fault)) :
    pc.runFaulty h fs (s ++ s') = (pc.runFaulty h fs s).bind fun r => r.1.runFaulty h r.2 s' := by
  induction s generalizing pc fs with
  | nil => rfl
  | cons f s ih =>
    simp only [List.cons_append, Pc.runFaulty]
    cases pc.stepFaulty h fs f with
    | none => rfl
    | some r => exact ih r.1 r.2

/-- Steps without failures. -/
theorem runFaulty_leads (hl : Leads h pc fs pc1 fs1) :
    ∃ n, pc.runFaulty h fs (List.replicate n none) = some (pc1, fs1) := by
  induction hl with
  | refl pc fs => exact ⟨0, rfl⟩
  | step hn _ ih =>
    obtain ⟨n, hr⟩ := ih
    refine ⟨n + 1, ?_⟩
    simp only [List.replicate_succ, Pc.runFaulty, Pc.stepFaulty, hn, Option.bind_some]
    exact hr

theorem failed_exists {key : Str} (k : Outcome Bool → Prog α) (f : Fault) (hp : Plain (h.loc key)) (fs : Fs) :
    (Pc.prog (.exists key k)).stepFaulty h fs (some f) = some (.prog (k (.ok false)), fs) := by
  obtain ⟨t, ht, _⟩ := getPath_loc hp
  simp [Pc.stepFaulty, Pc.failed, ht]

theorem failed_get {key : Str} (k : Outcome (Option Bytes) → Prog α) (f : Fault) (hp : Plain (h.loc key)) (fs : Fs) :
    (Pc.prog (.get key k)).stepFaulty h fs (some f) = some (.prog (k (.ok none)), fs) := by
  obtain ⟨t, ht, _⟩ := getPath_loc hp
  simp [Pc.stepFaulty, Pc.failed, ht]

theorem failed_erase {key : Str} (k : Outcome Bool → Prog α) (f : Fault) (hp : Plain (h.loc key)) (fs : Fs) :
    (Pc.prog (.erase key k)).stepFaulty h fs (some f) = some (.eraFinal (h.loc key) k, fs) := by
  obtain ⟨t, ht, hs⟩ := getPath_loc hp
  simp [Pc.stepFaulty, Pc.failed, ht, hs]

/-- **C87 (violated), `read_chunk` in general.** Whenever `read_chunk` would return a chunk, it returns `Ok(None)` if
the check whether the chunk exists fails, whatever the error. -/
theorem C87_violated_read_always (env : Env) (h : Hier) (path : Str) (m : ArrayMetadata) (t : RsType) (pos : List Nat)
    (fs : Fs) (hb : Plain (segs h.base)) (hp : Plain (segs path)) (hs : GoodSep m.separator) (c : DataChunk t)
    (hr : (Zarr.readChunk env h path m t pos fs).1 = .ok (some c)) (f : Fault) :
    (Pc.prog (readChunk env path m t pos)).runFaulty h fs [some f] = some (.prog (.done (.ok none)), fs) := by
  have hpl := plain_loc_chunk (h := h) (m := m) hb hp hs pos
  unfold Zarr.readChunk at hr
  simp only [M.bind_apply, M.lift_apply] at hr
  cases ha : assertInBounds m pos with
  | err e => rw [ha] at hr; cases hr
  | panic => rw [ha] at hr; cases hr
  | ok u =>
    unfold readChunk
    rw [ha]
    show (Pc.prog (.get (chunkKey path m pos) _)).runFaulty h fs _ = _
    simp only [Pc.runFaulty, failed_get _ f hpl fs, Option.bind_some]
    rfl

/-- **C87 (violated), `delete_chunk` in general.** If the two checks of `delete_chunk` whether the chunk exists fail, it
returns `Ok(true)`, that the chunk is gone, and nothing has changed. -/
theorem C87_violated_delete_always (h : Hier) (path : Str) (m : ArrayMetadata) (pos : List Nat)
    (fs : Fs) (hb : Plain (segs h.base)) (hp : Plain (segs path)) (hs : GoodSep m.separator) (f f' : Fault) :
    (Pc.prog (deleteChunk path m pos)).runFaulty h fs [some f, some f'] = some (.prog (.done (.ok true)), fs) := by
  have hpl := plain_loc_chunk (h := h) (m := m) hb hp hs pos
  unfold deleteChunk pErase
  simp only [Pc.runFaulty, failed_erase _ f hpl fs, Option.bind_some]
  rfl

/-- **C87 (violated), `exists` and `array_exists` in general.** If the three checks of `exists` fail, it returns
`Ok(false)` for whatever is there; so does `array_exists`. -/
theorem C87_violated_exists_always (env : Env) (h : Hier) (path : Str) (fs : Fs) (hb : Plain (segs h.base))
    (hp : Plain (segs path)) (hsfx : GoodSuffix h.entry) (hdot : '.' ∉ stripDot h.entry.metadataKeySuffix)
    (f f' f'' : Fault) :
    (Pc.prog (nodeExists h path)).runFaulty h fs [some f, some f', some f''] =
      some (.prog (.done (.ok false)), fs) ∧
    (Pc.prog (arrayExists env h path)).runFaulty h fs [some f, some f', some f''] =
      some (.prog (.done (.ok false)), fs) := by
  obtain ⟨h1, h2, h3⟩ := docs_plain hb hsfx hdot hp
  constructor
  · show (Pc.prog (.exists (arrayMetadataKey h.entry path) _)).runFaulty h fs _ = _
    simp only [Pc.runFaulty, failed_exists _ f h1 fs, Option.bind_some]
    show ((Pc.prog (.exists (groupMetadataKey h.entry path) _)).stepFaulty h fs _).bind _ = _
    simp only [failed_exists _ f' h2 fs, Option.bind_some]
    show ((Pc.prog (.exists _ _)).stepFaulty h fs _).bind _ = _
    simp only [failed_exists _ f'' h3 fs, Option.bind_some]
  · show (Pc.prog (.exists (arrayMetadataKey h.entry path) _)).runFaulty h fs _ = _
    simp only [Pc.runFaulty, failed_exists _ f h1 fs, Option.bind_some]
    show ((Pc.prog (.exists (groupMetadataKey h.entry path) _)).stepFaulty h fs _).bind _ = _
    simp only [failed_exists _ f' h2 fs, Option.bind_some]
    show ((Pc.prog (.exists _ _)).stepFaulty h fs _).bind _ = _
    simp only [failed_exists _ f'' h3 fs, Option.bind_some]
    rfl

/-- **C87 (violated), `create_group` in general.** At every array that is not also a group, and whose group document can
be written: if the check whether the array exists fails, `create_group` returns `Ok` and the path is an array and a
group; without the failure it returns an error. -/
theorem C87_violated_group_always (env : Env) (h : Hier) (path : Str) (fs : Fs) (hwf : fs.WF) (hb : Plain (segs h.base))
    (hp : Plain (segs path)) (hsfx : GoodSuffix h.entry) (b : Bytes) (ha : arrayDoc h fs path = some b)
    (hg : fs.get (docLoc h str!"group" path) = none) (f : Fault) :
    (Zarr.createGroup env h path fs).1 = .err .alreadyExists ∧
    ∃ n fs', (Pc.prog (createGroup env h path)).runFaulty h fs (some f :: List.replicate n none) =
        some (.prog (.done (.ok ())), fs') ∧
      arrayDoc h fs' path = some b ∧ groupDoc h fs' path = some (env.json.print GroupMetadata.default.toJson) := by
  have la := loc_arrayKey (h := h) hsfx hp
  have lg := loc_groupKey (h := h) hsfx hp
  have pa : Plain (h.loc (arrayMetadataKey h.entry path)) := by rw [la]; exact plain_docLoc hb hp (by simp)
  have pg : Plain (h.loc (groupMetadataKey h.entry path)) := by rw [lg]; exact plain_docLoc hb hp (by simp)
  have hne : h.loc (arrayMetadataKey h.entry path) ≠ h.loc (groupMetadataKey h.entry path) := by
    rw [la, lg]; exact docLoc_array_ne_group
  have hgd : groupDoc h fs path = none := by unfold groupDoc Fs.content; rw [hg]
  constructor
  · rw [createGroup_eq hwf hb hsfx hp, ha]; rfl
  · -- the directory of the array document is that of the group document
    have hw : Writable fs (h.loc (groupMetadataKey h.entry path)) := by
      rw [lg]
      refine ⟨fun l hl hl' x hx => ?_, by rw [hg]; simp⟩
      have hga : fs.get (docLoc h str!"array" path) = some (.file b) := Fs.content_eq_some.mp ha
      unfold docLoc appendName at hl hl' hga
      rw [← List.append_assoc] at hl hl' hga
      have hq := (List.prefix_concat_iff.mp hl).resolve_left hl'
      have hd := hwf.dir_of_prefix (hq.trans (List.prefix_append _ _)) (by
        rintro rfl
        have := hq.length_le
        simp at this
        omega) hga
      rw [hd] at hx
      cases hx
    obtain ⟨fs', u1, u2, u3⟩ := (storeSet_spec (env.json.print GroupMetadata.default.toJson, .ok ()) hwf pg).1 hw
    let P : Prog Unit := do
      let g ← pExists (groupMetadataKey h.entry path)
      if g then pure ()
      else pSet (groupMetadataKey h.entry path) (env.json.print GroupMetadata.default.toJson, .ok ())
    have hrun : P.run h fs = (.ok (), fs') := by
      simp only [P, Prog.run_bind, M.bind_apply]
      rw [show (pExists (groupMetadataKey h.entry path)).run h fs = storeExists h (groupMetadataKey h.entry path) fs from rfl]
      rw [storeExists_eq hwf pg, lg]
      show (if groupDoc h fs path |>.isSome then (pure () : Prog Unit) else _).run h fs = _
      rw [hgd]
      exact u1
    obtain ⟨n, hn⟩ := runFaulty_leads (leads_run (h := h) P fs)
    rw [hrun] at hn
    refine ⟨n, fs', ?_, ?_, ?_⟩
    · show (Pc.prog (.exists (arrayMetadataKey h.entry path) _)).runFaulty h fs _ = _
      simp only [Pc.runFaulty, failed_exists _ f pa fs, Option.bind_some]
      exact hn
    · rw [arrayDoc, ← la, (storeSet_frame hwf pg u1).2 _ hne, la]
      exact ha
    · rw [groupDoc, ← lg]
      exact Fs.content_eq_some.mpr (by rw [u3, setSpec, if_pos rfl])

/-- **C87 (violated), write on drop in general.** Every successful `write_chunk` of a chunk with elements, whether the
chunk was there before or not: if the device fails when the buffer is written on drop, `write_chunk` returns `Ok`
nevertheless, and the chunk can no longer be read, neither the old nor the new one. -/
theorem C87_violated_drop_always (env : Env) (h : Hier) (path : Str) (m : ArrayMetadata) {t : RsType} (c : DataChunk t)
    (fs fs' : Fs) (hwf : fs.WF) (hb : Plain (segs h.base)) (hp : Plain (segs path)) (hs : GoodSep m.separator)
    (hnn : NothingInNothing (codecOf env.codecs m.compressor)) (hlt : c.data.length < 2 ^ 32) (hne : c.data ≠ [])
    (hbytes : (writeChunkBytes env.codecs env.native m c).1 ≠ [])
    (hw : Zarr.writeChunk env h path m c fs = (.ok (), fs')) (e : ErrKind) :
    ∃ n fs1, (Pc.prog (writeChunk env path m c)).runFaulty h fs (List.replicate n none ++ [some ⟨e, true⟩]) =
        some (.prog (.done (.ok ())), fs1) ∧
      ∀ r, (Zarr.readChunk env h path m t c.gridPosition fs1).1 ≠ .ok r := by
  have hpl := plain_loc_chunk (h := h) (m := m) hb hp hs c.gridPosition
  have hok : (writeChunkBytes env.codecs env.native m c).2 = .ok () := storeSet_result_ok hw
  have hwr : Writable fs (h.loc (chunkKey path m c.gridPosition)) :=
    storeSet_isOk hwf hpl (b := true) (v := writeChunkBytes env.codecs env.native m c) (by
      have e : storeSet h (chunkKey path m c.gridPosition) (writeChunkBytes env.codecs env.native m c) fs = (.ok (), fs') := hw
      rw [e]; rfl)
  obtain ⟨fs1, q, s, hqs, hl, hwf1, hd, hg⟩ := leads_dirs (α := Unit) (writeChunkBytes env.codecs env.native m c) .done hwf
    hpl hwr
  have hnd : fs1.get (h.loc (chunkKey path m c.gridPosition)) ≠ some .dir := by rw [hg]; exact hwr.2
  obtain ⟨fs2, ho, hp2⟩ : ∃ fs2, Fs.openCreate (h.loc (chunkKey path m c.gridPosition)) fs1 =
      .ok (h.loc (chunkKey path m c.gridPosition), fs2) ∧
      (fs2.put (h.loc (chunkKey path m c.gridPosition)) (.file [])).WF := by
    rw [hqs] at hpl hnd ⊢
    rw [openCreate_plain hwf1 hpl hd]
    cases hx : fs1.get (q ++ [s]) with
    | none => exact ⟨_, rfl, hwf1.put_put hd (by rw [hx]; simp)⟩
    | some nd =>
      cases nd with
      | dir => exact absurd hx hnd
      | file b => exact ⟨_, rfl, hwf1.put_file hd hnd⟩
  have hlead : Leads h (.prog (writeChunk env path m c)) fs
      (.setWrite (h.loc (chunkKey path m c.gridPosition)) (writeChunkBytes env.codecs env.native m c) 0 .done)
      (fs2.put (h.loc (chunkKey path m c.gridPosition)) (.file [])) := by
    refine hl.trans (.step (by simp [Pc.next, ho]; exact ⟨rfl, rfl⟩) ?_)
    refine .step (pc1 := .setTrunc (h.loc (chunkKey path m c.gridPosition)) (writeChunkBytes env.codecs env.native m c) .done) (fs1 := fs2) (by simp [Pc.next]) ?_
    exact .one (by simp [Pc.next])
  obtain ⟨n, hn⟩ := runFaulty_leads hlead
  refine ⟨n, _, ?_, readChunk_nil hp2 hpl hnn hok hlt hne (Fs.content_eq_some.mpr (by rw [Fs.get_put]; simp))⟩
  rw [runFaulty_append, hn, Option.bind_some]
  simp only [Pc.runFaulty, Pc.stepFaulty, Pc.failed, if_pos (List.length_pos_iff.mpr hbytes), Option.bind_some, hok, if_true]

section
variable {β : Type}

theorem done_ok_bind (a : α) (g : α → Prog β) : (Prog.done (.ok a) >>= g) = g a := rfl
theorem done_err_bind (e : ErrKind) (g : α → Prog β) : (Prog.done (.err e) >>= g) = .done (.err e) := rfl
theorem done_panic_bind (g : α → Prog β) : (Prog.done .panic >>= g) = .done .panic := rfl
theorem get_bind (key : Str) (k : Outcome (Option Bytes) → Prog α) (g : α → Prog β) :
    (Prog.get key k >>= g) = .get key fun r => k r >>= g := rfl
theorem set_bind (key : Str) (v : Bytes × Outcome Unit) (k : Outcome Unit → Prog α) (g : α → Prog β) :
    (Prog.set key v k >>= g) = .set key v fun r => k r >>= g := rfl

/-- A program that stops without success. -/
theorem run_err {e : ErrKind} {fs fs' : Fs} {a : α} (hr : (Prog.done (.err e) : Prog α).run h fs = (.ok a, fs')) : False := by
  cases hr
theorem run_panic {fs fs' : Fs} {a : α} (hr : (Prog.done .panic : Prog α).run h fs = (.ok a, fs')) : False := by
  cases hr

end

/-- **C87 (violated), data lost in general.** A `write_ndarray` of a box that touches one chunk and does not cover it
(`pos` is the chunk, and its part in the box is not all of it). If the check whether the chunk exists fails, then
`write_ndarray` returns `Ok` and leaves what it would leave if the chunk had not been there: the elements of the
chunk outside the box are lost. -/
theorem C87_violated_write_always (env : Env) (h : Hier) (path : Str) (m : ArrayMetadata) {t : RsType}
    (offset : List Nat) (array : NdArr (El t)) (fs fs0 : Fs) (b : Bytes) (pos : List Nat) (it : CoordIter) (hwf : fs.WF)
    (hb : Plain (segs h.base)) (hp : Plain (segs path)) (hs : GoodSep m.separator)
    (hit : m.boundedCoordIter ⟨offset, array.shape⟩ = .ok it) (hone : it.rest = [pos])
    (hpart : (m.chunkBounds pos).intersect ⟨offset, array.shape⟩ ≠ .ok (m.chunkBounds pos))
    (hc : fs.content (chunkLoc h path m.separator pos) = some b)
    (hw : Zarr.writeNdarray env h path m offset array (fs.del (chunkLoc h path m.separator pos)) = (.ok (), fs0))
    (f : Fault) :
    ∃ n fs', (Pc.prog (writeNdarray env path m offset array)).runFaulty h fs (some f :: List.replicate n none) =
        some (.prog (.done (.ok ())), fs') ∧ ∀ l, fs'.get l = fs0.get l := by
  have hpl := plain_loc_chunk (h := h) (m := m) hb hp hs pos
  have hlc : h.loc (chunkKey path m pos) = chunkLoc h path m.separator pos := loc_chunkKey (hs.imp id (·.2))
  rw [← hlc] at hc hw
  have hg := Fs.content_eq_some.mp hc
  have hwf0 := hwf.del_file hg
  rw [← run_writeNdarray] at hw
  obtain ⟨k, hk, v, K, hk2, hK⟩ : ∃ k, writeNdarray env path m offset array = .get (chunkKey path m pos) k ∧
      ∃ v K, k (.ok none) = .set (chunkKey path m pos) v K ∧ ∀ r, K r = .done r := by
    by_cases hlen : ¬ array.shape.length = m.shape.length
    · simp only [writeNdarray, ne_eq, if_pos hlen, pLift] at hw; exact (run_err hw).elim
    rw [Decidable.not_not] at hlen
    simp only [writeNdarray, ne_eq, hlen, not_true_eq_false, if_false, pLift, hit] at hw ⊢
    cases h1 : effectiveFillValue env m t with
    | err e => simp only [h1, done_err_bind] at hw; exact (run_err hw).elim
    | panic => simp only [h1, done_panic_bind] at hw; exact (run_panic hw).elim
    | ok fill =>
    simp only [h1, done_ok_bind, hone, writeLoop, writeCoord, pLift] at hw ⊢
    cases h2 : (m.chunkBounds pos).intersect ⟨offset, array.shape⟩ with
    | err e => simp only [h2, done_err_bind] at hw; exact (run_err hw).elim
    | panic => simp only [h2, done_panic_bind] at hw; exact (run_panic hw).elim
    | ok wb =>
    have hwb : wb ≠ m.chunkBounds pos := by rintro rfl; exact hpart h2
    simp only [h2, done_ok_bind, hwb, if_false] at hw ⊢
    cases h3 : wb.sub offset with
    | err e => simp only [h3, done_err_bind] at hw; exact (run_err hw).elim
    | panic => simp only [h3, done_panic_bind] at hw; exact (run_panic hw).elim
    | ok ab =>
    simp only [h3, done_ok_bind] at hw ⊢
    cases h4 : array.slice ab.toSlice with
    | err e => simp only [h4, done_err_bind] at hw; exact (run_err hw).elim
    | panic => simp only [h4, done_panic_bind] at hw; exact (run_panic hw).elim
    | ok av =>
    simp only [h4, done_ok_bind, writePartial, readChunkInto, pLift] at hw ⊢
    cases h5 : assertInBounds m pos with
    | err e => simp only [h5, done_err_bind] at hw; exact (run_err hw).elim
    | panic => simp only [h5, done_panic_bind] at hw; exact (run_panic hw).elim
    | ok u =>
    simp only [h5, done_ok_bind, pGet, get_bind] at hw ⊢
    refine ⟨_, rfl, ?_⟩
    simp only [Prog.run, storeGet_eq hwf0 hpl] at hw
    have hn : (fs.del (h.loc (chunkKey path m pos))).content (h.loc (chunkKey path m pos)) = none := by
      unfold Fs.content; rw [Fs.get_del]; simp
    simp only [hn, done_ok_bind, pure, Bool.false_eq_true, if_false] at hw ⊢
    cases h6 : fromShapeVec Order.rowMajor (m.chunkBounds pos).shape
        (List.replicate (m.chunkBounds pos).shape.prod fill) with
    | err e => simp only [h6, Outcome.bind_err, done_err_bind] at hw; exact (run_err hw).elim
    | panic => simp only [h6, Outcome.bind_panic, done_panic_bind] at hw; exact (run_panic hw).elim
    | ok a =>
    simp only [h6, Outcome.bind_ok, done_ok_bind] at hw ⊢
    cases h7 : wb.sub (m.chunkBounds pos).offset with
    | err e => simp only [h7, done_err_bind] at hw; exact (run_err hw).elim
    | panic => simp only [h7, done_panic_bind] at hw; exact (run_panic hw).elim
    | ok cb =>
    simp only [h7, done_ok_bind] at hw ⊢
    cases h8 : a.sliceAssign cb.toSlice av with
    | err e => simp only [h8, done_err_bind] at hw; exact (run_err hw).elim
    | panic => simp only [h8, done_panic_bind] at hw; exact (run_panic hw).elim
    | ok a' =>
    refine ⟨_, _, rfl, fun r => ?_⟩
    cases r <;> rfl
  rw [hk] at hw ⊢
  have hn : (fs.del (h.loc (chunkKey path m pos))).content (h.loc (chunkKey path m pos)) = none := by
    unfold Fs.content; rw [Fs.get_del]; simp
  simp only [Prog.run, storeGet_eq hwf0 hpl, hn, hk2] at hw
  have hwr : Writable fs (h.loc (chunkKey path m pos)) := by
    refine ⟨fun l hl hne x hx => ?_, by rw [hg]; simp⟩
    rw [hwf.dir_of_prefix hl hne hg] at hx
    cases hx
  have hw0 : Writable (fs.del (h.loc (chunkKey path m pos))) (h.loc (chunkKey path m pos)) := by
    refine ⟨fun l hl hne x => ?_, by rw [Fs.get_del]; simp⟩
    rw [Fs.get_del, if_neg hne]
    exact hwr.1 l hl hne x
  obtain ⟨fs1, u1, _, u3⟩ := (storeSet_spec v hwf0 hpl).1 hw0
  obtain ⟨fs2, w1, _, w3⟩ := (storeSet_spec v hwf hpl).1 hwr
  rw [u1] at hw
  simp only [hK, Prog.run, M.lift_apply, Prod.mk.injEq] at hw
  obtain ⟨hv, rfl⟩ := hw
  obtain ⟨n, hr⟩ := runFaulty_leads (leads_run (h := h) (k (.ok none)) fs)
  refine ⟨n, fs2, ?_, fun l => ?_⟩
  · simp only [Pc.runFaulty, failed_get _ f hpl fs, Option.bind_some, hr]
    rw [hk2]
    simp only [Prog.run, w1, hK, M.lift_apply, hv]
  · rw [u3, w3]
    unfold setSpec
    by_cases hl : l = h.loc (chunkKey path m pos)
    · rw [if_pos hl, if_pos hl]
    · rw [if_neg hl, if_neg hl, Fs.get_del, if_neg hl]

/-! ## Concrete cases -/

theorem demoChunkFs_wf : demoChunkFs.WF := storeSet_wf Demo.emptyFs_wf (by decide)

/-- The example chunk is not found, not removed and not written, with any errors. -/
example (f f' : Fault) (e : ErrKind) :
    (Pc.prog (readChunk Demo.env Demo.path Demo.arr .u16 [1])).runFaulty Demo.hier demoChunkFs [some f] =
      some (.prog (.done (.ok none)), demoChunkFs) ∧
    (Pc.prog (deleteChunk Demo.path Demo.arr [1])).runFaulty Demo.hier demoChunkFs [some f, some f'] =
      some (.prog (.done (.ok true)), demoChunkFs) ∧
    ∃ n fs1, (Pc.prog (writeChunk Demo.env Demo.path Demo.arr Demo.chunk)).runFaulty Demo.hier demoChunkFs
        (List.replicate n none ++ [some ⟨e, true⟩]) = some (.prog (.done (.ok ())), fs1) ∧
      ∀ r, (Zarr.readChunk Demo.env Demo.hier Demo.path Demo.arr .u16 [1] fs1).1 ≠ .ok r := by
  refine ⟨C87_violated_read_always Demo.env Demo.hier Demo.path Demo.arr .u16 [1] demoChunkFs (by decide) (by decide)
    (.inl rfl) Demo.chunk rfl f, C87_violated_delete_always Demo.hier Demo.path Demo.arr [1] demoChunkFs (by decide)
    (by decide) (.inl rfl) f f', ?_⟩
  exact C87_violated_drop_always Demo.env Demo.hier Demo.path Demo.arr Demo.chunk demoChunkFs _ demoChunkFs_wf (by decide)
    (by decide) (.inl rfl) rawCodec_nothing (by decide) (by decide) (by decide +kernel) (Prod.ext (by decide +kernel) rfl) e

/-- A box of one element of the example chunk. -/
example (f : Fault) : ∃ n fs', (Pc.prog (writeNdarray Demo.env Demo.path Demo.arr (t := .u16) [2] (demoCell 9))).runFaulty
      Demo.hier demoChunkFs (some f :: List.replicate n none) = some (.prog (.done (.ok ())), fs') ∧
    ∀ l, fs'.get l = (Zarr.writeNdarray Demo.env Demo.hier Demo.path Demo.arr (t := .u16) [2] (demoCell 9)
      (demoChunkFs.del (chunkLoc Demo.hier Demo.path str!"/" [1]))).2.get l :=
  C87_violated_write_always Demo.env Demo.hier Demo.path Demo.arr [2] (demoCell 9) demoChunkFs _
    (writeChunkBytes Demo.env.codecs Demo.env.native Demo.arr Demo.chunk).1 [1] ⟨[[1]], 0, 1⟩ demoChunkFs_wf (by decide)
    (by decide) (.inl rfl) (by decide +kernel) rfl (by decide +kernel) (by decide +kernel)
    (Prod.ext (by decide +kernel) rfl) f

set_option maxRecDepth 20000 in
/-- The example array becomes a group as well, and is not found. -/
example (f f' f'' : Fault) : (∃ n fs', (Pc.prog (createGroup Demo.envJ Demo.hier str!"/a")).runFaulty Demo.hier demoArrayFs
      (some f :: List.replicate n none) = some (.prog (.done (.ok ())), fs') ∧
      (arrayDoc Demo.hier fs' str!"/a").isSome ∧ (groupDoc Demo.hier fs' str!"/a").isSome) ∧
    (Pc.prog (nodeExists Demo.hier str!"/a")).runFaulty Demo.hier demoArrayFs [some f, some f', some f''] =
      some (.prog (.done (.ok false)), demoArrayFs) ∧
    (Zarr.nodeExists Demo.hier str!"/a" demoArrayFs).1 = .ok true := by
  have hwf : demoArrayFs.WF := by
    have := run_wf (h := Demo.hier) (q := createArray Demo.envJ Demo.hier str!"/a" Demo.arr) (.of_uses (apiCall_uses
      (h := Demo.hier) (by decide) (by unfold GoodSuffix; decide) (by decide) (.createArray str!"/a" Demo.arr (by decide))))
      Demo.emptyFs_wf
    rw [run_createArray] at this
    exact this
  refine ⟨?_, (C87_violated_exists_always Demo.envJ Demo.hier str!"/a" demoArrayFs (by decide) (by decide)
    (by unfold GoodSuffix; decide) (by decide) f f' f'').1, by decide +kernel⟩
  obtain ⟨_, n, fs', h1, h2, h3⟩ := C87_violated_group_always Demo.envJ Demo.hier str!"/a" demoArrayFs hwf (by decide)
    (by decide) (by unfold GoodSuffix; decide) (arrayMetadataText Demo.envJ Demo.arr).1 (by decide +kernel)
    (by decide +kernel) f
  exact ⟨n, fs', h1, by rw [h2]; rfl, by rw [h3]; rfl⟩

end Zarr.Threads
