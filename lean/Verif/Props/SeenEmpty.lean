import Verif.Lemmas.Turns
import Verif.Props.ThreadCalls
import Verif.Props.CrashCalls
import Verif.Props.Errors
/-!
# Chunks and documents that are seen empty: the failing cases of C47 and C73
-/

namespace Zarr

open Spec

/-- The decoder finds nothing in an empty file: it fails, or ends before the first byte. -/
def Spec.NothingInNothing (c : Codec) : Prop := ∀ s, c.decode [] = .ok s → s.avail = []

theorem rawCodec_nothing : NothingInNothing rawCodec := by
  rintro s h
  cases h
  rfl

section
variable {env : Env} {h : Hier} {path : Str} {m : ArrayMetadata} {t : RsType} {fs : Fs}

/-- A chunk with elements is not in an empty file. -/
theorem readChunkBytes_nil {c : DataChunk t} {pos : List Nat} (hnn : NothingInNothing (codecOf env.codecs m.compressor))
    (hok : (writeChunkBytes env.codecs env.native m c).2 = .ok ()) (hlt : c.data.length < 2 ^ 32) (hne : c.data ≠ [])
    (r : DataChunk t) : readChunkBytes env.codecs env.native m t pos [] ≠ .ok r := by
  obtain ⟨d, _, hd, ht, hn, _⟩ := writeChunkBytes_ok hok
  rw [readChunkBytes_eq hd ht]
  have hpos : 0 < c.data.length := List.length_pos_iff.mpr hne
  have hm : m.chunkNumElements % 2 ^ 32 = c.data.length := by
    rw [← hn, Nat.mod_eq_of_lt hlt, Nat.mod_eq_of_lt hlt]
  rw [hm]
  cases hdec : (codecOf env.codecs m.compressor).decode [] with
  | err e => simp
  | panic => simp
  | ok s =>
    rw [Outcome.bind_ok, hnn s hdec, if_neg]
    · simp
    · have := Nat.mul_pos hpos t.size_pos
      simp only [List.length_nil]
      omega

theorem readChunk_nil {c : DataChunk t} (hwf : fs.WF) (hp : Plain (h.loc (chunkKey path m c.gridPosition)))
    (hnn : NothingInNothing (codecOf env.codecs m.compressor))
    (hok : (writeChunkBytes env.codecs env.native m c).2 = .ok ()) (hlt : c.data.length < 2 ^ 32) (hne : c.data ≠ [])
    (hc : fs.content (h.loc (chunkKey path m c.gridPosition)) = some []) (r : Option (DataChunk t)) :
    (readChunk env h path m t c.gridPosition fs).1 ≠ .ok r := by
  simp only [readChunk, M.bind_apply, M.lift_apply]
  cases assertInBounds m c.gridPosition with
  | err e => simp
  | panic => simp
  | ok u =>
    simp only [storeGet_eq hwf hp, hc]
    simp only [M.bind_apply, M.lift_apply]
    cases hx : readChunkBytes env.codecs env.native m t c.gridPosition [] with
    | err e => simp
    | panic => simp
    | ok x => exact absurd hx (readChunkBytes_nil hnn hok hlt hne x)

/-- **C73 (violated), in general.** Every successful `write_chunk` of a chunk with elements, whether the chunk was there
before or not, passes through a state in which the chunk cannot be read: neither the old nor the new one. -/
theorem C73_violated_always (env : Env) (h : Hier) (path : Str) (m : ArrayMetadata) {t : RsType} (c : DataChunk t)
    (fs fs' : Fs) (hwf : fs.WF) (hb : Plain (segs h.base)) (hp : Plain (segs path)) (hs : GoodSep m.separator)
    (hnn : NothingInNothing (codecOf env.codecs m.compressor)) (hlt : c.data.length < 2 ^ 32) (hne : c.data ≠ [])
    (hw : writeChunk env h path m c fs = (.ok (), fs')) :
    ∃ s ∈ writeChunkStates env h path m c fs, ∀ r, (readChunk env h path m t c.gridPosition s).1 ≠ .ok r := by
  have hpl := plain_loc_chunk (h := h) (m := m) hb hp hs c.gridPosition
  have hwr : Writable fs (h.loc (chunkKey path m c.gridPosition)) :=
    storeSet_isOk hwf hpl (b := true) (v := writeChunkBytes env.codecs env.native m c) (by
      have e : storeSet h (chunkKey path m c.gridPosition) (writeChunkBytes env.codecs env.native m c) fs = (.ok (), fs') := hw
      rw [e]; rfl)
  obtain ⟨s, hm, hc⟩ := setStates_prefix (value := (writeChunkBytes env.codecs env.native m c).1) hwf hpl hwr (Nat.zero_le _)
  exact ⟨s, hm, readChunk_nil (setStates_get hwf hpl hm).1 hpl hnn (storeSet_result_ok hw) hlt hne hc⟩

/-- The example chunk, over another one. -/
example : ∃ s ∈ writeChunkStates Demo.env Demo.hier Demo.path Demo.arr Demo.chunk Demo.chunkFs,
    ∀ r, (readChunk Demo.env Demo.hier Demo.path Demo.arr .u16 Demo.chunk.gridPosition s).1 ≠ .ok r := by
  obtain ⟨fs', hw⟩ : ∃ fs', writeChunk Demo.env Demo.hier Demo.path Demo.arr Demo.chunk Demo.chunkFs = (.ok (), fs') :=
    ⟨_, Prod.ext (by decide +kernel) rfl⟩
  exact C73_violated_always Demo.env Demo.hier Demo.path Demo.arr Demo.chunk Demo.chunkFs fs'
    ((storeSet_ok Demo.emptyFs_wf (by decide) (show storeSet Demo.hier _ _ _ = (.ok (), Demo.chunkFs) from
      Prod.ext (by decide +kernel) rfl)).2.2.1) (by decide) (by decide) (.inl rfl) rawCodec_nothing (by decide) (by decide) hw

namespace Threads

/-- **C47 (violated), for every chunk.** Let a thread write a chunk that is not there yet, and another thread read it at
the same time. There is an interleaving in which the write returns `Ok` and the read fails: it finds the file that
the write has made and not yet filled. Before the write the chunk is absent, afterwards it can be read. -/
theorem C47_violated_chunk (env : Env) (h : Hier) (md : List Str → ArrayMetadata) (path : Str) {t : RsType}
    (c : DataChunk t) (fs fs' : Fs) (hwf : fs.WF) (hb : Plain (segs h.base)) (hp : Plain (segs path))
    (hs : GoodSep (md (segs path)).separator) (hcodec : (codecOf env.codecs (md (segs path)).compressor).Lawful)
    (hnn : NothingInNothing (codecOf env.codecs (md (segs path)).compressor)) (hlt : c.data.length < 2 ^ 32)
    (hne : c.data ≠ []) (hin : (md (segs path)).inBounds c.gridPosition = .ok true)
    (hnew : (Zarr.readChunk env h path (md (segs path)) t c.gridPosition fs).1 = .ok none)
    (hw : Zarr.writeChunk env h path (md (segs path)) c fs = (.ok (), fs')) :
    ∃ (ps : List (Prog (List HResult))) (ts : List Nat) (s : Sys (List HResult)) (r : Outcome (Option (DataChunk t))),
      [[.writeChunk path t c], [.readChunk path t c.gridPosition]].map (threadProg env h md) = ps.map some ∧
      (Sys.initial fs ps).run h ts = some s ∧ s.result 0 = some (.ok [.unit (.ok ())]) ∧
      s.result 1 = some (.ok [.data (r >>= fun o => .ok (o.map fun c => ⟨t, c.data⟩))]) ∧ (∀ o, r ≠ .ok o) ∧
      (Zarr.readChunk env h path (md (segs path)) t c.gridPosition s.fs).1 = .ok (some c) := by
  have hpl := plain_loc_chunk (h := h) (m := md (segs path)) hb hp hs c.gridPosition
  obtain ⟨w1, w2, w3, w4⟩ := storeSet_ok hwf hpl hw
  have hc : fs.content (h.loc (chunkKey path (md (segs path)) c.gridPosition)) = none := by
    rw [(readChunk_file hwf hpl hin).1] at hnew
    revert hnew
    cases fs.content (h.loc (chunkKey path (md (segs path)) c.gridPosition)) with
    | none => exact fun _ => rfl
    | some b =>
      simp only
      cases readChunkBytes env.codecs env.native (md (segs path)) t c.gridPosition b <;> simp
  let K : Outcome Unit → Prog (List HResult) := fun r => .done (.ok [.unit r])
  let B : Prog (List HResult) := (readChunk env path (md (segs path)) t c.gridPosition).record
    (fun r => .data (r >>= fun o => .ok (o.map fun c => ⟨t, c.data⟩))) >>= fun r =>
        (pure [] : Prog (List HResult)) >>= fun rs => pure (r :: rs)
  have hB : ∀ x, B.run h x = (.ok [.data ((Zarr.readChunk env h path (md (segs path)) t c.gridPosition x).1 >>= fun o =>
      .ok (o.map fun c => ⟨t, c.data⟩))], x) := by
    intro x
    simp only [B, Prog.run_bind, M.bind_apply, Prog.run_record, run_readChunk, Zarr.readChunk_ro env h path _ t _ x]
    rfl
  obtain ⟨fs2, f1, f2, f3, ts, s, r1, r2, r3, r4⟩ := looked_in (h := h) (fs := fs) (B := B)
    (A := .set (chunkKey path (md (segs path)) c.gridPosition) (writeChunkBytes env.codecs env.native (md (segs path)) c) K)
    (.refl _ _) hwf hpl w1 hc (fun x => by rw [hB])
  rw [hB] at r4
  rw [w2] at r2 r3
  refine ⟨[_, _], ts, s, _, rfl, r1, r3, r4, readChunk_nil f1 hpl hnn w2 hlt hne f2, ?_⟩
  have hcont : s.fs.content (h.loc (chunkKey path (md (segs path)) c.gridPosition)) =
      some (writeChunkBytes env.codecs env.native (md (segs path)) c).1 := by
    rw [r2]
    exact Fs.content_eq_some.mpr (by simp only [K, Prog.run, M.lift_apply]; rw [Fs.get_put]; simp)
  have hwfs : s.fs.WF := by rw [r2]; exact f3
  rw [(readChunk_file hwfs hpl hin).1, hcont]
  have := C59_partial env h path (md (segs path)) c fs fs' hcodec hlt hin hw
  have hx := congrArg Prod.fst this
  rw [(readChunk_file w3 hpl hin).1, Fs.content_eq_some.mpr (by rw [w4, setSpec, if_pos rfl])] at hx
  exact hx

/-- Two threads, an empty hierarchy, and the example chunk. -/
example : ∃ (ps : List (Prog (List HResult))) (ts : List Nat) (s : Sys (List HResult)),
    [[.writeChunk Demo.path .u16 Demo.chunk], [.readChunk Demo.path .u16 Demo.chunk.gridPosition]].map
      (threadProg Demo.env Demo.hier fun _ => Demo.arr) = ps.map some ∧
    (Sys.initial Demo.emptyFs ps).run Demo.hier ts = some s ∧ s.result 0 = some (.ok [.unit (.ok ())]) ∧
    ∀ o, s.result 1 ≠ some (.ok [.data (.ok o)]) := by
  obtain ⟨fs', hw⟩ : ∃ fs', Zarr.writeChunk Demo.env Demo.hier Demo.path Demo.arr Demo.chunk Demo.emptyFs = (.ok (), fs') :=
    ⟨_, rfl⟩
  obtain ⟨ps, ts, s, r, h1, h2, h3, h4, h5, _⟩ := C47_violated_chunk Demo.env Demo.hier (fun _ => Demo.arr) Demo.path
    Demo.chunk Demo.emptyFs fs' Demo.emptyFs_wf (by decide) (by decide) (.inl rfl) rawCodec_lawful rawCodec_nothing
    (by decide) (by decide) (by decide) (by decide) hw
  refine ⟨ps, ts, s, h1, h2, h3, fun o => ?_⟩
  rw [h4]
  cases r with
  | ok x => exact absurd rfl (h5 x)
  | err e => simp
  | panic => simp

/-- **C47 (violated), for every array.** The same for the document of an array: while one thread creates an array at a
path where there is no node, another that calls `get_array_metadata` can fail because the document is there but
empty. -/
theorem C47_violated_array (env : Env) (h : Hier) (md : List Str → ArrayMetadata) (path : Str) (m : ArrayMetadata)
    (fs : Fs) (hj : env.json.Lawful) (hwf : fs.WF) (hb : Plain (segs h.base)) (hsfx : GoodSuffix h.entry)
    (hp : Plain (segs path)) (hna : arrayDoc h fs path = none) (hng : groupDoc h fs path = none)
    (ha : (Zarr.createArray env h path m fs).1 = .ok ()) :
    ∃ (ps : List (Prog (List HResult))) (ts : List Nat) (s : Sys (List HResult)),
      [[.createArray path m], [.getArrayMetadata path]].map (threadProg env h md) = ps.map some ∧
      (Sys.initial fs ps).run h ts = some s ∧ s.result 0 = some (.ok [.unit (.ok ())]) ∧
      s.result 1 = some (.ok [.metadata (.err .json)]) ∧
      arrayDoc h s.fs path = some (arrayMetadataText env m).1 := by
  have la := loc_arrayKey (h := h) hsfx hp
  have lg := loc_groupKey (h := h) hsfx hp
  have pa : Plain (h.loc (arrayMetadataKey h.entry path)) := by rw [la]; exact plain_docLoc hb hp (by simp)
  have pg : Plain (h.loc (groupMetadataKey h.entry path)) := by rw [lg]; exact plain_docLoc hb hp (by simp)
  have ea := createArray_eq (env := env) (m := m) hwf hb hsfx hp
  simp only [hna, hng, Option.isSome_none, Bool.false_eq_true, if_false] at ea
  rw [ea] at ha
  obtain ⟨fsa, hsa⟩ : ∃ x, storeSet h (arrayMetadataKey h.entry path) (arrayMetadataText env m) fs = (.ok (), x) :=
    ⟨_, Prod.ext ha rfl⟩
  obtain ⟨w1, w2, _, _⟩ := storeSet_ok hwf pa hsa
  have hc : fs.content (h.loc (arrayMetadataKey h.entry path)) = none := by rw [la]; exact hna
  let K : Outcome Unit → Prog (List HResult) := fun r => .done (.ok [.unit r])
  have hlead : Leads h (.prog ((createArray env h path m).record .unit >>= fun r =>
        (pure [] : Prog (List HResult)) >>= fun rs => pure (r :: rs))) fs
      (.prog (.set (arrayMetadataKey h.entry path) (arrayMetadataText env m) K)) fs := by
    refine Leads.trans (leads_exists (groupMetadataKey h.entry path) _) ?_
    rw [storeExists_eq hwf pg, lg]
    show Leads h (.prog (Prog.bind (Prog.record _ (Prog.bind (.done (.ok (groupDoc h fs path).isSome)) _)) _)) fs _ fs
    rw [hng]
    refine Leads.trans (leads_exists (arrayMetadataKey h.entry path) _) ?_
    rw [storeExists_eq hwf pa, la]
    show Leads h (.prog (Prog.bind (Prog.record _ (Prog.bind (.done (.ok (arrayDoc h fs path).isSome)) _)) _)) fs _ fs
    rw [hna]
    exact Leads.refl _ _
  let B : Prog (List HResult) := (getArrayMetadata env h path).record
    (fun r => .metadata (r >>= fun m => .ok ({ m with attributes := [] }, objGet m.attributes))) >>= fun r =>
        (pure [] : Prog (List HResult)) >>= fun rs => pure (r :: rs)
  have hB : ∀ x, B.run h x = (.ok [.metadata ((Zarr.getArrayMetadata env h path x).1 >>= fun m =>
      .ok ({ m with attributes := [] }, objGet m.attributes))], x) := by
    intro x
    simp only [B, Prog.run_bind, M.bind_apply, Prog.run_record, run_getArrayMetadata, Zarr.getArrayMetadata_ro env h path x]
    rfl
  obtain ⟨fs2, f1, f2, f3, ts, s, r1, r2, r3, r4⟩ := looked_in (B := B) hlead hwf pa w1 hc (fun x => by rw [hB])
  rw [hB] at r4
  rw [w2] at r2 r3
  have hempty : (Zarr.getArrayMetadata env h path fs2).1 = .err .json := by
    simp only [Zarr.getArrayMetadata, M.bind_apply, M.lift_apply, storeGet_eq f1 pa, f2, Outcome.ofOption,
      parseArrayMetadata, hj.raw_nil]
    rfl
  rw [hempty] at r4
  refine ⟨[_, _], ts, s, rfl, r1, r3, r4, ?_⟩
  rw [r2, arrayDoc, ← la]
  exact Fs.content_eq_some.mpr (by simp only [K, Prog.run, M.lift_apply]; rw [Fs.get_put]; simp)

/-- Two threads create and look up an array at `/a` of an empty hierarchy. -/
example : ∃ (ps : List (Prog (List HResult))) (ts : List Nat) (s : Sys (List HResult)),
    [[.createArray str!"/a" Demo.arr], [.getArrayMetadata str!"/a"]].map (threadProg Demo.envJ Demo.hier fun _ => Demo.arr) =
      ps.map some ∧
    (Sys.initial Demo.emptyFs ps).run Demo.hier ts = some s ∧ s.result 0 = some (.ok [.unit (.ok ())]) ∧
    s.result 1 = some (.ok [.metadata (.err .json)]) := by
  obtain ⟨ps, ts, s, h1, h2, h3, h4, _⟩ := C47_violated_array Demo.envJ Demo.hier (fun _ => Demo.arr) str!"/a" Demo.arr
    Demo.emptyFs jsonText_lawful Demo.emptyFs_wf (by decide) (by unfold GoodSuffix; decide) (by decide) (by decide +kernel)
    (by decide +kernel) (by decide +kernel)
  exact ⟨ps, ts, s, h1, h2, h3, h4⟩

end Threads

end

end Zarr
