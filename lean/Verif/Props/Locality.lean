import Verif.Props.FailedWrite
/-!
# What a read depends on: C85
-/

namespace Zarr

open Spec

variable {env : Env} {h h' : Hier} {path path' : Str} {m : ArrayMetadata} {t : RsType} {fs fs' : Fs}
  {bbox : BBox}

/-- `read_chunk` depends on the hierarchy, the path and the tree through the content of one file. -/
theorem readChunk_content {pos : List Nat} (hwf : fs.WF) (hwf' : fs'.WF) (hb : Plain (segs h.base))
    (hb' : Plain (segs h'.base)) (hp : Plain (segs path)) (hp' : Plain (segs path'))
    (hs : GoodSep m.separator)
    (hc : fs.content (h.loc (chunkKey path m pos)) = fs'.content (h'.loc (chunkKey path' m pos))) :
    (readChunk env h path m t pos fs).1 = (readChunk env h' path' m t pos fs').1 := by
  simp only [readChunk, M.bind_apply, M.lift_apply]
  cases assertInBounds m pos with
  | err e => rfl
  | panic => rfl
  | ok u =>
    simp only
    rw [storeGet_eq hwf (plain_loc_chunk hb hp hs pos), storeGet_eq hwf' (plain_loc_chunk hb' hp' hs pos), hc]
    cases fs'.content (h'.loc (chunkKey path' m pos)) with
    | none => rfl
    | some b =>
      simp only [M.bind_apply, M.lift_apply]
      cases readChunkBytes env.codecs env.native m t pos b <;> rfl

theorem readLoop_look {coords : List (List Nat)}
    (hlk : ∀ c ∈ coords, look env h path m t fs c = look env h' path' m t fs' c) (arr : NdArr (El t))
    (buf : Option (DataChunk t)) :
    (readLoop env h path m t bbox coords arr buf fs).1
      = (readLoop env h' path' m t bbox coords arr buf fs').1 := by
  induction coords generalizing arr buf with
  | nil => rfl
  | cons pos rest ih =>
    rw [readLoop_cons, readLoop_cons, hlk pos (by simp)]
    have ih := ih (fun c hc => hlk c (by simp [hc]))
    cases look env h' path' m t fs' pos with
    | ok r =>
      cases r with
      | none => exact ih arr buf
      | some c =>
        simp only
        cases copyChunk m bbox c arr with
        | ok a => exact ih a _
        | err e => rfl
        | panic => rfl
    | err e => rfl
    | panic => rfl

theorem readLoop_all_ok {coords : List (List Nat)} {arr : NdArr (El t)}
    {buf : Option (DataChunk t)} {r : NdArr (El t) × Option (DataChunk t)}
    (hr : (readLoop env h path m t bbox coords arr buf fs).1 = .ok r) :
    ∀ c ∈ coords, ∃ x, look env h path m t fs c = .ok x := by
  induction coords generalizing arr buf with
  | nil => simp
  | cons pos rest ih =>
    rw [readLoop_cons] at hr
    cases hl : look env h path m t fs pos with
    | ok x =>
      rw [hl] at hr
      have hrest : ∀ c ∈ rest, ∃ x, look env h path m t fs c = .ok x := by
        cases x with
        | none => exact ih hr
        | some c =>
          simp only at hr
          cases hc : copyChunk m bbox c arr with
          | ok a => rw [hc] at hr; exact ih hr
          | err e => rw [hc] at hr; simp at hr
          | panic => rw [hc] at hr; simp at hr
      intro c hc
      rcases List.mem_cons.mp hc with rfl | hc
      · exact ⟨x, hl⟩
      · exact hrest c hc
    | err e => rw [hl] at hr; simp at hr
    | panic => rw [hl] at hr; simp at hr

/-- **C85.** What `read_ndarray` over a box returns, an error included, depends on nothing in the store
but the contents of the files of the chunks that share a point with the box and the array: any two trees,
hierarchies and paths whose files for these chunks have the same content, or are missing in both, give the
same result. -/
theorem C85 (env : Env) (h h' : Hier) (path path' : Str) (m : ArrayMetadata) (t : RsType) (bbox : BBox)
    (fs fs' : Fs) (hwf : fs.WF) (hwf' : fs'.WF) (hb : Plain (segs h.base)) (hb' : Plain (segs h'.base))
    (hp : Plain (segs path)) (hp' : Plain (segs path')) (hs : GoodSep m.separator)
    (hl : m.shape.length = m.chunkShape.length) (hk : ∀ k ∈ m.chunkShape, k ≠ 0) (hm : BoxMeetsArray m bbox)
    (hsame : ∀ c, OverlapsBoth m bbox c →
      fs.content (chunkLoc h path m.separator c) = fs'.content (chunkLoc h' path' m.separator c)) :
    (readNdarray env h path m t bbox fs).1 = (readNdarray env h' path' m t bbox fs').1 := by
  have hs' : m.separator = str!"/" ∨ '/' ∉ m.separator := hs.imp id (·.2)
  rw [readNdarray_one, readNdarray_one]
  cases effectiveFillValue env m t with
  | err e => rfl
  | panic => rfl
  | ok fill =>
    simp only [Outcome.bind_ok]
    rw [readNdarrayInto_one, readNdarrayInto_one]
    congr 1
    obtain ⟨p, hm1, hm2⟩ := id hm
    have hd : bbox.offset.length = m.shape.length := by rw [← Inside.length hm1]; exact (InBox.length hm2).1.symm
    have hd' : bbox.shape.length = m.shape.length := by rw [← Inside.length hm1]; exact (InBox.length hm2).2.symm
    obtain ⟨it, hit⟩ := boundedCoordIter_exists hd hk
    rw [readInto_eq hd rfl hd'.symm hit, readInto_eq hd rfl hd'.symm hit]
    refine readLoop_look (fun c hc => ?_) _ _
    by_cases hn : m.shape = []
    · obtain ⟨_, _, h3, _⟩ := boundedCoordIter_ok hl (by omega) hit
      rw [h3, hn] at hc
      simp [boundedRanges, isectLoop, multiCartesian] at hc
    refine readChunk_content hwf hwf' hb hb' hp hp' hs ?_
    rw [loc_chunkKey hs', loc_chunkKey hs']
    exact hsame c (overlap_of_touches hk hm ((mem_boundedCoordIter hl (by omega) hn hit).mp hc))

/-- **C85, errors.** `read_ndarray` over a box that meets the array returns `Ok` exactly if the fill value
is valid for the element type and each chunk that shares a point with the box and the array is absent or
readable: no damaged chunk in the box goes unnoticed and none outside it matters. -/
theorem C85_errors (env : Env) (h : Hier) (path : Str) (m : ArrayMetadata) (t : RsType) (bbox : BBox)
    (fs : Fs) (hl : m.shape.length = m.chunkShape.length) (hn : m.shape ≠ []) (hk : ∀ k ∈ m.chunkShape, k ≠ 0)
    (hsm : m.chunkShape.prod < 2 ^ 32) (hm : BoxMeetsArray m bbox) :
    (∃ a, (readNdarray env h path m t bbox fs).1 = .ok a) ↔
      (∃ fill, effectiveFillValue env m t = .ok fill) ∧
      ∀ c, OverlapsBoth m bbox c → ∃ x, (readChunk env h path m t c fs).1 = .ok x := by
  obtain ⟨p, hm1, hm2⟩ := id hm
  have hd : bbox.offset.length = m.shape.length := by rw [← Inside.length hm1]; exact (InBox.length hm2).1.symm
  have hd' : bbox.shape.length = m.shape.length := by rw [← Inside.length hm1]; exact (InBox.length hm2).2.symm
  constructor
  · rintro ⟨a, ha⟩
    rw [readNdarray_one] at ha
    cases hf : effectiveFillValue env m t with
    | err e => rw [hf] at ha; simp at ha
    | panic => rw [hf] at ha; simp at ha
    | ok fill =>
      refine ⟨⟨fill, rfl⟩, ?_⟩
      rw [hf, Outcome.bind_ok, readNdarrayInto_one] at ha
      obtain ⟨r, hr, _⟩ := Outcome.bind_eq_ok.mp ha
      obtain ⟨_, _, _, it, hit, hr⟩ := readInto_inv hr
      intro c ⟨q, h1, h2, h3⟩
      exact readLoop_all_ok hr c
        ((mem_boundedCoordIter hl (by omega) hn hit).mpr (touches_of_overlap hk hl h1 h2 h3))
  · rintro ⟨hf, hread⟩
    obtain ⟨a, ha⟩ := C68_read env h path m t bbox fs hl hk hsm hd hd' hm hf hread
    exact ⟨a, congrArg Prod.fst ha⟩

/-! ## A concrete case: one byte where the third chunk was -/

theorem storeSet_wf {key : Str} {v : Bytes × Outcome Unit} (hwf : fs.WF) (hp : Plain (h.loc key)) :
    (storeSet h key v fs).2.WF := by
  obtain ⟨s1, s2⟩ := storeSet_spec v hwf hp
  by_cases hw : Writable fs (h.loc key)
  · obtain ⟨fs', e, w, _⟩ := s1 hw
    rw [e]; exact w
  · obtain ⟨e, he⟩ := s2 hw
    rw [he]; exact hwf

set_option maxRecDepth 20000 in
/-- Boxes outside the damaged chunk read as before; a box that touches it does not. -/
example :
    (readNdarray Demo.env Demo.hier Demo.path Demo.arr .u16 ⟨[0], [4]⟩ damagedFs).1
      = (readNdarray Demo.env Demo.hier Demo.path Demo.arr .u16 ⟨[0], [4]⟩ demoFs).1 ∧
    ((readNdarray Demo.env Demo.hier Demo.path Demo.arr .u16 ⟨[3], [2]⟩ damagedFs).1
      >>= fun a => .ok (a.toVec .rowMajor)) = .err .unexpectedEof ∧
    damagedFs.content (chunkLoc Demo.hier Demo.path Demo.arr.separator [2])
      ≠ demoFs.content (chunkLoc Demo.hier Demo.path Demo.arr.separator [2]) := by
  have hwf : demoFs.WF := storeSet_wf Demo.emptyFs_wf (by decide)
  have hwf' : damagedFs.WF := storeSet_wf hwf (by decide)
  refine ⟨C85 Demo.env Demo.hier Demo.hier Demo.path Demo.path Demo.arr .u16 ⟨[0], [4]⟩ damagedFs demoFs
    hwf' hwf (by decide) (by decide) (by decide) (by decide) (.inl rfl) rfl (by decide)
    ⟨[0], by simp [Inside, Demo.arr], by simp [InBox]⟩ ?_, by decide +kernel, by decide +kernel⟩
  rintro c ⟨p, _, h2, h3⟩
  match p, c, h2, h3 with
  | [x], [c], h2, h3 =>
    simp [InBox, Covers, Demo.arr] at h2 h3
    have : c = 0 ∨ c = 1 := by omega
    rcases this with rfl | rfl
    · decide +kernel
    · decide +kernel

end Zarr
