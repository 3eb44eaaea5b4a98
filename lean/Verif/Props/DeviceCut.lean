import Verif.Props.DeviceMore
/-!
# A limited device against an unlimited one: C53, C61

The calls on a device with limited space, compared with the same calls on an unlimited one. -/

namespace Zarr

open Spec

/-- What a call gives on a device with room for `free` bytes (`y`), if `x` is what it gives on an unlimited one: the
same, or the call succeeds there, one file is cut off after `free` bytes, and everything else is the same. If it says
`Ok` then at most a buffer is missing; it says `Ok` if nothing is missing, and if the file is smaller than the buffer. -/
def Spec.CutOff (free : Nat) (x y : Outcome Unit × Fs) : Prop :=
  y = x ∨ x.1 = .ok () ∧ ∃ l b, x.2.get l = some (.file b) ∧ y.2.get l = some (.file (b.take free)) ∧
    (∀ l', l' ≠ l → y.2.get l' = x.2.get l') ∧ (y.1 = .ok () → b.length ≤ free + 8192) ∧
    (b.length ≤ free ∨ b.length < 8192 → y.1 = .ok ())

theorem storeSet_cut {free : Nat} {h : Hier} {key : Str} {ps : List Bytes} {fs : Fs} :
    CutOff free (storeSet h key (ps.flatten, .ok ()) fs) (storeSet h key (devValue free ps) fs) := by
  unfold storeSet
  cases getPath h.base key with
  | err e => exact .inl rfl
  | panic => exact .inl rfl
  | ok t =>
    simp only
    generalize (if (segs t).isEmpty = true ∨ fs.pathExists (segs t).dropLast = true then (Outcome.ok (), fs)
      else Fs.mkdirAll (segs t).dropLast fs) = mk
    obtain ⟨r, fs1⟩ := mk
    cases r with
    | err e => exact .inl rfl
    | panic => exact .inl rfl
    | ok u =>
      simp only
      cases Fs.openCreate (segs t) fs1 with
      | err e => exact .inl rfl
      | panic => exact .inl rfl
      | ok p =>
        obtain ⟨l, fs2⟩ := p
        refine .inr ⟨rfl, l, ps.flatten, by simp [Fs.get_put], by simp [Fs.get_put, devValue_written], ?_,
          fun e => devValue_accepted e, ?_⟩
        · intro l' hl
          simp [Fs.get_put, hl]
        · rintro (hl | hl)
          · simp [devValue_room hl]
          · simp [devValue_small hl]

/-- **C61 (partial), against an unlimited device.** Whatever documents there are and whatever room: `create_array`,
`create_group` and `set_attributes` do what they do on an unlimited device, except that the document is cut off after
the bytes that fit. Missing: that it is not cut off if the call says `Ok`, see `C61_violated`. -/
theorem C61_partial_cut (free : Nat) (pieces : Json → List Bytes) (env : Env) (h : Hier) (path : Str) (fs : Fs)
    (hp : ∀ j, (pieces j).flatten = env.json.print j) :
    (∀ m, CutOff free (createArray env h path m fs) (createArrayDev free pieces h path m fs)) ∧
    CutOff free (createGroup env h path fs) (createGroupDev free pieces h path fs) ∧
    ∀ attrs, CutOff free (setAttributes env h path attrs fs) (setAttributesDev free pieces env h path attrs fs) := by
  refine ⟨fun m => ?_, ?_, fun attrs => ?_⟩
  · unfold createArray createArrayDev
    simp only [M.bind_apply]
    rw [show storeExists h (groupMetadataKey h.entry path) fs =
      ((storeExists h (groupMetadataKey h.entry path) fs).1, fs) from rfl]
    cases (storeExists h (groupMetadataKey h.entry path) fs).1 with
    | err e => exact .inl rfl
    | panic => exact .inl rfl
    | ok g =>
      cases g with
      | true => exact .inl rfl
      | false =>
        simp only [Bool.false_eq_true, if_false, M.bind_apply]
        rw [show storeExists h (arrayMetadataKey h.entry path) fs =
          ((storeExists h (arrayMetadataKey h.entry path) fs).1, fs) from rfl]
        cases (storeExists h (arrayMetadataKey h.entry path) fs).1 with
        | err e => exact .inl rfl
        | panic => exact .inl rfl
        | ok a =>
          cases a with
          | true => exact .inl rfl
          | false =>
            simp only [Bool.false_eq_true, if_false, arrayMetadataText]
            cases m.toJson with
            | err e => exact .inl rfl
            | panic => exact .inl rfl
            | ok j => simp only [← hp]; exact storeSet_cut
  · rcases createGroupDev_cases (free := free) (pieces := pieces) (env := env) (h := h) (path := path)
      (fs := fs) with ⟨r, h1, h2, _⟩ | ⟨_, _, h1, h2⟩
    · exact .inl (by rw [h1, h2])
    · rw [h1, h2, ← hp]; exact storeSet_cut
  · rcases setAttributesDev_cases (free := free) (pieces := pieces) (env := env) (h := h) (path := path)
      (attrs := attrs) (fs := fs) with ⟨r, h1, h2⟩ | ⟨key, c, kvs, _, _, _, _, h1, h2⟩
    · exact .inl (by rw [h1, h2])
    · rw [h1, h2, ← hp]; exact storeSet_cut

/-- **C53 (partial), against an unlimited device.** For arrays with the raw compressor, whatever chunk and whatever
room: `write_chunk` does what it does on an unlimited device, except that the file of the chunk is cut off after the
bytes that fit. Missing: that it is not cut off if the call says `Ok`, see `C53_violated`. -/
theorem C53_partial_cut (free : Nat) (env : Env) (h : Hier) (path : Str) (m : ArrayMetadata) {t : RsType}
    (c : DataChunk t) (fs : Fs) (hm : m.compressor = .raw) :
    CutOff free (writeChunk env h path m c fs) (writeChunkDev free env h path m c fs) := by
  unfold writeChunk writeChunkDev
  rcases writeChunkBytesDev_eq (free := free) (env := env) (m := m) (c := c) hm with ⟨ps, h1, h2⟩ | ⟨_, h2⟩
  · rw [h1, h2]; exact storeSet_cut
  · rw [h2]; exact .inl rfl

/-- Room for three of the four bytes of a chunk: the call says `Ok`, and the second alternative holds. -/
example : CutOff 3 (writeChunk Demo.env Demo.hier Demo.path Demo.arr Demo.chunk Demo.emptyFs)
      (writeChunkDev 3 Demo.env Demo.hier Demo.path Demo.arr Demo.chunk Demo.emptyFs) ∧
    (writeChunkDev 3 Demo.env Demo.hier Demo.path Demo.arr Demo.chunk Demo.emptyFs).1 = .ok () ∧
    (writeChunkDev 3 Demo.env Demo.hier Demo.path Demo.arr Demo.chunk Demo.emptyFs).2 ≠
      (writeChunk Demo.env Demo.hier Demo.path Demo.arr Demo.chunk Demo.emptyFs).2 :=
  ⟨C53_partial_cut 3 Demo.env Demo.hier Demo.path Demo.arr Demo.chunk Demo.emptyFs rfl, by decide +kernel,
    by decide +kernel⟩

/-- Room for 20 bytes of a document, in an array that exists. -/
example :
    let pieces := fun j => [jsonText.print j]
    let fs := (createArray Demo.envJ Demo.hier Demo.path Demo.arr Demo.emptyFs).2
    CutOff 20 (setAttributes Demo.envJ Demo.hier Demo.path [(str!"a", .null)] fs)
      (setAttributesDev 20 pieces Demo.envJ Demo.hier Demo.path [(str!"a", .null)] fs) ∧
    (setAttributesDev 20 pieces Demo.envJ Demo.hier Demo.path [(str!"a", .null)] fs).1 = .ok () ∧
    (setAttributesDev 20 pieces Demo.envJ Demo.hier Demo.path [(str!"a", .null)] fs).2 ≠
      (setAttributes Demo.envJ Demo.hier Demo.path [(str!"a", .null)] fs).2 :=
  ⟨(C61_partial_cut 20 _ Demo.envJ Demo.hier Demo.path _ (fun j => by simp [Demo.envJ])).2.2 _, by decide +kernel,
    by decide +kernel⟩

end Zarr
