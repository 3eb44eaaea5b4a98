import Verif.Lemmas.Bytes
import Verif.Lemmas.Store
/-! Lemmas on reading and writing one chunk. -/

namespace Zarr

/-- The type check passes for this effective type. -/
theorem checkArrayType_ok {native : Endian} {m : ArrayMetadata} {t : RsType} :
    checkArrayType native m t = .ok () ↔
      ∃ d, m.dataType.effectiveType = .ok d ∧ d.eqModuloEndian (t.zarrType native) = true := by
  unfold checkArrayType
  cases h : m.dataType.effectiveType with
  | ok d =>
    simp
  | err e => simp
  | panic => simp

theorem checkArrayType_err {native : Endian} {m : ArrayMetadata} {t : RsType} {d : DataType}
    (hd : m.dataType.effectiveType = .ok d) (hn : d.eqModuloEndian (t.zarrType native) = false) :
    checkArrayType native m t = .err .invalidInput := by
  simp [checkArrayType, hd, hn]

theorem readChunkBytes_eq {ext : Codecs} {native : Endian} {m : ArrayMetadata} {t : RsType}
    {pos : List Nat} {file : Bytes} {d : DataType}
    (hd : m.dataType.effectiveType = .ok d) (ht : d.eqModuloEndian (t.zarrType native) = true) :
    readChunkBytes ext native m t pos file =
      (codecOf ext m.compressor).decode file >>= fun s =>
        if m.chunkNumElements % 2 ^ 32 * t.size ≤ s.avail.length then
          .ok ⟨pos, elsOfBytes (d.endian native) t (m.chunkNumElements % 2 ^ 32) s.avail⟩
        else .err (s.fail.getD .unexpectedEof) := by
  have h1 : checkArrayType native m t = .ok () := checkArrayType_ok.mpr ⟨d, hd, ht⟩
  unfold readChunkBytes
  rw [h1, Outcome.bind_ok]
  simp only [createDataChunk, List.length_replicate]
  congr 1
  funext s
  rw [readData_eq native _ d t _ s hd]
  split <;> rfl

theorem readChunkBytes_check_err {ext : Codecs} {native : Endian} {m : ArrayMetadata} {t : RsType}
    {pos : List Nat} {file : Bytes} {e : ErrKind} (h : checkArrayType native m t = .err e) :
    readChunkBytes ext native m t pos file = .err e := by
  simp [readChunkBytes, h]

/-- What a successful chunk write handed to the compressor. -/
theorem writeChunkBytes_ok {ext : Codecs} {native : Endian} {m : ArrayMetadata} {t : RsType}
    {c : DataChunk t} (h : (writeChunkBytes ext native m c).2 = .ok ()) :
    ∃ d segs, m.dataType.effectiveType = .ok d ∧ d.eqModuloEndian (t.zarrType native) = true ∧
      c.data.length % 2 ^ 32 = m.chunkNumElements ∧
      segs.flatten = c.data.flatMap (elBytes (d.endian native)) ∧
      writeChunkBytes ext native m c = (codecOf ext m.compressor).encode segs := by
  unfold writeChunkBytes at h ⊢
  split at h
  · simp at h
  · simp at h
  · rename_i hc
    obtain ⟨d, hd, ht⟩ := checkArrayType_ok.mp hc
    split at h
    · simp at h
    · rename_i hn
      obtain ⟨segs, hw, hs⟩ := writeData_eq native m.dataType d c.data hd
      refine ⟨d, segs, hd, ht, ?_, hs, ?_⟩
      · simpa [DataChunk.numElements] using hn
      · rw [if_neg hn, hw]

/-- The chunk that fits the array is what the compressor gets. -/
theorem writeChunkBytes_fits {ext : Codecs} {native : Endian} {m : ArrayMetadata} {t : RsType}
    {c : DataChunk t} {d : DataType} (hd : m.dataType.effectiveType = .ok d)
    (ht : d.eqModuloEndian (t.zarrType native) = true)
    (hn : c.data.length % 2 ^ 32 = m.chunkNumElements) :
    ∃ segs, segs.flatten = c.data.flatMap (elBytes (d.endian native)) ∧
      writeChunkBytes ext native m c = (codecOf ext m.compressor).encode segs := by
  obtain ⟨segs, hw, hs⟩ := writeData_eq native m.dataType d c.data hd
  refine ⟨segs, hs, ?_⟩
  unfold writeChunkBytes
  rw [checkArrayType_ok.mpr ⟨d, hd, ht⟩]
  simp only
  rw [if_neg (by simpa [DataChunk.numElements] using hn), hw]

/-- Bytes written for a chunk of the right length decode to that chunk. -/
theorem readChunkBytes_writeChunkBytes {ext : Codecs} {native : Endian} {m : ArrayMetadata}
    {t : RsType} {c : DataChunk t} (hl : (codecOf ext m.compressor).Lawful)
    (hlen : c.data.length = m.chunkNumElements)
    (h : (writeChunkBytes ext native m c).2 = .ok ()) (pos : List Nat) :
    readChunkBytes ext native m t pos (writeChunkBytes ext native m c).1 = .ok ⟨pos, c.data⟩ := by
  obtain ⟨d, segs, hd, ht, hn, hs, hw⟩ := writeChunkBytes_ok h
  rw [hw] at h ⊢
  rw [readChunkBytes_eq hd ht, hl segs h]
  have hmod : m.chunkNumElements % 2 ^ 32 = c.data.length := by
    rw [← hlen] at hn ⊢; exact hn
  simp only [Outcome.bind_ok, hs, hmod, flatMap_elBytes_length, Nat.le_refl, if_true]
  have := elsOfBytes_flatMap (d.endian native) c.data []
  rw [List.append_nil] at this
  rw [this]

/-! ## Calls on the store -/

theorem assertInBounds_ok {m : ArrayMetadata} {pos : List Nat} :
    assertInBounds m pos = .ok () ↔ m.inBounds pos = .ok true := by
  unfold assertInBounds
  cases h : m.inBounds pos with
  | ok b => cases b <;> simp
  | err e => simp
  | panic => simp

theorem readChunk_inBounds {env : Env} {h : Hier} {path : Str} {m : ArrayMetadata} {t : RsType}
    {pos : List Nat} {fs : Fs} {v : Option Bytes} (hb : m.inBounds pos = .ok true)
    (hg : storeGet h (chunkKey path m pos) fs = (.ok v, fs)) :
    readChunk env h path m t pos fs = match v with
      | none => (.ok none, fs)
      | some b => (readChunkBytes env.codecs env.native m t pos b >>= fun c => .ok (some c), fs) := by
  simp only [readChunk, M.bind_apply, M.lift_apply, assertInBounds_ok.mpr hb, hg]
  cases v with
  | none => simp
  | some b =>
    simp only [M.bind_apply, M.lift_apply]
    cases readChunkBytes env.codecs env.native m t pos b <;> simp

/-- `get` never changes the filesystem. -/
theorem storeGet_state (h : Hier) (key : Str) (fs : Fs) : (storeGet h key fs).2 = fs := rfl
theorem storeExists_state (h : Hier) (key : Str) (fs : Fs) : (storeExists h key fs).2 = fs := rfl

/-- `read_chunk` depends on the filesystem through the file of its chunk only. -/
theorem readChunk_congr {env : Env} {h : Hier} {path : Str} {m : ArrayMetadata} {t : RsType}
    {pos : List Nat} {fs fs' : Fs}
    (hg : (storeGet h (chunkKey path m pos) fs').1 = (storeGet h (chunkKey path m pos) fs).1) :
    (readChunk env h path m t pos fs').1 = (readChunk env h path m t pos fs).1 := by
  simp only [readChunk, M.bind_apply, M.lift_apply]
  cases assertInBounds m pos with
  | err e => rfl
  | panic => rfl
  | ok u =>
    simp only
    have e1 : storeGet h (chunkKey path m pos) fs' = ((storeGet h (chunkKey path m pos) fs).1, fs') := by
      rw [← hg]; rfl
    have e2 : storeGet h (chunkKey path m pos) fs = ((storeGet h (chunkKey path m pos) fs).1, fs) := rfl
    rw [e1, e2]
    cases (storeGet h (chunkKey path m pos) fs).1 with
    | err e => rfl
    | panic => rfl
    | ok v =>
      simp only
      cases v with
      | none => rfl
      | some b =>
        simp only [M.bind_apply, M.lift_apply]
        cases readChunkBytes env.codecs env.native m t pos b <;> rfl

end Zarr
