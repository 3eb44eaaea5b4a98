import Verif.Model.Device
import Verif.Props.LzPure
import Verif.Props.Nodes
/-!
# Full devices: C53, C61
-/

namespace Zarr

open Spec

/-! ## The buffered writer -/

theorem Dev.writeAll_ok {d : Dev} {b : Bytes} (h : b.length ≤ d.free) :
    d.writeAll b = (⟨d.free - b.length, d.written ++ b⟩, .ok ()) := by
  unfold Dev.writeAll; rw [if_pos h]

theorem Dev.writeAll_full {d : Dev} {b : Bytes} (h : d.free < b.length) :
    d.writeAll b = (⟨0, d.written ++ b.take d.free⟩, .err .other) := by
  unfold Dev.writeAll; rw [if_neg (by omega)]

theorem Dev.writeAll_written (d : Dev) (b : Bytes) :
    (d.writeAll b).1.written = d.written ++ b.take d.free := by
  by_cases h : b.length ≤ d.free
  · rw [Dev.writeAll_ok h, List.take_of_length_le h]
  · rw [Dev.writeAll_full (by omega)]

theorem Dev.writeAll_free0 (w b : Bytes) : ((⟨0, w⟩ : Dev).writeAll b).1.written = w := by
  rw [Dev.writeAll_written, List.take_zero, List.append_nil]

/-- The bytes in the file are as much of what was to be written as there was room for. -/
theorem bufWrite_written (cap : Nat) (d : Dev) (buf : Bytes) (segs : List Bytes) :
    (bufWrite cap d buf segs).1 = d.written ++ (buf ++ segs.flatten).take d.free := by
  induction segs generalizing d buf with
  | nil => rw [bufWrite, Dev.writeAll_written, List.flatten_nil, List.append_nil]
  | cons seg rest ih =>
    rw [bufWrite, List.flatten_cons]
    unfold bufWriteAll
    by_cases h1 : cap < buf.length + seg.length
    · rw [if_pos h1]
      by_cases h2 : buf.length ≤ d.free
      · rw [Dev.writeAll_ok h2]
        simp only
        by_cases h3 : cap ≤ seg.length
        · rw [if_pos h3]
          by_cases h4 : seg.length ≤ d.free - buf.length
          · rw [Dev.writeAll_ok h4]
            simp only [ih, List.nil_append]
            rw [← List.append_assoc buf seg, List.take_append, List.take_of_length_le (l := buf ++ seg)
              (by rw [List.length_append]; omega), List.append_assoc d.written, List.append_assoc d.written]
            rw [List.length_append, Nat.sub_sub]
          · rw [Dev.writeAll_full (by simp only; omega)]
            simp only [Dev.writeAll_free0]
            rw [List.append_assoc, List.take_append, List.take_of_length_le h2, List.take_append,
              Nat.sub_eq_zero_of_le (n := d.free - buf.length) (by omega), List.take_zero,
              List.append_nil]
        · rw [if_neg h3]
          simp only [ih]
          rw [List.append_assoc, List.take_append (l₁ := buf), List.take_of_length_le h2]
      · rw [Dev.writeAll_full (by omega)]
        simp only [Dev.writeAll_free0]
        rw [List.take_append, Nat.sub_eq_zero_of_le (n := d.free) (by omega), List.take_zero,
          List.append_nil]
    · rw [if_neg h1]
      by_cases h3 : cap ≤ seg.length
      · rw [if_pos h3]
        have hb : buf = [] := List.length_eq_zero_iff.mp (by omega)
        subst hb
        rw [List.nil_append]
        by_cases h4 : seg.length ≤ d.free
        · rw [Dev.writeAll_ok h4]
          simp only [ih, List.nil_append]
          rw [List.take_append, List.take_of_length_le h4, List.append_assoc]
        · rw [Dev.writeAll_full (by omega)]
          simp only [Dev.writeAll_free0]
          rw [List.take_append, Nat.sub_eq_zero_of_le (n := d.free) (by omega), List.take_zero,
            List.append_nil]
      · rw [if_neg h3]
        simp only [ih]
        rw [List.append_assoc]

/-- With room for everything, everything is accepted. -/
theorem bufWrite_room (cap : Nat) (d : Dev) (buf : Bytes) (segs : List Bytes)
    (h : buf.length + segs.flatten.length ≤ d.free) : (bufWrite cap d buf segs).2 = .ok () := by
  induction segs generalizing d buf with
  | nil => rfl
  | cons seg rest ih =>
    rw [List.flatten_cons, List.length_append] at h
    rw [bufWrite]
    unfold bufWriteAll
    by_cases h1 : cap < buf.length + seg.length
    · rw [if_pos h1, Dev.writeAll_ok (by omega)]
      simp only
      by_cases h3 : cap ≤ seg.length
      · rw [if_pos h3, Dev.writeAll_ok (by simp only; omega)]
        simp only
        exact ih _ _ (by simp only [List.length_nil]; omega)
      · rw [if_neg h3]
        exact ih _ _ (by simp only; omega)
    · rw [if_neg h1]
      by_cases h3 : cap ≤ seg.length
      · rw [if_pos h3, Dev.writeAll_ok (by omega)]
        simp only
        exact ih _ _ (by simp only; omega)
      · rw [if_neg h3]
        exact ih _ _ (by rw [List.length_append]; omega)

/-- What stays below the capacity of the buffer is accepted, room or no room. -/
theorem bufWrite_small (cap : Nat) (d : Dev) (buf : Bytes) (segs : List Bytes)
    (h : buf.length + segs.flatten.length < cap) : (bufWrite cap d buf segs).2 = .ok () := by
  induction segs generalizing d buf with
  | nil => rfl
  | cons seg rest ih =>
    rw [List.flatten_cons, List.length_append] at h
    rw [bufWrite]
    unfold bufWriteAll
    rw [if_neg (by omega), if_neg (by omega)]
    exact ih _ _ (by rw [List.length_append]; omega)

/-- What is accepted exceeds the room by no more than the capacity of the buffer. -/
theorem bufWrite_accepted (cap : Nat) (d : Dev) (buf : Bytes) (segs : List Bytes)
    (hb : buf.length ≤ cap) (h : (bufWrite cap d buf segs).2 = .ok ()) :
    buf.length + segs.flatten.length ≤ d.free + cap := by
  induction segs generalizing d buf with
  | nil => rw [List.flatten_nil, List.length_nil]; omega
  | cons seg rest ih =>
    rw [List.flatten_cons, List.length_append]
    rw [bufWrite] at h
    unfold bufWriteAll at h
    by_cases h1 : cap < buf.length + seg.length
    · rw [if_pos h1] at h
      by_cases h2 : buf.length ≤ d.free
      · rw [Dev.writeAll_ok h2] at h
        simp only at h
        by_cases h3 : cap ≤ seg.length
        · rw [if_pos h3] at h
          by_cases h4 : seg.length ≤ d.free - buf.length
          · rw [Dev.writeAll_ok h4] at h
            have := ih _ _ (by simp) h
            simp only [List.length_nil] at this
            omega
          · rw [Dev.writeAll_full (by simp only; omega)] at h
            simp at h
        · rw [if_neg h3] at h
          have := ih _ _ (by omega) h
          simp only at this
          omega
      · rw [Dev.writeAll_full (by omega)] at h
        simp at h
    · rw [if_neg h1] at h
      by_cases h3 : cap ≤ seg.length
      · rw [if_pos h3] at h
        by_cases h4 : seg.length ≤ d.free
        · rw [Dev.writeAll_ok h4] at h
          have := ih _ _ (by omega) h
          simp only at this
          omega
        · rw [Dev.writeAll_full (by omega)] at h
          simp at h
      · rw [if_neg h3] at h
        have := ih _ _ (by rw [List.length_append]; omega) h
        rw [List.length_append] at this
        omega

theorem devValue_written (free : Nat) (segs : List Bytes) :
    (devValue free segs).1 = segs.flatten.take free := by
  unfold devValue
  rw [bufWrite_written, List.nil_append, List.nil_append]

/-- With room for everything the device makes no difference. -/
theorem devValue_room {free : Nat} {segs : List Bytes} (h : segs.flatten.length ≤ free) :
    devValue free segs = (segs.flatten, .ok ()) := by
  apply Prod.ext
  · rw [devValue_written, List.take_of_length_le h]
  · exact bufWrite_room _ _ _ _ (by simpa using h)

theorem devValue_small {free : Nat} {segs : List Bytes} (h : segs.flatten.length < 8192) :
    devValue free segs = (segs.flatten.take free, .ok ()) := by
  apply Prod.ext
  · exact devValue_written _ _
  · exact bufWrite_small _ _ _ _ (by simpa [bufCapacity] using h)

theorem devValue_accepted {free : Nat} {segs : List Bytes} (h : (devValue free segs).2 = .ok ()) :
    segs.flatten.length ≤ free + 8192 := by
  have := bufWrite_accepted _ _ _ _ (by simp) h
  simpa [bufCapacity] using this

/-! ## C53 -/

theorem writeChunkBytesDev_ok {free : Nat} {native : Endian} {m : ArrayMetadata} {t : RsType}
    {c : DataChunk t} (h : (writeChunkBytesDev free native m c).2 = .ok ()) :
    ∃ d segs, m.dataType.effectiveType = .ok d ∧ d.eqModuloEndian (t.zarrType native) = true ∧
      c.data.length % 2 ^ 32 = m.chunkNumElements ∧
      segs.flatten = c.data.flatMap (elBytes (d.endian native)) ∧
      writeChunkBytesDev free native m c = devValue free segs := by
  unfold writeChunkBytesDev at h ⊢
  split at h
  · simp at h
  · simp at h
  · rename_i hc
    obtain ⟨d, hd, ht⟩ := checkArrayType_ok.mp hc
    split at h
    · simp at h
    · rename_i hn
      obtain ⟨segs, hw, hs⟩ := writeData_eq native m.dataType d c.data hd
      refine ⟨d, segs, hd, ht, ?_, hs, ?_⟩
      · simpa [DataChunk.numElements] using hn
      · rw [if_neg hn, hw]

/-- If `write_chunk` is to write the pieces `segs`, that is what reaches the device. -/
theorem writeChunkBytesDev_eq {free : Nat} {env : Env} {m : ArrayMetadata} {t : RsType}
    {c : DataChunk t} (hm : m.compressor = .raw) :
    (∃ segs, writeChunkBytes env.codecs env.native m c = (segs.flatten, .ok ()) ∧
      writeChunkBytesDev free env.native m c = devValue free segs) ∨
    ((writeChunkBytes env.codecs env.native m c).2 ≠ .ok () ∧
      writeChunkBytesDev free env.native m c = writeChunkBytes env.codecs env.native m c) := by
  unfold writeChunkBytesDev writeChunkBytes
  rw [hm]
  cases checkArrayType env.native m t with
  | err e => exact .inr ⟨by simp, rfl⟩
  | panic => exact .inr ⟨by simp, rfl⟩
  | ok u =>
    simp only
    by_cases hn : c.numElements ≠ m.chunkNumElements
    · rw [if_pos hn, if_pos hn]
      exact .inr ⟨by simp, rfl⟩
    · rw [if_neg hn, if_neg hn]
      cases writeData env.native m.dataType c.data with
      | err e => exact .inr ⟨by simp, rfl⟩
      | panic => exact .inr ⟨by simp, rfl⟩
      | ok segs => exact .inl ⟨_, rfl, rfl⟩

/-- **C53 (partial).** For arrays with the raw compressor: if there is room for all bytes of the
chunk, `write_chunk` does what it does on an unlimited device; if it returns `Ok`, the file holds the
bytes that fitted and at most 8192 are missing. Missing: that none are, see `C53_violated`. For other
compressors see `C53_partial_compressed`. -/
theorem C53_partial (free : Nat) (env : Env) (h : Hier) (path : Str) (m : ArrayMetadata) {t : RsType}
    (c : DataChunk t) (fs : Fs) (hm : m.compressor = .raw) :
    (c.data.length * t.size ≤ free →
      writeChunkDev free env h path m c fs = writeChunk env h path m c fs) ∧
    (∀ fs', writeChunkDev free env h path m c fs = (.ok (), fs') →
      ∃ d, effective m.dataType = some d ∧
      storeGet h (chunkKey path m c.gridPosition) fs' =
        (.ok (some ((c.data.flatMap (elBytes (d.endian env.native))).take free)), fs') ∧
      c.data.length * t.size ≤ free + 8192) := by
  constructor
  · intro hf
    unfold writeChunkDev writeChunk
    rcases writeChunkBytesDev_eq (free := free) (env := env) (c := c) hm with ⟨segs, h1, h2⟩ | ⟨_, h2⟩
    · have hl : segs.flatten.length = c.data.length * t.size := by
        obtain ⟨d, segs', _, _, _, hs, hw⟩ := writeChunkBytes_ok (c := c) (m := m) (native := env.native)
          (ext := env.codecs) (by rw [h1])
        rw [hm, h1] at hw
        have : segs.flatten = segs'.flatten := congrArg Prod.fst hw
        rw [this, hs, flatMap_elBytes_length]
      rw [h1, h2, devValue_room (by omega)]
    · rw [h2]
  · intro fs' hw
    obtain ⟨d, segs, hd, _, _, hs, he⟩ := writeChunkBytesDev_ok (storeSet_result_ok hw)
    have hok := storeSet_result_ok hw
    have hg := storeGet_of_storeSet hw
    rw [he] at hok hg
    rw [devValue_written, hs] at hg
    have hl := devValue_accepted hok
    rw [hs, flatMap_elBytes_length] at hl
    exact ⟨d, effective_iff.mp hd, hg, hl⟩

/-- **C53 is violated** for every chunk below 8192 bytes that does not fit on the device: if writing
it elsewhere succeeds, it is reported as written here too, but cannot be read. -/
theorem C53_violated (free : Nat) (env : Env) (h : Hier) (path : Str) (m : ArrayMetadata) {t : RsType}
    (c : DataChunk t) (fs fs1 : Fs) (hm : m.compressor = .raw)
    (hin : m.inBounds c.gridPosition = .ok true)
    (hw : writeChunk env h path m c fs = (.ok (), fs1))
    (hsmall : c.data.length * t.size < 8192) (hfull : free < c.data.length * t.size) :
    ∃ fs', writeChunkDev free env h path m c fs = (.ok (), fs') ∧
      (readChunk env h path m t c.gridPosition fs').1 = .err .unexpectedEof := by
  have hok := storeSet_result_ok hw
  obtain ⟨d, segs', hd, ht, hn, hs, hwb⟩ := writeChunkBytes_ok hok
  have hlt : c.data.length < 2 ^ 32 := by
    have hs : 0 < t.size := by cases t <;> simp [RsType.size]
    have := Nat.le_mul_of_pos_right c.data.length hs
    omega
  rcases writeChunkBytesDev_eq (free := free) (env := env) (c := c) hm with ⟨segs, h1, h2⟩ | ⟨h1, _⟩
  · rw [hm, h1] at hwb
    have hfl : segs.flatten = segs'.flatten := congrArg Prod.fst hwb
    rw [hs] at hfl
    have hv : writeChunkBytesDev free env.native m c =
        ((c.data.flatMap (elBytes (d.endian env.native))).take free, .ok ()) := by
      rw [h2, devValue_small (by rw [hfl, flatMap_elBytes_length]; exact hsmall), hfl]
    obtain ⟨fs', hw'⟩ : ∃ fs', writeChunkDev free env h path m c fs = (.ok (), fs') := by
      unfold writeChunkDev
      unfold writeChunk at hw
      unfold storeSet at hw ⊢
      split at hw
      · simp at hw
      · simp at hw
      · simp only at hw ⊢
        split at hw
        · simp at hw
        · simp at hw
        · split at hw
          · simp at hw
          · simp at hw
          · exact ⟨_, by rw [hv]⟩
    refine ⟨fs', hw', ?_⟩
    have hg := storeGet_of_storeSet hw'
    rw [hv] at hg
    rw [readChunk_inBounds hin hg]
    simp only [readChunkBytes_eq hd ht, hm]
    have hmod : m.chunkNumElements % 2 ^ 32 = c.data.length := by
      rw [← hn, Nat.mod_eq_of_lt hlt, Nat.mod_eq_of_lt hlt]
    rw [hmod]
    simp only [codecOf, rawCodec, Outcome.bind_ok]
    rw [if_neg (by rw [List.length_take]; omega)]
    rfl
  · exact absurd hok h1

/-- Room for one and for three of the four bytes of the chunk. -/
example : (writeChunk Demo.env Demo.hier Demo.path Demo.arr Demo.chunk Demo.emptyFs).1 = .ok () ∧
    (writeChunkDev 1 Demo.env Demo.hier Demo.path Demo.arr Demo.chunk Demo.emptyFs).1 = .ok () ∧
    (readChunk Demo.env Demo.hier Demo.path Demo.arr .u16 [1]
      (writeChunkDev 3 Demo.env Demo.hier Demo.path Demo.arr Demo.chunk Demo.emptyFs).2).1
      = .err .unexpectedEof ∧
    (readChunk Demo.env Demo.hier Demo.path Demo.arr .u16 [1]
      (writeChunkDev 4 Demo.env Demo.hier Demo.path Demo.arr Demo.chunk Demo.emptyFs).2).1
      = .ok (some Demo.chunk) := by decide +kernel

/-- A buffer of 4 bytes, room for 5: the flush before the third piece fails. -/
example : bufWrite 4 ⟨5, []⟩ [] [[1, 2, 3], [4, 5], [6, 7, 8]] = ([1, 2, 3, 4, 5], .ok ()) ∧
    bufWrite 4 ⟨4, []⟩ [] [[1, 2, 3], [4, 5], [6, 7, 8]] = ([1, 2, 3, 4], .err .other) ∧
    bufWrite 4 ⟨4, []⟩ [] [[1, 2, 3], [4, 5, 6, 7, 8]] = ([1, 2, 3, 4], .err .other) := by decide

/-! ## C61 -/

/-- **C61 (partial).** If the device has room for the document, `create_array` and `set_attributes` do
what they do on an unlimited device. Missing: an error otherwise, see `C61_violated`. -/
theorem C61_partial (free : Nat) (pieces : Json → List Bytes) (env : Env) (h : Hier) (path : Str)
    (hp : ∀ j, (pieces j).flatten = env.json.print j) :
    (∀ m fs, (∀ j, m.toJson = .ok j → (env.json.print j).length ≤ free) →
      createArrayDev free pieces h path m fs = createArray env h path m fs) ∧
    (∀ attrs fs, (∀ o, (env.json.print (.obj (mergedDoc o attrs))).length ≤ free) →
      setAttributesDev free pieces env h path attrs fs = setAttributes env h path attrs fs) := by
  constructor
  · intro m fs hf
    unfold createArrayDev createArray arrayMetadataText
    cases hj : m.toJson with
    | err e => rfl
    | panic => rfl
    | ok j =>
      simp only
      rw [devValue_room (by rw [hp]; exact hf j hj), hp]
  · intro attrs fs hf
    unfold setAttributesDev setAttributes
    have : ∀ o, devValue free (pieces (.obj (mergedDoc o attrs))) =
        (env.json.print (.obj (mergedDoc o attrs)), .ok ()) := by
      intro o
      rw [devValue_room (by rw [hp]; exact hf o), hp]
    simp only [this]

/-- The outcome of `set` does not depend on the bytes, only on whether the closure succeeds. -/
theorem storeSet_ok_of_ok {h : Hier} {key : Str} {v w : Bytes} {fs fs1 : Fs}
    (hs : storeSet h key (v, .ok ()) fs = (.ok (), fs1)) :
    ∃ fs', storeSet h key (w, .ok ()) fs = (.ok (), fs') := by
  unfold storeSet at hs ⊢
  split at hs
  · simp at hs
  · simp at hs
  · simp only at hs ⊢
    split at hs
    · simp at hs
    · simp at hs
    · split at hs
      · simp at hs
      · simp at hs
      · exact ⟨_, rfl⟩

/-- Beyond the checks, `create_array` is one `set`. -/
theorem createGuard {h : Hier} {path : Str} {v : Bytes × Outcome Unit} {fs fs1 : Fs}
    (hw : (do
      let g ← storeExists h (groupMetadataKey h.entry path)
      if g then M.lift (.err .alreadyExists)
      else do
        let a ← storeExists h (arrayMetadataKey h.entry path)
        if a then M.lift (.err .alreadyExists)
        else storeSet h (arrayMetadataKey h.entry path) v : M Fs Unit) fs = (.ok (), fs1)) :
    ∀ w : Bytes × Outcome Unit, (do
      let g ← storeExists h (groupMetadataKey h.entry path)
      if g then M.lift (.err .alreadyExists)
      else do
        let a ← storeExists h (arrayMetadataKey h.entry path)
        if a then M.lift (.err .alreadyExists)
        else storeSet h (arrayMetadataKey h.entry path) w : M Fs Unit) fs =
      storeSet h (arrayMetadataKey h.entry path) w fs := by
  intro w
  have e1 := storeExists_state h (groupMetadataKey h.entry path) fs
  have e2 := storeExists_state h (arrayMetadataKey h.entry path) fs
  simp only [M.bind_apply] at hw ⊢
  cases hg : storeExists h (groupMetadataKey h.entry path) fs with
  | mk r1 fs2 =>
    rw [hg] at hw e1
    subst e1
    cases r1 with
    | err e => simp at hw
    | panic => simp at hw
    | ok g =>
      cases g with
      | true => simp at hw
      | false =>
        simp only [Bool.false_eq_true, if_false, M.bind_apply] at hw ⊢
        cases ha : storeExists h (arrayMetadataKey h.entry path) fs2 with
        | mk r2 fs3 =>
          rw [ha] at hw e2
          subst e2
          cases r2 with
          | err e => simp at hw
          | panic => simp at hw
          | ok a =>
            cases a with
            | true => simp at hw
            | false => rfl

/-- **C61 is violated** for every array whose metadata takes less than 8192 bytes and does not fit on
the device: if `create_array` succeeds elsewhere, it succeeds here, but the document is cut off; on a
full device the array exists and its metadata cannot be read. -/
theorem C61_violated (free : Nat) (pieces : Json → List Bytes) (env : Env) (h : Hier) (path : Str)
    (m : ArrayMetadata) (fs fs1 : Fs) (hp : ∀ j, (pieces j).flatten = env.json.print j)
    (hjson : env.json.Lawful) (hw : createArray env h path m fs = (.ok (), fs1)) :
    ∃ j, m.toJson = .ok j ∧
    ((env.json.print j).length < 8192 →
      ∃ fs', createArrayDev free pieces h path m fs = (.ok (), fs') ∧
        storeGet h (arrayMetadataKey h.entry path) fs' =
          (.ok (some ((env.json.print j).take free)), fs') ∧
        (free = 0 → (nodeExists h path fs').1 = .ok true ∧
          ∃ e, (getArrayMetadata env h path fs').1 = .err e)) := by
  have hguard := createGuard hw
  have hset : storeSet h (arrayMetadataKey h.entry path) (arrayMetadataText env m) fs = (.ok (), fs1) := by
    rw [← hguard]; exact hw
  have hok := storeSet_result_ok hset
  unfold arrayMetadataText at hok hset
  generalize hj : m.toJson = tj at hok hset
  cases tj with
  | err e => exact absurd hok (by simp)
  | panic => exact absurd hok (by simp)
  | ok j =>
    refine ⟨j, rfl, fun hsmall => ?_⟩
    obtain ⟨fs', hw'⟩ := storeSet_ok_of_ok (w := (env.json.print j).take free) hset
    have hrun : createArrayDev free pieces h path m fs = (.ok (), fs') := by
      unfold createArrayDev
      rw [hguard, hj]
      simp only
      rw [devValue_small (by rw [hp]; exact hsmall), hp, hw']
    have hget := storeGet_of_storeSet hw'
    refine ⟨fs', hrun, hget, fun h0 => ?_⟩
    subst h0
    rw [List.take_zero] at hget
    constructor
    · simp only [nodeExists, M.bind_apply, storeExists_of_get hget, if_true, M.pure_apply]
    · refine ⟨.json, ?_⟩
      simp only [getArrayMetadata, M.bind_apply, hget, Outcome.ofOption, M.lift_apply,
        parseArrayMetadata, hjson.raw_nil, Outcome.bind_err]

set_option maxRecDepth 20000 in
example :
    let pieces := fun j => (jsonText.print j).map fun b => [b]
    (∀ j, (pieces j).flatten = jsonText.print j) ∧
    (createArray Demo.envJ Demo.hier Demo.path Demo.arr Demo.emptyFs).1 = .ok () ∧
    (createArrayDev 100 pieces Demo.hier Demo.path Demo.arr Demo.emptyFs).1 = .ok () ∧
    (getArrayMetadata Demo.envJ Demo.hier Demo.path
      (createArrayDev 100 pieces Demo.hier Demo.path Demo.arr Demo.emptyFs).2).1 = .err .json ∧
    (getArrayMetadata Demo.envJ Demo.hier Demo.path
      (createArrayDev 8000 pieces Demo.hier Demo.path Demo.arr Demo.emptyFs).2).1 = .ok Demo.arr := by
  refine ⟨fun j => ?_, ?_⟩
  · simp only
    induction jsonText.print j with
    | nil => rfl
    | cons b bs ih => rw [List.map_cons, List.flatten_cons, ih]; rfl
  · decide +kernel

end Zarr
