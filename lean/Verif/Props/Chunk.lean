import Verif.Lemmas.Chunk
import Verif.Spec.Layout
import Verif.Demo
/-!
# Chunk reading and writing: C01, C02, C06-C11, C59
-/

namespace Zarr

open Spec

/-! ## Helpers relating the model to the specification -/

theorem effective_iff {x : ExtensibleDataType} {d : DataType} :
    x.effectiveType = .ok d ↔ effective x = some d := by
  cases x with
  | core e => simp [ExtensibleDataType.effectiveType, effective]
  | extended a b f => cases f <;> simp [ExtensibleDataType.effectiveType, effective]

theorem eqModuloEndian_iff_kind (native : Endian) (d : DataType) (t : RsType) :
    d.eqModuloEndian (t.zarrType native) = true ↔ kindOf d = kindOfRs t := by
  cases d with
  | bool => cases t <;> simp [RsType.zarrType, DataType.eqModuloEndian, kindOf, kindOfRs]
  | int s e => cases s <;> cases t <;> simp [RsType.zarrType, DataType.eqModuloEndian, kindOf, kindOfRs]
  | uint s e => cases s <;> cases t <;> simp [RsType.zarrType, DataType.eqModuloEndian, kindOf, kindOfRs]
  | float s e => cases s <;> cases t <;> simp [RsType.zarrType, DataType.eqModuloEndian, kindOf, kindOfRs]
  | raw n => cases t <;> simp [RsType.zarrType, DataType.eqModuloEndian, kindOf, kindOfRs]

theorem endian_eq_orderOf (native : Endian) (d : DataType) :
    d.endian native = (orderOf d).getD native := by
  cases d <;> rfl

theorem leBytes_eq_digits (k n : Nat) : leBytes k n = (List.range k).map (digit n) := by
  induction k generalizing n with
  | zero => rfl
  | succ k ih =>
    rw [leBytes, ih, List.range_succ_eq_map, List.map_cons, List.map_map]
    congr 1
    · simp [digit]
    · apply List.map_congr_left
      intro i _
      simp [digit, Nat.div_div_eq_div_mul, Nat.pow_succ, Nat.mul_comm]

theorem elBytes_eq_numBytes (e : Endian) {t : RsType} (x : El t) :
    elBytes e x = numBytes e t.size x.toNat := by
  cases e with
  | little => simp [elBytes, numBytes, leBytes_eq_digits]
  | big =>
    simp only [elBytes, numBytes, leBytes_eq_digits]
    apply List.ext_getElem
    · simp
    · intro i h1 h2
      simp

/-! ## C01 -/

/-- **C01.** A chunk with the number of elements the chunk shape calls for, written successfully at
an in-bounds position, is read back as it was. -/
theorem C01 (env : Env) (h : Hier) (path : Str) (m : ArrayMetadata) {t : RsType} (c : DataChunk t)
    (fs fs' : Fs) (hcodec : (codecOf env.codecs m.compressor).Lawful)
    (hlen : c.data.length = m.chunkShape.prod)
    (hin : m.inBounds c.gridPosition = .ok true)
    (hw : writeChunk env h path m c fs = (.ok (), fs')) :
    readChunk env h path m t c.gridPosition fs' = (.ok (some c), fs') := by
  have hg := storeGet_of_storeSet hw
  have hok := storeSet_result_ok hw
  rw [readChunk_inBounds hin hg]
  simp only
  rw [readChunkBytes_writeChunkBytes hcodec hlen hok]
  rfl

example : (Demo.arr.inBounds Demo.chunk.gridPosition = .ok true) ∧
    ∃ fs', writeChunk Demo.env Demo.hier Demo.path Demo.arr Demo.chunk Demo.emptyFs = (.ok (), fs') ∧
      readChunk Demo.env Demo.hier Demo.path Demo.arr .u16 [1] fs' = (.ok (some Demo.chunk), fs') :=
  ⟨by decide, _, rfl, by decide⟩

/-! ## C02 -/

/-- **C02.** With the raw compressor the chunk's file holds the elements in order, each as
`size_of(type)` bytes in the declared byte order, and nothing else. -/
theorem C02 (env : Env) (h : Hier) (path : Str) (m : ArrayMetadata) {t : RsType} (c : DataChunk t)
    (fs fs' : Fs) (hraw : m.compressor = .raw)
    (hw : writeChunk env h path m c fs = (.ok (), fs')) :
    ∃ d, effective m.dataType = some d ∧
      storeGet h (chunkKey path m c.gridPosition) fs' =
        (.ok (some (c.data.flatMap fun x =>
          numBytes ((orderOf d).getD env.native) t.size x.toNat)), fs') := by
  have hg := storeGet_of_storeSet hw
  have hok := storeSet_result_ok hw
  obtain ⟨d, segs, hd, _, _, hs, hwb⟩ := writeChunkBytes_ok hok
  refine ⟨d, effective_iff.mp hd, ?_⟩
  rw [hg, hwb, hraw]
  have : c.data.flatMap (elBytes (d.endian env.native)) = c.data.flatMap fun x =>
      numBytes ((orderOf d).getD env.native) t.size x.toNat := by
    rw [endian_eq_orderOf]; congr 1; funext x; exact elBytes_eq_numBytes _ x
  simp only [codecOf, rawCodec, hs, this]

example : storeGet Demo.hier (chunkKey Demo.path Demo.arr [1])
    (writeChunk Demo.env Demo.hier Demo.path Demo.arr Demo.chunk Demo.emptyFs).2
      = (.ok (some [1#8, 2#8, 0#8, 7#8]),
        (writeChunk Demo.env Demo.hier Demo.path Demo.arr Demo.chunk Demo.emptyFs).2) := by decide

/-! ## C06 -/

theorem storeErase_ok {h : Hier} {key : Str} {fs fs' : Fs} {b : Bool}
    (he : storeErase h key fs = (.ok b, fs')) :
    b = true ∧ storeGet h key fs' = (.ok none, fs') ∧ storeErase h key fs' = (.ok true, fs') := by
  unfold storeErase at he ⊢
  unfold storeGet
  cases hp : getPath h.base key with
  | err e => rw [hp] at he; simp at he
  | panic => rw [hp] at he; simp at he
  | ok target =>
    rw [hp] at he
    simp only [M.read_apply, Outcome.bind_ok] at he ⊢
    cases hl : fs.locate (segs target) with
    | ok l =>
      rw [hl] at he
      simp only at he
      cases hg : fs.get l with
      | none =>
        rw [hg] at he
        simp at he
        obtain ⟨rfl, rfl⟩ := he
        simp [hl, hg, Fs.isFile, Fs.node]
      | some n =>
        rw [hg] at he
        cases n with
        | dir => simp at he
        | file b' =>
          simp at he
          obtain ⟨hb, rfl⟩ := he
          have hmono : (fs.del l).locate (segs target) = .ok l := by
            refine walk_mono (fun x hx => ?_) _ _ _ hl
            rw [Fs.get_del, if_neg]
            · exact hx
            · intro e; subst e; rw [hg] at hx; simp at hx
          have hnone : (fs.del l).get l = none := by rw [Fs.get_del]; simp
          have hpe : (fs.del l).pathExists (segs target) = false := by
            simp [Fs.pathExists, Fs.node, hmono, hnone]
          rw [hpe] at hb
          refine ⟨by simpa using hb.symm, ?_, ?_⟩
          · simp [hmono, hnone, Fs.isFile, Fs.node]
          · simp [hmono, hnone]
    | err e =>
      rw [hl] at he
      simp at he
      obtain ⟨rfl, rfl⟩ := he
      simp [hl, Fs.isFile, Fs.node]
    | panic =>
      rw [hl] at he
      simp at he
      obtain ⟨rfl, rfl⟩ := he
      simp [hl, Fs.isFile, Fs.node]

theorem storeErase_not_ok {h : Hier} {key : Str} {fs fs' : Fs} {r : Outcome Bool}
    (he : storeErase h key fs = (r, fs')) (hr : ∀ b, r ≠ .ok b) : fs' = fs := by
  unfold storeErase at he
  split at he
  · simp at he; exact he.2.symm
  · simp at he; exact he.2.symm
  · simp only at he
    split at he
    · split at he
      · simp at he; exact absurd he.1.symm (hr _)
      · simp at he; exact he.2.symm
      · simp at he; exact absurd he.1.symm (hr _)
    · simp at he; exact absurd he.1.symm (hr _)

/-- **C06 (violated).** "Deleting an absent chunk succeeds" fails when a directory is at the chunk's
location: with array `a` and array `a/c1` holding chunks, `delete_chunk(a, [1])` is an error. -/
theorem C06_violated : ∃ (fs : Fs) (path : Str) (m : ArrayMetadata) (pos : List Nat), fs.WF ∧
    readChunk Demo.env Demo.hier path m .u16 pos fs = (.ok none, fs) ∧
    (deleteChunk Demo.hier path m pos fs).1 = .err .isADirectory := by
  refine ⟨(writeChunk Demo.env Demo.hier str!"a/c1" Demo.arr Demo.chunk Demo.emptyFs).2, str!"a",
    Demo.arr, [1], ?_, by decide, by decide⟩
  have := (storeSet_frame (h := Demo.hier) (key := chunkKey str!"a/c1" Demo.arr [1])
    (v := writeChunkBytes Demo.env.codecs Demo.env.native Demo.arr Demo.chunk)
    (fs := Demo.emptyFs) Demo.emptyFs_wf (by decide) (Prod.eta _).symm).1
  exact this

/-- **C06 (partial).** A `delete_chunk` that returns `Ok` returns `Ok(true)`, leaves the chunk absent,
and repeating it returns `Ok(true)` and changes nothing. If nothing is at the chunk's location the
call succeeds and changes nothing. If it fails it changes nothing. Missing: success when a directory
is at the chunk's location (see `C06_violated`). -/
theorem C06_partial (env : Env) (h : Hier) (path : Str) (m : ArrayMetadata) (t : RsType)
    (pos : List Nat) (fs : Fs) (hin : m.inBounds pos = .ok true) :
    (∀ b fs', deleteChunk h path m pos fs = (.ok b, fs') →
      b = true ∧ readChunk env h path m t pos fs' = (.ok none, fs') ∧
      deleteChunk h path m pos fs' = (.ok true, fs')) ∧
    (∀ p, getPath h.base (chunkKey path m pos) = .ok p → fs.pathExists (segs p) = false →
      deleteChunk h path m pos fs = (.ok true, fs)) ∧
    (∀ r fs', deleteChunk h path m pos fs = (r, fs') → (∀ b, r ≠ .ok b) → fs' = fs) := by
  refine ⟨?_, ?_, ?_⟩
  · intro b fs' he
    obtain ⟨h1, h2, h3⟩ := storeErase_ok he
    refine ⟨h1, ?_, h3⟩
    rw [readChunk_inBounds hin h2]
  · intro p hp hne
    unfold deleteChunk storeErase
    rw [hp]
    simp only [Fs.pathExists, Fs.node] at hne ⊢
    cases hl : fs.locate (segs p) with
    | ok l =>
      rw [hl] at hne
      simp at hne
      simp [hne]
    | err e => rfl
    | panic => rfl
  · intro r fs' he hr
    exact storeErase_not_ok he hr

example : ∃ fs', (deleteChunk Demo.hier Demo.path Demo.arr [1]
      (writeChunk Demo.env Demo.hier Demo.path Demo.arr Demo.chunk Demo.emptyFs).2) = (.ok true, fs') ∧
      readChunk Demo.env Demo.hier Demo.path Demo.arr .u16 [1] fs' = (.ok none, fs') :=
  ⟨_, rfl, by decide⟩

/-! ## C07 -/

/-- **C07 (violated).** A write of a chunk whose type or element count does not fit the array
returns an error *and* empties the chunk's file, on every tree where a chunk of that array is stored:
a stored, non-empty chunk is not readable afterwards. -/
theorem C07_violated (env : Env) (h : Hier) (path : Str) (m : ArrayMetadata) {t : RsType}
    (c : DataChunk t) (fs : Fs) (b : Bytes) (hwf : fs.WF)
    (hp : Plain (h.loc (chunkKey path m c.gridPosition)))
    (hstored : storeGet h (chunkKey path m c.gridPosition) fs = (.ok (some b), fs))
    (d : DataType) (hd : effective m.dataType = some d)
    (hbad : kindOf d ≠ kindOfRs t ∨ c.data.length % 2 ^ 32 ≠ m.chunkShape.prod) :
    ∃ e fs', writeChunk env h path m c fs = (.err e, fs') ∧
      storeGet h (chunkKey path m c.gridPosition) fs' = (.ok (some []), fs') := by
  rw [storeGet_eq hwf hp] at hstored
  have hget : fs.get (h.loc (chunkKey path m c.gridPosition)) = some (.file b) :=
    Fs.content_eq_some.mp (by simpa using hstored)
  have hwr : Writable fs (h.loc (chunkKey path m c.gridPosition)) := by
    refine ⟨fun l hl hne b' hb' => ?_, by rw [hget]; simp⟩
    rw [hwf.dir_of_prefix hl hne hget] at hb'
    simp at hb'
  have hclosure : ∃ e, writeChunkBytes env.codecs env.native m c = ([], .err e) := by
    have hd' := effective_iff.mpr hd
    unfold writeChunkBytes
    by_cases hk : kindOf d = kindOfRs t
    · have h1 : checkArrayType env.native m t = .ok () :=
        checkArrayType_ok.mpr ⟨d, hd', (eqModuloEndian_iff_kind _ _ _).mpr hk⟩
      rcases hbad with hbad | hbad
      · exact absurd hk hbad
      · refine ⟨.invalidData, ?_⟩
        rw [h1]
        simp only
        rw [if_pos]
        exact hbad
    · have h1 : checkArrayType env.native m t = .err .invalidInput := by
        apply checkArrayType_err hd'
        rw [Bool.eq_false_iff]
        intro hh; exact hk ((eqModuloEndian_iff_kind _ _ _).mp hh)
      exact ⟨.invalidInput, by rw [h1]⟩
  obtain ⟨e, he⟩ := hclosure
  obtain ⟨fs', h1, h2, h3⟩ := (storeSet_spec (writeChunkBytes env.codecs env.native m c) hwf hp).1 hwr
  refine ⟨e, fs', ?_, ?_⟩
  · unfold writeChunk; rw [h1, he]
  · rw [storeGet_eq h2 hp]
    have : fs'.content (h.loc (chunkKey path m c.gridPosition)) = some [] := by
      apply Fs.content_eq_some.mpr
      rw [h3, setSpec, if_pos rfl, he]
    rw [this]

/-- The violation on concrete data: a chunk is stored, a write of an `i8` chunk fails, and the stored
chunk then reads as an error instead of its old data. -/
example :
    let fs1 := (writeChunk Demo.env Demo.hier Demo.path Demo.arr Demo.chunk Demo.emptyFs).2
    let bad : DataChunk .i8 := ⟨[1], [(1#8 : BitVec 8), (2#8 : BitVec 8)]⟩
    let r := writeChunk Demo.env Demo.hier Demo.path Demo.arr bad fs1
    (readChunk Demo.env Demo.hier Demo.path Demo.arr .u16 [1] fs1).1 = .ok (some Demo.chunk) ∧
    r.1 = .err .invalidInput ∧
    (readChunk Demo.env Demo.hier Demo.path Demo.arr .u16 [1] r.2).1 = .err .unexpectedEof := by
  decide

/-- **C07 (partial).** A `write_chunk` that fails in the filesystem (a file or directory is in the way)
or at the path check changes nothing, so the old chunk reads as before. Missing: failures of the type
and element count checks, which come after truncation. -/
theorem C07_partial (env : Env) (h : Hier) (path : Str) (m : ArrayMetadata) {t : RsType}
    (c : DataChunk t) (fs fs' : Fs) (e : ErrKind) (hwf : fs.WF)
    (hp : Plain (h.loc (chunkKey path m c.gridPosition)))
    (hw : writeChunk env h path m c fs = (.err e, fs'))
    (hfit : (writeChunkBytes env.codecs env.native m c).2 = .ok ()) : fs' = fs := by
  obtain ⟨s1, s2⟩ := storeSet_spec (h := h) (key := chunkKey path m c.gridPosition)
    (writeChunkBytes env.codecs env.native m c) hwf hp
  by_cases hwr : Writable fs (h.loc (chunkKey path m c.gridPosition))
  · obtain ⟨fs1, h1, _⟩ := s1 hwr
    unfold writeChunk at hw
    rw [h1, hfit] at hw
    simp at hw
  · obtain ⟨e', h1⟩ := s2 hwr
    unfold writeChunk at hw
    rw [h1] at hw
    simp at hw
    exact hw.2.symm

example : ∃ e fs', writeChunk Demo.env Demo.hier str!"a" Demo.arr Demo.chunk
      (writeChunk Demo.env Demo.hier str!"a/c1" Demo.arr Demo.chunk Demo.emptyFs).2 = (.err e, fs') ∧
      (writeChunkBytes Demo.env.codecs Demo.env.native Demo.arr Demo.chunk).2 = .ok () :=
  ⟨_, _, rfl, by decide⟩

/-! ## C08 -/

/-- **C08.** Chunk data is returned by `read_chunk`/`read_chunk_into`, and accepted by `write_chunk`,
only if the Rust type has the kind and size of the array's effective type; if it does not, a stored
chunk makes the reads return an error, and `write_chunk` always returns an error. -/
theorem C08 (env : Env) (h : Hier) (path : Str) (m : ArrayMetadata) (t : RsType) (fs : Fs) :
    (∀ c : DataChunk t, (writeChunk env h path m c fs).1 = .ok () →
      ∃ d, effective m.dataType = some d ∧ kindOf d = kindOfRs t) ∧
    (∀ pos c, (readChunk env h path m t pos fs).1 = .ok (some c) →
      ∃ d, effective m.dataType = some d ∧ kindOf d = kindOfRs t) ∧
    (∀ pos buf c, (readChunkInto env h path m t pos buf fs).1 = .ok (true, c) →
      ∃ d, effective m.dataType = some d ∧ kindOf d = kindOfRs t) ∧
    (∀ d, effective m.dataType = some d → kindOf d ≠ kindOfRs t →
      (∀ c : DataChunk t, ∃ e, (writeChunk env h path m c fs).1 = .err e) ∧
      (∀ pos b, m.inBounds pos = .ok true → storeGet h (chunkKey path m pos) fs = (.ok (some b), fs) →
        (readChunk env h path m t pos fs).1 = .err .invalidInput ∧
        ∀ buf, (readChunkInto env h path m t pos buf fs).1 = .err .invalidInput)) := by
  refine ⟨?_, ?_, ?_, ?_⟩
  · intro c hw
    have hw' : writeChunk env h path m c fs = (.ok (), (writeChunk env h path m c fs).2) := by
      rw [← hw]
    obtain ⟨d, _, hd, ht, _⟩ := writeChunkBytes_ok (storeSet_result_ok hw')
    exact ⟨d, effective_iff.mp hd, (eqModuloEndian_iff_kind _ _ _).mp ht⟩
  · intro pos c hr
    have hchk : checkArrayType env.native m t = .ok () := by
      simp only [readChunk, M.bind_apply, M.lift_apply] at hr
      split at hr
      · rename_i heq
        split at hr
        · rename_i v _ _
          cases v with
          | none => simp at hr
          | some b =>
            simp only [M.bind_apply, M.lift_apply] at hr
            cases hc : checkArrayType env.native m t with
            | ok u => rfl
            | err e => simp [readChunkBytes, hc] at hr
            | panic => simp [readChunkBytes, hc] at hr
        · simp at hr
        · simp at hr
      · simp at hr
      · simp at hr
    obtain ⟨d, hd, ht⟩ := checkArrayType_ok.mp hchk
    exact ⟨d, effective_iff.mp hd, (eqModuloEndian_iff_kind _ _ _).mp ht⟩
  · intro pos buf c hr
    have hchk : checkArrayType env.native m t = .ok () := by
      simp only [readChunkInto, M.bind_apply, M.lift_apply] at hr
      split at hr
      · rename_i heq
        split at hr
        · rename_i v _ _
          cases v with
          | none => simp at hr
          | some b =>
            simp only [M.bind_apply, M.lift_apply] at hr
            cases hc : checkArrayType env.native m t with
            | ok u => rfl
            | err e => simp [readChunkIntoBytes, hc] at hr
            | panic => simp [readChunkIntoBytes, hc] at hr
        · simp at hr
        · simp at hr
      · simp at hr
      · simp at hr
    obtain ⟨d, hd, ht⟩ := checkArrayType_ok.mp hchk
    exact ⟨d, effective_iff.mp hd, (eqModuloEndian_iff_kind _ _ _).mp ht⟩
  · intro d hd hk
    have hchk : checkArrayType env.native m t = .err .invalidInput := by
      apply checkArrayType_err (effective_iff.mpr hd)
      rw [Bool.eq_false_iff]
      intro hh; exact hk ((eqModuloEndian_iff_kind _ _ _).mp hh)
    refine ⟨?_, ?_⟩
    · intro c
      have hv : writeChunkBytes env.codecs env.native m c = ([], .err .invalidInput) := by
        simp [writeChunkBytes, hchk]
      cases hw : (writeChunk env h path m c fs).1 with
      | err e => exact ⟨e, rfl⟩
      | ok u =>
        have hw' : writeChunk env h path m c fs = (.ok (), (writeChunk env h path m c fs).2) := by
          rw [← hw]
        have := storeSet_result_ok hw'
        rw [hv] at this; simp at this
      | panic =>
        exfalso
        unfold writeChunk at hw
        rw [hv] at hw
        exact storeSet_ne_panic (by simp) hw
    · intro pos b hin hg
      constructor
      · rw [readChunk_inBounds hin hg]
        simp [readChunkBytes, hchk]
      · intro buf
        simp [readChunkInto, assertInBounds_ok.mpr hin, hg, readChunkIntoBytes, hchk]

example :
    let fs1 := (writeChunk Demo.env Demo.hier Demo.path Demo.arr Demo.chunk Demo.emptyFs).2
    kindOf (.uint .B2 .big) = kindOfRs .u16 ∧ kindOf (.uint .B2 .big) ≠ kindOfRs .i16 ∧
    (readChunk Demo.env Demo.hier Demo.path Demo.arr .u16 [1] fs1).1 = .ok (some Demo.chunk) ∧
    (readChunk Demo.env Demo.hier Demo.path Demo.arr .i16 [1] fs1).1 = .err .invalidInput := by decide

/-! ## C09 -/

/-- **C09 (partial).** Among chunks of fewer than 2^32 elements, `write_chunk` accepts exactly the
element count of the chunk shape, and the file it leaves decodes to a full chunk. Missing: lengths of
2^32 and more (see `C09_violated`). -/
theorem C09_partial (env : Env) (h : Hier) (path : Str) (m : ArrayMetadata) {t : RsType}
    (c : DataChunk t) (fs : Fs) (hlt : c.data.length < 2 ^ 32) :
    ((writeChunk env h path m c fs).1 = .ok () → c.data.length = m.chunkShape.prod) ∧
    (c.data.length ≠ m.chunkShape.prod → ∀ d, effective m.dataType = some d →
      ∃ e, (writeChunk env h path m c fs).1 = .err e) ∧
    (∀ fs', writeChunk env h path m c fs = (.ok (), fs') →
      (codecOf env.codecs m.compressor).Lawful →
      ∃ b, storeGet h (chunkKey path m c.gridPosition) fs' = (.ok (some b), fs') ∧
        ∀ pos, ∃ c', readChunkBytes env.codecs env.native m t pos b = .ok c' ∧
          c'.data.length = m.chunkShape.prod) := by
  have hmod : c.data.length % 2 ^ 32 = c.data.length := Nat.mod_eq_of_lt hlt
  have first : (writeChunk env h path m c fs).1 = .ok () → c.data.length = m.chunkShape.prod := by
    intro hw
    have hw' : writeChunk env h path m c fs = (.ok (), (writeChunk env h path m c fs).2) := by
      rw [← hw]
    obtain ⟨d, _, _, _, hn, _⟩ := writeChunkBytes_ok (storeSet_result_ok hw')
    rw [hmod] at hn; exact hn
  refine ⟨first, ?_, ?_⟩
  · intro hne d hd
    cases hw : (writeChunk env h path m c fs).1 with
    | ok u => exact absurd (first hw) hne
    | err e => exact ⟨e, rfl⟩
    | panic =>
      exfalso
      refine storeSet_ne_panic ?_ hw
      unfold writeChunkBytes
      have : checkArrayType env.native m t ≠ .panic := by
        simp only [checkArrayType, effective_iff.mpr hd, Outcome.bind_ok]
        split <;> simp
      split
      · simp
      · rename_i hp; exact absurd hp this
      · rw [if_pos (by simp [DataChunk.numElements, hmod, ArrayMetadata.chunkNumElements, hne])]
        simp
  · intro fs' hw hcodec
    have hlen := first (by rw [hw])
    refine ⟨_, storeGet_of_storeSet hw, fun pos => ?_⟩
    exact ⟨_, readChunkBytes_writeChunkBytes hcodec hlen (storeSet_result_ok hw) pos, hlen⟩

example : (writeChunk Demo.env Demo.hier Demo.path Demo.arr Demo.chunk Demo.emptyFs).1 = .ok () ∧
    (writeChunk Demo.env Demo.hier Demo.path Demo.arr { Demo.chunk with data := Demo.chunk.data ++ Demo.chunk.data }
      Demo.emptyFs).1 = .err .invalidData := by decide

theorem demo_write_ok (c : DataChunk .u16) (hpos : c.gridPosition = [1])
    (hlen : c.data.length % 2 ^ 32 = Demo.arr.chunkShape.prod) :
    (writeChunk Demo.env Demo.hier Demo.path Demo.arr c Demo.emptyFs).1 = .ok () := by
  have hp : Plain (Demo.hier.loc (chunkKey Demo.path Demo.arr c.gridPosition)) := by
    rw [hpos]; decide
  have hw : Writable Demo.emptyFs (Demo.hier.loc (chunkKey Demo.path Demo.arr c.gridPosition)) := by
    rw [hpos]
    constructor
    · intro l _ _ b hb
      by_cases hl : l = []
      · subst hl; simp [Demo.emptyFs, Fs.get, Fs.lookup] at hb
      · simp [Demo.emptyFs, Fs.get, Fs.lookup, Ne.symm hl] at hb
    · decide
  have hfit : (writeChunkBytes Demo.env.codecs Demo.env.native Demo.arr c).2 = .ok () := by
    obtain ⟨segs, _, he⟩ := writeChunkBytes_fits (ext := Demo.env.codecs) (native := Demo.env.native)
      (m := Demo.arr) (c := c) (d := .uint .B2 .big) rfl (by decide) hlen
    rw [he]; rfl
  obtain ⟨fs', h1, _⟩ := (storeSet_spec (h := Demo.hier)
    (key := chunkKey Demo.path Demo.arr c.gridPosition)
    (writeChunkBytes Demo.env.codecs Demo.env.native Demo.arr c) Demo.emptyFs_wf hp).1 hw
  unfold writeChunk
  rw [h1, hfit]

/-- **C09 (violated).** The element count is compared after truncation to 32 bits: a chunk with
2^32 elements too many is accepted. -/
theorem C09_violated : ∃ (c : DataChunk .u16), c.data.length = 2 ^ 32 + Demo.arr.chunkShape.prod ∧
    (writeChunk Demo.env Demo.hier Demo.path Demo.arr c Demo.emptyFs).1 = .ok () := by
  obtain ⟨xs, hxs⟩ : ∃ xs : List (El .u16), xs.length = 2 ^ 32 + Demo.arr.chunkShape.prod :=
    ⟨List.replicate (2 ^ 32 + Demo.arr.chunkShape.prod) (El.default .u16), List.length_replicate⟩
  refine ⟨⟨[1], xs⟩, hxs, demo_write_ok _ rfl ?_⟩
  rw [hxs]
  decide

/-! ## C10 -/

/-- **C10.** For a stored file whose decoded stream is `s`: if `s` is shorter than a full chunk
`read_chunk` returns an error; otherwise it returns a chunk of exactly the right length that depends
only on the first full chunk of bytes of the stream. -/
theorem C10 (env : Env) (h : Hier) (path : Str) (m : ArrayMetadata) (t : RsType) (pos : List Nat)
    (fs : Fs) (b : Bytes) (s : DecStream) (d : DataType)
    (hsmall : m.chunkShape.prod < 2 ^ 32)
    (hin : m.inBounds pos = .ok true) (hd : effective m.dataType = some d)
    (hk : kindOf d = kindOfRs t)
    (hg : storeGet h (chunkKey path m pos) fs = (.ok (some b), fs))
    (hdec : (codecOf env.codecs m.compressor).decode b = .ok s) :
    (s.avail.length < m.chunkShape.prod * t.size →
      ∃ e, (readChunk env h path m t pos fs).1 = .err e) ∧
    (m.chunkShape.prod * t.size ≤ s.avail.length →
      ∃ c, (readChunk env h path m t pos fs).1 = .ok (some c) ∧ c.gridPosition = pos ∧
        c.data.length = m.chunkShape.prod ∧
        ∀ fs2 b2 s2, storeGet h (chunkKey path m pos) fs2 = (.ok (some b2), fs2) →
          (codecOf env.codecs m.compressor).decode b2 = .ok s2 →
          s2.avail.take (m.chunkShape.prod * t.size) = s.avail.take (m.chunkShape.prod * t.size) →
          (readChunk env h path m t pos fs2).1 = .ok (some c)) := by
  have hmod : m.chunkNumElements % 2 ^ 32 = m.chunkShape.prod := Nat.mod_eq_of_lt hsmall
  have hd' := effective_iff.mpr hd
  have hk' := (eqModuloEndian_iff_kind env.native d t).mpr hk
  have hr : ∀ fs b s, storeGet h (chunkKey path m pos) fs = (.ok (some b), fs) →
      (codecOf env.codecs m.compressor).decode b = .ok s →
      (readChunk env h path m t pos fs).1 =
        (if m.chunkShape.prod * t.size ≤ s.avail.length then
          .ok (some ⟨pos, elsOfBytes (d.endian env.native) t m.chunkShape.prod s.avail⟩)
        else .err (s.fail.getD .unexpectedEof)) := by
    intro fs b s hg hdec
    rw [readChunk_inBounds hin hg]
    simp only [readChunkBytes_eq hd' hk', hdec, Outcome.bind_ok, hmod]
    split <;> rfl
  constructor
  · intro hlt
    rw [hr fs b s hg hdec, if_neg (by omega)]
    exact ⟨_, rfl⟩
  · intro hle
    refine ⟨⟨pos, elsOfBytes (d.endian env.native) t m.chunkShape.prod s.avail⟩, ?_, rfl,
      elsOfBytes_length _ _ _ _, ?_⟩
    · rw [hr fs b s hg hdec, if_pos hle]
    · intro fs2 b2 s2 hg2 hdec2 htake
      have hle2 : m.chunkShape.prod * t.size ≤ s2.avail.length := by
        have := congrArg List.length htake
        simp only [List.length_take] at this
        omega
      rw [hr fs2 b2 s2 hg2 hdec2, if_pos hle2]
      rw [← elsOfBytes_take (d.endian env.native) t m.chunkShape.prod _ s2.avail (Nat.le_refl _),
        ← elsOfBytes_take (d.endian env.native) t m.chunkShape.prod _ s.avail (Nat.le_refl _), htake]

example :
    let fs1 := (storeSet Demo.hier (chunkKey Demo.path Demo.arr [1]) ([1#8, 2#8, 0#8], .ok ())
      Demo.emptyFs).2
    let fs2 := (storeSet Demo.hier (chunkKey Demo.path Demo.arr [1])
      ([1#8, 2#8, 0#8, 7#8, 9#8], .ok ()) Demo.emptyFs).2
    (readChunk Demo.env Demo.hier Demo.path Demo.arr .u16 [1] fs1).1 = .err .unexpectedEof ∧
    (readChunk Demo.env Demo.hier Demo.path Demo.arr .u16 [1] fs2).1 = .ok (some Demo.chunk) := by
  decide

/-! ## C11 -/

/-- **C11.** `read_chunk_into` has the outcome of `read_chunk`; when a chunk is present the buffer
ends up equal to the chunk `read_chunk` returns, whatever it held before, and when there is none the
buffer is untouched. -/
theorem C11 (env : Env) (h : Hier) (path : Str) (m : ArrayMetadata) (t : RsType) (pos : List Nat)
    (buf : DataChunk t) (fs : Fs) :
    readChunkInto env h path m t pos buf fs =
      match readChunk env h path m t pos fs with
      | (.ok none, fs') => (.ok (false, buf), fs')
      | (.ok (some c), fs') => (.ok (true, c), fs')
      | (.err e, fs') => (.err e, fs')
      | (.panic, fs') => (.panic, fs') := by
  have key : ∀ b, readChunkIntoBytes env.codecs env.native m t pos b buf
      = readChunkBytes env.codecs env.native m t pos b := by
    intro b
    simp only [readChunkIntoBytes, readChunkBytes, createDataChunk, DataChunk.reinitialize,
      List.length_append, List.length_take, List.length_replicate]
    have : min (m.chunkNumElements % 2 ^ 32) buf.data.length
        + (m.chunkNumElements % 2 ^ 32 - buf.data.length) = m.chunkNumElements % 2 ^ 32 := by omega
    rw [this]
  simp only [readChunkInto, readChunk, M.bind_apply, M.lift_apply]
  cases assertInBounds m pos with
  | err e => rfl
  | panic => rfl
  | ok u =>
    simp only
    rw [show storeGet h (chunkKey path m pos) fs = ((storeGet h (chunkKey path m pos) fs).1, fs) from rfl]
    cases (storeGet h (chunkKey path m pos) fs).1 with
    | err e => rfl
    | panic => rfl
    | ok v =>
      cases v with
      | none => rfl
      | some b =>
        simp only [M.bind_apply, M.lift_apply, key]
        cases readChunkBytes env.codecs env.native m t pos b <;> rfl

example :
    let fs1 := (writeChunk Demo.env Demo.hier Demo.path Demo.arr Demo.chunk Demo.emptyFs).2
    let buf : DataChunk .u16 := ⟨[9, 9], [(1#16 : BitVec 16), 1#16, 1#16, 1#16]⟩
    (readChunkInto Demo.env Demo.hier Demo.path Demo.arr .u16 [1] buf fs1).1 = .ok (true, Demo.chunk) ∧
    (readChunkInto Demo.env Demo.hier Demo.path Demo.arr .u16 [0] buf fs1).1 = .ok (false, buf) := by
  decide

/-! ## C59 -/

/-- **C59 (violated).** `write_chunk` accepts a chunk outside the grid, which `read_chunk` then
refuses with a panic. -/
theorem C59_violated : ∃ (c : DataChunk .u16) (fs' : Fs),
    writeChunk Demo.env Demo.hier Demo.path Demo.arr c Demo.emptyFs = (.ok (), fs') ∧
    (readChunk Demo.env Demo.hier Demo.path Demo.arr .u16 c.gridPosition fs').1 = .panic :=
  ⟨{ Demo.chunk with gridPosition := [17] }, _, rfl, by decide⟩

/-- **C59 (partial).** A chunk accepted at a position that `in_bounds` admits can be read back.
Missing: positions outside the grid. -/
theorem C59_partial (env : Env) (h : Hier) (path : Str) (m : ArrayMetadata) {t : RsType}
    (c : DataChunk t) (fs fs' : Fs) (hcodec : (codecOf env.codecs m.compressor).Lawful)
    (hlt : c.data.length < 2 ^ 32) (hin : m.inBounds c.gridPosition = .ok true)
    (hw : writeChunk env h path m c fs = (.ok (), fs')) :
    readChunk env h path m t c.gridPosition fs' = (.ok (some c), fs') :=
  C01 env h path m c fs fs' hcodec ((C09_partial env h path m c fs hlt).1 (by rw [hw])) hin hw

/-- The hypotheses hold for the example chunk. -/
example : (codecOf Demo.env.codecs Demo.arr.compressor).Lawful ∧ Demo.chunk.data.length < 2 ^ 32 ∧
    Demo.arr.inBounds Demo.chunk.gridPosition = .ok true ∧
    (writeChunk Demo.env Demo.hier Demo.path Demo.arr Demo.chunk Demo.emptyFs).1 = .ok () :=
  ⟨rawCodec_lawful, by decide, by decide, by decide⟩

end Zarr
