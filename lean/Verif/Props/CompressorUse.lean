import Verif.Props.Libraries
import Verif.Props.Compression
import Verif.Props.Metadata
/-!
# C49: the configuration that reaches the compression libraries
-/

namespace Zarr

open Spec

/-- `b` is what the library makes of the pieces with the configuration: bzip2 with the block size, gzip with the level,
or 6 for levels it does not have, LZ4 with the least block size it has that is not below the configured one or the
largest, xz with the preset as an unsigned number. -/
def Spec.Compressed (libs : Libraries) (f : Features) (segs : List Bytes) (b : Bytes) : CompressionType → Prop
  | .raw => b = segs.flatten
  | .bzip2 k => b = (libs.bz k segs).1
  | .gzip l => ∃ n : Nat, b = (libs.gz n segs).1 ∧ if 0 ≤ l ∧ l ≤ 9 then (n : Int) = l else n = 6
  | .lz4 k => f.lzPure = false → ∃ s : LzBlockSize, b = (libs.lz s segs).1 ∧
      (∀ s' : LzBlockSize, k ≤ s'.getSize → k ≤ s.getSize ∧ s.getSize ≤ s'.getSize) ∧
      ((∀ s' : LzBlockSize, ¬ k ≤ s'.getSize) → s = .max4MB)
  | .xz p => ∃ n : Nat, b = (libs.xz n segs).1 ∧ n < 2 ^ 32 ∧ ((n : Int) = p ∨ (n : Int) = p + 2 ^ 32)

theorem lzBlockSize_least {k : Int} (h1 : -2 ^ 31 ≤ k) (h2 : k < 2 ^ 31) (s' : LzBlockSize) (hs : k ≤ s'.getSize) :
    k ≤ (lzEffectiveBlockSize k).getSize ∧ (lzEffectiveBlockSize k).getSize ≤ s'.getSize := by
  have := ((C49.2 k h1 h2).2.1 s'.getSize (by cases s' <;> decide)) hs
  exact this

/-- **C49**, what reaches the libraries: if `write_chunk` returns `Ok`, the file of the chunk holds what the compression
library makes of the elements' bytes with the configured block size, level or preset. -/
theorem C49_used (libs : Libraries) (f : Features) (env : Env) (h : Hier) (path : Str) (m : ArrayMetadata) {t : RsType}
    (c : DataChunk t) (fs fs' : Fs) (henv : env.codecs = libs.codecs f) (hm : m.compressor.WellTyped)
    (hw : writeChunk env h path m c fs = (.ok (), fs')) :
    ∃ d segs b, m.dataType.effectiveType = .ok d ∧ segs.flatten = c.data.flatMap (elBytes (d.endian env.native)) ∧
      storeGet h (chunkKey path m c.gridPosition) fs' = (.ok (some b), fs') ∧
      Compressed libs f segs b m.compressor := by
  have hok := storeSet_result_ok hw
  obtain ⟨d, segs, hd, _, _, hs, he⟩ := writeChunkBytes_ok hok
  refine ⟨d, segs, _, hd, hs, storeGet_of_storeSet hw, ?_⟩
  rw [he, henv]
  generalize m.compressor = k at hm
  cases k with
  | raw => rfl
  | bzip2 k => rfl
  | gzip l =>
    refine ⟨gzipEffectiveLevel l, rfl, ?_⟩
    unfold gzipEffectiveLevel flate2DefaultLevel
    by_cases hr : 0 ≤ l ∧ l ≤ 9
    · rw [if_pos hr, if_neg (by omega)]; omega
    · rw [if_neg hr, if_pos (by omega)]
  | lz4 k =>
    intro hf
    refine ⟨lzEffectiveBlockSize k, by simp [codecOf, Libraries.codecs, hf, Libraries.lz4Codec], ?_, ?_⟩
    · exact fun s' hs' => lzBlockSize_least hm.1 hm.2 s' hs'
    · intro hn
      have h1 := hn .max4MB
      simp only [CompressionType.WellTyped] at hm
      unfold lzEffectiveBlockSize i32AsUsize
      simp only [LzBlockSize.getSize] at h1
      rw [if_neg (by simp only [LzBlockSize.getSize]; omega), if_neg (by simp only [LzBlockSize.getSize]; omega),
        if_neg (by simp only [LzBlockSize.getSize]; omega)]
  | xz p =>
    simp only [CompressionType.WellTyped] at hm
    refine ⟨i32AsU32 p, rfl, ?_, ?_⟩ <;> unfold i32AsU32 <;> omega

/-- Libraries that begin with what they were called with. -/
def Demo.libsTagged : Libraries :=
  { Demo.libs with
    bz := fun l segs => (BitVec.ofNat 8 l :: segs.flatten, .ok ())
    gz := fun l segs => (BitVec.ofNat 8 l :: segs.flatten, .ok ())
    lz := fun s segs => (BitVec.ofNat 8 (s.getSize / 65536) :: segs.flatten, .ok ())
    xz := fun p segs => (BitVec.ofNat 8 p :: segs.flatten, .ok ()) }

/-- What is stored for several configurations of each kind. -/
example :
    let env := { Demo.env with codecs := Demo.libsTagged.codecs Demo.featuresC }
    let stored := fun k => (storeGet Demo.hier (chunkKey Demo.path (Demo.arrWith k) [1])
      (writeChunk env Demo.hier Demo.path (Demo.arrWith k) Demo.chunk Demo.emptyFs).2).1
    stored (.gzip 4) = .ok (some [4, 1, 2, 0, 7]) ∧ stored (.gzip 77) = .ok (some [6, 1, 2, 0, 7]) ∧
    stored (.bzip2 9) = .ok (some [9, 1, 2, 0, 7]) ∧ stored (.lz4 70000) = .ok (some [4, 1, 2, 0, 7]) ∧
    stored (.lz4 (-1)) = .ok (some [1, 1, 2, 0, 7]) ∧ stored (.xz 7) = .ok (some [7, 1, 2, 0, 7]) := by
  decide +kernel

/-- **C102 (violated), always.** Every array whose configuration of bzip2 or xz the library refuses: if `create_array`
returns `Ok`, the metadata is read back, nothing having been refused, and then every `write_chunk` of a chunk that fits
panics where a chunk can be stored, leaving an empty file. -/
theorem C102_violated_always (env : Env) (h : Hier) (path : Str) (m : ArrayMetadata) {t : RsType} (c : DataChunk t)
    (fs fs1 fs2 : Fs) (libs : Libraries) (f : Features) (hl : Documented libs) (henv : env.codecs = libs.codecs f)
    (hj : env.json.Lawful) (hm : Faithful env.features env.json.floats m) (hpure : NotPure f m.compressor)
    (hbad : ¬ Accepted m.compressor) (hc : ChunkFits m c) (hcreate : createArray env h path m fs = (.ok (), fs1))
    (hwf : fs2.WF) (hb : Plain (segs h.base)) (hp : Plain (segs path)) (hs : GoodSep m.separator)
    (hwr : Writable fs2 (h.loc (chunkKey path m c.gridPosition))) :
    getArrayMetadata env h path fs1 = (.ok m, fs1) ∧
    ∃ fs3, writeChunk env h path m c fs2 = (.panic, fs3) ∧
      fs3.content (h.loc (chunkKey path m c.gridPosition)) = some [] :=
  ⟨C31_partial hj hm hcreate,
    (C102_partial env h path m c fs2 libs f hl henv hm.comp.1 hpure hc hwf hb hp hs hwr).2 hbad⟩

set_option maxRecDepth 20000 in
/-- An array with `"blockSize": 10`, and one with `"preset": -1`. -/
example : ¬ Accepted (.bzip2 10) ∧ ¬ Accepted (.xz (-1)) ∧ ChunkFits (Demo.arrWith (.bzip2 10)) Demo.chunk ∧
    (createArray Demo.envJ Demo.hier Demo.path (Demo.arrWith (.bzip2 10)) Demo.emptyFs).1 = .ok () ∧
    Writable Demo.emptyFs (Demo.hier.loc (chunkKey Demo.path (Demo.arrWith (.bzip2 10)) [1])) :=
  ⟨by decide, by decide, Demo.arrWith_fits _, by decide +kernel, Demo.empty_writable _⟩

end Zarr
