import Verif.Model.Libraries
import Verif.Props.LzPure
import Verif.Props.Refine
/-!
# Compressor configurations (C102) -/

namespace Zarr

open Spec

/-! ## Specification -/

/-- Compressing and decompressing gives the bytes back. -/
def Spec.RoundTrips (write : List Bytes → Bytes × Outcome Unit) (read : Bytes → Outcome DecStream) : Prop :=
  ∀ segs, (write segs).2 = .ok () ∧ read (write segs).1 = .ok ⟨segs.flatten, none⟩

/-- Building the encoder panics. -/
def Spec.Refuses (write : List Bytes → Bytes × Outcome Unit) : Prop := ∀ segs, write segs = ([], .panic)

/-- What the documentation and sources of the compression libraries say: bzip2 has block sizes from 1 to 9, gzip levels up to
9, LZ4 four block sizes, xz presets from 0 to 9 with or without the bit `LZMA_PRESET_EXTREME` (bit 31); building an encoder of
bzip2 or xz with another number panics (`assert_eq!(BZ2_bzCompressInit(..), 0)`, `Stream::new_easy_encoder(..).unwrap()`). -/
structure Spec.Documented (libs : Libraries) : Prop where
  bz : ∀ l, 1 ≤ l ∧ l ≤ 9 → RoundTrips (libs.bz l) libs.bzRead
  bzOther : ∀ l, ¬ (1 ≤ l ∧ l ≤ 9) → Refuses (libs.bz l)
  gz : ∀ l, l ≤ 9 → RoundTrips (libs.gz l) libs.gzRead
  lz : ∀ b, RoundTrips (libs.lz b) libs.lzRead
  xz : ∀ p, p ≤ 9 ∨ 2 ^ 31 ≤ p ∧ p ≤ 2 ^ 31 + 9 → RoundTrips (libs.xz p) libs.xzRead
  xzOther : ∀ p, ¬ (p ≤ 9 ∨ 2 ^ 31 ≤ p ∧ p ≤ 2 ^ 31 + 9) → Refuses (libs.xz p)

/-- The configurations that the libraries accept. -/
def Spec.Accepted : CompressionType → Prop
  | .raw | .gzip _ | .lz4 _ => True
  | .bzip2 b => 1 ≤ b ∧ b ≤ 9
  | .xz p => 0 ≤ p ∧ p ≤ 9 ∨ -2 ^ 31 ≤ p ∧ p ≤ -2 ^ 31 + 9

instance (c : CompressionType) : Decidable (Accepted c) := by
  cases c <;> unfold Accepted <;> infer_instance

/-- The compressor is not the pure-Rust LZ4, which is C51. -/
def Spec.NotPure (f : Features) : CompressionType → Prop
  | .lz4 _ => f.lzPure = false
  | _ => True

/-! ## Proofs -/

theorem accepted_codec {libs : Libraries} (hl : Documented libs) {f : Features} {c : CompressionType} (hw : c.WellTyped)
    (hp : NotPure f c) (ha : Accepted c) :
    RoundTrips (codecOf (libs.codecs f) c).encode (codecOf (libs.codecs f) c).decode := by
  cases c with
  | raw => exact fun segs => ⟨rfl, rfl⟩
  | bzip2 b => exact hl.bz b ha
  | gzip l => exact hl.gz _ (by unfold gzipEffectiveLevel flate2DefaultLevel; split <;> omega)
  | lz4 b =>
    have hp : f.lzPure = false := hp
    simp only [codecOf, Libraries.codecs, hp, Bool.false_eq_true, if_false]
    exact hl.lz _
  | xz p =>
    refine hl.xz (i32AsU32 p) ?_
    simp only [CompressionType.WellTyped, Accepted] at hw ha
    unfold i32AsU32
    omega

theorem refused_codec {libs : Libraries} (hl : Documented libs) {f : Features} {c : CompressionType} (hw : c.WellTyped)
    (ha : ¬ Accepted c) : Refuses (codecOf (libs.codecs f) c).encode := by
  cases c with
  | raw => exact absurd trivial ha
  | bzip2 b => exact hl.bzOther b ha
  | gzip l => exact absurd trivial ha
  | lz4 b => exact absurd trivial ha
  | xz p =>
    refine hl.xzOther (i32AsU32 p) ?_
    simp only [CompressionType.WellTyped, Accepted] at hw ha
    unfold i32AsU32
    omega

/-- A chunk that fits the array. -/
structure Spec.ChunkFits (m : ArrayMetadata) {t : RsType} (c : DataChunk t) : Prop where
  call : ChunkCallOk m t c.gridPosition
  length : c.data.length = m.chunkShape.prod
  small : m.chunkShape.prod < 2 ^ 32

/-- **C102 (part).** With libraries as documented, a configuration that they accept works: the chunk is written and
read back. With any other (of bzip2 and xz) `write_chunk` panics, and the chunk's file is left empty, whatever it held.

The full claim, for every configuration that a document can hold, is violated: `C102_violated`. -/
theorem C102_partial (env : Env) (h : Hier) (path : Str) (m : ArrayMetadata) {t : RsType} (c : DataChunk t) (fs : Fs)
    (libs : Libraries) (f : Features) (hl : Documented libs) (henv : env.codecs = libs.codecs f)
    (hw : m.compressor.WellTyped) (hpure : NotPure f m.compressor) (hc : ChunkFits m c)
    (hwf : fs.WF) (hb : Plain (segs h.base)) (hp : Plain (segs path)) (hs : GoodSep m.separator)
    (hwr : Writable fs (h.loc (chunkKey path m c.gridPosition))) :
    (Accepted m.compressor → ∃ fs', writeChunk env h path m c fs = (.ok (), fs') ∧
      readChunk env h path m t c.gridPosition fs' = (.ok (some c), fs')) ∧
    (¬ Accepted m.compressor → ∃ fs', writeChunk env h path m c fs = (.panic, fs') ∧
      fs'.content (h.loc (chunkKey path m c.gridPosition)) = some []) := by
  obtain ⟨d, hd, hk⟩ := hc.call.type
  obtain ⟨sg, _, hwb⟩ := writeChunkBytes_fits (ext := env.codecs) (native := env.native)
    (m := m) (c := c) (effective_iff.mpr hd) ((eqModuloEndian_iff_kind _ _ _).mpr hk)
    (by rw [hc.length, Nat.mod_eq_of_lt hc.small]; rfl)
  have hpl := plain_loc_chunk (h := h) (m := m) hb hp hs c.gridPosition
  obtain ⟨fs', e, w, hget⟩ := (storeSet_spec (h := h) (key := chunkKey path m c.gridPosition)
    (writeChunkBytes env.codecs env.native m c) hwf hpl).1 hwr
  constructor
  · intro ha
    have hr := accepted_codec hl hw hpure ha
    rw [← henv] at hr
    have hok : (writeChunkBytes env.codecs env.native m c).2 = .ok () := by rw [hwb]; exact (hr sg).1
    have hwc : writeChunk env h path m c fs = (.ok (), fs') := by unfold writeChunk; rw [e, hok]
    exact ⟨fs', hwc, C01 env h path m c fs fs' (fun s _ => (hr s).2) hc.length hc.call.bounds hwc⟩
  · intro ha
    have hr := refused_codec (f := f) hl hw ha
    rw [← henv] at hr
    have hpn : writeChunkBytes env.codecs env.native m c = ([], .panic) := by rw [hwb]; exact hr sg
    refine ⟨fs', by unfold writeChunk; rw [e, hpn], ?_⟩
    apply Fs.content_eq_some.mpr
    rw [hget, setSpec, if_pos rfl, hpn]

/-- **C102, named compressors.** The configurations of `CompressionType::from_str`, and those of documents that leave the
number out, are accepted. -/
theorem C102_named (f : Features) (s : Str) (c : CompressionType) (hs : CompressionType.fromStr f s = .ok c) :
    Accepted c ∧ c.WellTyped := by
  unfold CompressionType.fromStr at hs
  dsimp only at hs
  split at hs
  · cases hs; exact ⟨by decide, by simp [CompressionType.WellTyped, CompressionType.bzip2Default, CompressionType.gzipDefault, CompressionType.xzDefault, CompressionType.lz4Default]⟩
  split at hs
  · cases hs; exact ⟨by decide, by simp [CompressionType.WellTyped, CompressionType.bzip2Default, CompressionType.gzipDefault, CompressionType.xzDefault, CompressionType.lz4Default]⟩
  split at hs
  · cases hs; exact ⟨by decide, by simp [CompressionType.WellTyped, CompressionType.bzip2Default, CompressionType.gzipDefault, CompressionType.xzDefault, CompressionType.lz4Default]⟩
  split at hs
  · cases hs; exact ⟨by decide, by simp [CompressionType.WellTyped, CompressionType.bzip2Default, CompressionType.gzipDefault, CompressionType.xzDefault, CompressionType.lz4Default]⟩
  split at hs
  · cases hs; exact ⟨by decide, by simp [CompressionType.WellTyped, CompressionType.bzip2Default, CompressionType.gzipDefault, CompressionType.xzDefault, CompressionType.lz4Default]⟩
  · cases hs

/-! ## A library, a configuration that works and three that do not -/

/-- Libraries that check the number and leave the bytes as they are after a mark. -/
def Demo.plainLib (good : Bool) (segs : List Bytes) : Bytes × Outcome Unit :=
  if good then (1 :: segs.flatten, .ok ()) else ([], .panic)

def Demo.plainRead : Bytes → Outcome DecStream
  | [] => .err .unexpectedEof
  | _ :: b => .ok ⟨b, none⟩

def Demo.libs : Libraries where
  bz l := Demo.plainLib (decide (1 ≤ l ∧ l ≤ 9))
  bzRead := Demo.plainRead
  gz _ := Demo.plainLib true
  gzRead := Demo.plainRead
  lz _ := Demo.plainLib true
  lzRead := Demo.plainRead
  xz p := Demo.plainLib (decide (p ≤ 9 ∨ 2 ^ 31 ≤ p ∧ p ≤ 2 ^ 31 + 9))
  xzRead := Demo.plainRead
  fear := Demo.lz

theorem Demo.plainLib_true : RoundTrips (Demo.plainLib true) Demo.plainRead := fun _ => ⟨rfl, rfl⟩

theorem Demo.libs_documented : Documented Demo.libs where
  bz l hl := by simp only [Demo.libs, decide_eq_true hl]; exact Demo.plainLib_true
  bzOther l hl := by simp only [Demo.libs, decide_eq_false hl]; exact fun _ => rfl
  gz _ _ := Demo.plainLib_true
  lz _ := Demo.plainLib_true
  xz p hp := by simp only [Demo.libs, decide_eq_true hp]; exact Demo.plainLib_true
  xzOther p hp := by simp only [Demo.libs, decide_eq_false hp]; exact fun _ => rfl

/-- A build with the C library of LZ4. -/
def Demo.featuresC : Features := { Demo.env.features with lzPure := false }

def Demo.envLibs : Env := { Demo.envJ with codecs := Demo.libs.codecs Demo.featuresC }

/-- `Demo.arr` with a compressor. -/
def Demo.arrWith (c : CompressionType) : ArrayMetadata := { Demo.arr with compressor := c }

theorem Demo.arrWith_fits (c : CompressionType) : ChunkFits (Demo.arrWith c) Demo.chunk where
  call := ⟨rfl, _, rfl, rfl⟩
  length := rfl
  small := by show 2 < 2 ^ 32; decide

theorem Demo.empty_writable (c : CompressionType) :
    Writable Demo.emptyFs (Demo.hier.loc (chunkKey Demo.path (Demo.arrWith c) [1])) := by
  constructor
  · intro l _ _ b hb
    by_cases hl : l = []
    · subst hl; simp [Demo.emptyFs, Fs.get, Fs.lookup] at hb
    · simp [Demo.emptyFs, Fs.get, Fs.lookup, Ne.symm hl] at hb
  · show Demo.emptyFs.get (Demo.hier.loc (chunkKey Demo.path Demo.arr [1])) ≠ some .dir
    decide

/-- The hypotheses hold, and both cases occur. -/
example (c : CompressionType) (hw : c.WellTyped) :
    (Accepted c → ∃ fs', writeChunk Demo.envLibs Demo.hier Demo.path (Demo.arrWith c) Demo.chunk Demo.emptyFs = (.ok (), fs') ∧
      readChunk Demo.envLibs Demo.hier Demo.path (Demo.arrWith c) .u16 [1] fs' = (.ok (some Demo.chunk), fs')) ∧
    (¬ Accepted c → ∃ fs', writeChunk Demo.envLibs Demo.hier Demo.path (Demo.arrWith c) Demo.chunk Demo.emptyFs = (.panic, fs') ∧
      fs'.content (Demo.hier.loc (chunkKey Demo.path (Demo.arrWith c) [1])) = some []) :=
  C102_partial Demo.envLibs Demo.hier Demo.path (Demo.arrWith c) Demo.chunk Demo.emptyFs Demo.libs Demo.featuresC
    Demo.libs_documented rfl hw (by cases c <;> trivial) (Demo.arrWith_fits c) Demo.emptyFs_wf (by decide) (by decide)
    (.inl rfl) (Demo.empty_writable c)

example : Accepted (.bzip2 9) ∧ Accepted (.xz 6) ∧ Accepted (.xz (-2 ^ 31)) ∧ Accepted (.gzip 100) ∧
    ¬ Accepted (.bzip2 0) ∧ ¬ Accepted (.bzip2 10) ∧ ¬ Accepted (.xz 10) ∧ ¬ Accepted (.xz (-1)) := by decide

set_option maxRecDepth 20000 in
/-- **C102, violated.** Documents with `"blockSize": 0`, `"preset": 10` and `"preset": -1` are accepted and give arrays
whose chunks cannot be written: `write_chunk` panics. What the chunk held before is lost. -/
theorem C102_violated :
    ∃ (env : Env) (libs : Libraries) (f : Features) (h : Hier) (path : Str) (fs : Fs) (c : DataChunk .u16),
      env.codecs = libs.codecs f ∧ Documented libs ∧ env.features = f ∧
      (∀ k ∈ [CompressionType.bzip2 0, .bzip2 10, .xz 10, .xz (-1)],
        ∃ fs1, createArray env h path (Demo.arrWith k) fs = (.ok (), fs1) ∧
          (getArrayMetadata env h path fs1).1 = .ok (Demo.arrWith k) ∧
          (writeChunk env h path (Demo.arrWith k) c fs1).1 = .panic) ∧
      ∃ fs1 fs2, writeChunk env h path (Demo.arrWith (.bzip2 9)) c fs = (.ok (), fs1) ∧
        readChunk env h path (Demo.arrWith (.bzip2 9)) .u16 c.gridPosition fs1 = (.ok (some c), fs1) ∧
        writeChunk env h path (Demo.arrWith (.bzip2 10)) c fs1 = (.panic, fs2) ∧
        fs2.content (h.loc (chunkKey path Demo.arr c.gridPosition)) = some [] := by
  refine ⟨{ Demo.envLibs with features := Demo.featuresC }, Demo.libs, Demo.featuresC, Demo.hier, Demo.path, Demo.emptyFs, Demo.chunk,
    rfl, Demo.libs_documented, rfl, ?_, _, _, rfl, by decide +kernel, rfl, by decide +kernel⟩
  intro k hk
  simp only [List.mem_cons, List.not_mem_nil, or_false] at hk
  rcases hk with rfl | rfl | rfl | rfl
  all_goals exact ⟨_, rfl, by decide +kernel, by decide +kernel⟩

end Zarr
