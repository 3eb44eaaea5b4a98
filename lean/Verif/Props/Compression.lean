import Verif.Lemmas.Json
import Verif.Model.Metadata
import Verif.Demo
/-!
# Compressor configuration: C49, C50
-/

namespace Zarr

/-! ## C49 -/

/-- The block sizes the LZ4 frame format knows, in bytes. -/
def Spec.lz4Sizes : List Nat := [65536, 262144, 1048576, 4194304]

/-- **C49.** For every 32-bit level the gzip level used is at most 9 and is the configured one when
that lies in `0..=9`; for every 32-bit block size the LZ4 block size used is a supported one, the
least that is not below the configured one, or the largest if there is none. -/
theorem C49 :
    (∀ level : Int, gzipEffectiveLevel level ≤ 9 ∧
      (0 ≤ level → level ≤ 9 → (gzipEffectiveLevel level : Int) = level)) ∧
    (∀ b : Int, -2 ^ 31 ≤ b → b < 2 ^ 31 →
      (lzEffectiveBlockSize b).getSize ∈ Spec.lz4Sizes ∧
      (∀ s ∈ Spec.lz4Sizes, b ≤ s → b ≤ (lzEffectiveBlockSize b).getSize ∧
        (lzEffectiveBlockSize b).getSize ≤ s) ∧
      ((∀ s ∈ Spec.lz4Sizes, ¬ b ≤ s) → ∀ s ∈ Spec.lz4Sizes,
        s ≤ (lzEffectiveBlockSize b).getSize)) := by
  constructor
  · intro level
    unfold gzipEffectiveLevel flate2DefaultLevel
    split
    · exact ⟨by omega, by omega⟩
    · exact ⟨by omega, by omega⟩
  · intro b h1 h2
    unfold lzEffectiveBlockSize i32AsUsize Spec.lz4Sizes
    split
    · rename_i h; simp [LzBlockSize.getSize] at h ⊢; omega
    split
    · rename_i h h'; simp [LzBlockSize.getSize] at h h' ⊢; omega
    split
    · rename_i h h' h''; simp [LzBlockSize.getSize] at h h' h'' ⊢; omega
    · rename_i h h' h''; simp [LzBlockSize.getSize] at h h' h'' ⊢; omega

example : gzipEffectiveLevel 4 = 4 ∧ gzipEffectiveLevel (-1) = 6 ∧
    (lzEffectiveBlockSize 70000).getSize = 262144 := by decide

/-! ## C50 -/

/-- The compressor of the same kind with the configuration documented as default. -/
def Spec.withDefaults : CompressionType → CompressionType
  | .raw => .raw
  | .bzip2 _ => .bzip2 9
  | .gzip _ => .gzip (-1)
  | .lz4 _ => .lz4 65536
  | .xz _ => .xz 6

theorem asciiLower_eq (c : Char) : CompressionType.asciiLower c = c.toLower := by
  have key : ∀ n, n < 26 → CompressionType.asciiLower (Char.ofNat (65 + n)) =
      (Char.ofNat (65 + n)).toLower := by decide
  by_cases h : 65 ≤ c.toNat ∧ c.toNat ≤ 90
  · have h1 := key (c.toNat - 65) (by omega)
    rw [show 65 + (c.toNat - 65) = c.toNat by omega, Char.ofNat_toNat] at h1
    exact h1
  · unfold CompressionType.asciiLower Char.toLower
    rw [if_neg h, dif_neg]
    rintro ⟨h1, h2⟩
    exact h ⟨h1, h2⟩

theorem CompressionType.fromJson_toJson (f : Features) (c : CompressionType) :
    CompressionType.fromJson f c.toJson = CompressionType.fromTag f c.tag c.config := by
  have h : c.toJson.members [str!"codec", str!"configuration"] 2
      = .ok [(str!"codec", .str c.tag), (str!"configuration", c.config)] := members_nodup (by simp)
  rw [CompressionType.fromJson, h]
  rfl

theorem intFieldOr_single (d lo hi : Int) (k : Str) (j : Json) :
    intFieldOr d lo hi k (.obj [(k, j)]) = j.asIntIn lo hi := by
  have h : (Json.obj [(k, j)]).members [k] 0 = .ok [(k, j)] := members_nodup (by simp)
  rw [intFieldOr, h]
  simp [objGet]

/-- **C50, violated.** With the `lz_pure` feature and not `lz`, the name `Lz4` displayed by the LZ4
compressor is refused when parsed. -/
theorem C50_violated : ∃ (f : Features) (c : CompressionType), c.enabled f = true ∧
    CompressionType.fromStr f c.display = .err .invalidInput :=
  ⟨⟨true, true, false, true, true⟩, .lz4 65536, by decide, by decide⟩

/-- **C50, what holds.** Every compiled-in compressor with any configuration is read back from its
JSON form; an array document without a compressor has the raw compressor; and the displayed name in
any letter case parses to the compressor with default configuration. Missing from the full property:
the name of LZ4 when only `lz_pure` is enabled, for which it is false. -/
theorem C50_partial (f : Features) :
    (∀ c : CompressionType, c.WellTyped → c.enabled f = true →
      CompressionType.fromJson f c.toJson = .ok c) ∧
    (∀ kvs m, objGet kvs str!"compressor" = none →
      ArrayMetadata.fromJson f (.obj kvs) = .ok m → m.compressor = .raw) ∧
    (∀ (c : CompressionType) (s : Str), c.enabled f = true → (∀ b, c = .lz4 b → f.lz = true) →
      s.map Char.toLower = c.display.map Char.toLower →
      CompressionType.fromStr f s = .ok (Spec.withDefaults c)) := by
  refine ⟨?_, ?_, ?_⟩
  · intro c hw he
    cases c with
    | raw => rfl
    | bzip2 b =>
      simp [CompressionType.enabled] at he
      have hb : (b : Int) < 256 := by simp [CompressionType.WellTyped] at hw; omega
      simp [CompressionType.fromJson_toJson, CompressionType.tag, CompressionType.fromTag, he, CompressionType.config, intFieldOr_single, Json.asIntIn,
        hb]
    | gzip l =>
      simp [CompressionType.enabled] at he
      simp [CompressionType.WellTyped] at hw
      simp [CompressionType.fromJson_toJson, CompressionType.tag, CompressionType.fromTag, he, CompressionType.config, intFieldOr_single, Json.asIntIn,
        hw]
    | lz4 l =>
      simp [CompressionType.enabled] at he
      simp [CompressionType.WellTyped] at hw
      simp [CompressionType.fromJson_toJson, CompressionType.tag, CompressionType.fromTag, he, CompressionType.config, intFieldOr_single, Json.asIntIn,
        hw]
    | xz l =>
      simp [CompressionType.enabled] at he
      simp [CompressionType.WellTyped] at hw
      simp [CompressionType.fromJson_toJson, CompressionType.tag, CompressionType.fromTag, he, CompressionType.config, intFieldOr_single, Json.asIntIn,
        hw]
  · intro kvs m hno h
    simp only [ArrayMetadata.fromJson, Outcome.bind_eq_ok] at h
    obtain ⟨o, ho, h⟩ := h
    obtain ⟨rfl, _⟩ := uniqueMembers_eq_ok.mp ho
    simp only [hno, Outcome.bind_eq_ok, Outcome.pure_def, Outcome.ok.injEq] at h
    repeat obtain ⟨_, _, h⟩ := h
    rename_i hc
    exact hc.symm
  · intro c s he hlz hs
    have hl : s.map CompressionType.asciiLower = c.display.map Char.toLower := by
      rw [← hs]; apply List.map_congr_left; intro x _; exact asciiLower_eq x
    cases c with
    | raw =>
      have : s.map CompressionType.asciiLower = str!"raw" := by rw [hl]; simp only [CompressionType.display]; decide
      simp [CompressionType.fromStr, this, Spec.withDefaults]
    | bzip2 b =>
      have : s.map CompressionType.asciiLower = str!"bzip2" := by rw [hl]; simp only [CompressionType.display]; decide
      simp [CompressionType.enabled] at he
      simp [CompressionType.fromStr, this, Spec.withDefaults, he, CompressionType.bzip2Default]
    | gzip b =>
      have : s.map CompressionType.asciiLower = str!"gzip" := by rw [hl]; simp only [CompressionType.display]; decide
      simp [CompressionType.enabled] at he
      simp [CompressionType.fromStr, this, Spec.withDefaults, he, CompressionType.gzipDefault]
    | lz4 b =>
      have : s.map CompressionType.asciiLower = str!"lz4" := by rw [hl]; simp only [CompressionType.display]; decide
      have he := hlz b rfl
      simp [CompressionType.fromStr, this, Spec.withDefaults, he, CompressionType.lz4Default]
    | xz b =>
      have : s.map CompressionType.asciiLower = str!"xz" := by rw [hl]; simp only [CompressionType.display]; decide
      simp [CompressionType.enabled] at he
      simp [CompressionType.fromStr, this, Spec.withDefaults, he, CompressionType.xzDefault]

example : (CompressionType.gzip 5).WellTyped ∧
    (CompressionType.gzip 5).enabled ⟨false, true, false, false, false⟩ = true ∧
    (str!"gZIP").map Char.toLower = (CompressionType.gzip 5).display.map Char.toLower := by
  refine ⟨by simp [CompressionType.WellTyped], by decide, by decide⟩

end Zarr
