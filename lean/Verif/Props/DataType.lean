import Verif.Lemmas.Chunk
import Verif.Lemmas.ChunkKey
import Verif.Spec.Layout
import Verif.Demo
/-!
# Data types: C29, C30, C52, C55, C56
-/

namespace Zarr

open Spec

/-! ## C29 -/

theorem dec_length_le (k : Nat) : ∀ n, n < 10 ^ (k + 1) → ∀ f, (decAux f n).length ≤ k + 1 := by
  induction k with
  | zero =>
    intro n hn f
    cases f with
    | zero => simp [decAux]
    | succ f => simp at hn; simp [decAux, hn]
  | succ k ih =>
    intro n hn f
    cases f with
    | zero => simp [decAux]
    | succ f =>
      unfold decAux
      split
      · simp
      · have h1 : n / 10 < 10 ^ (k + 1) := by
          rw [Nat.div_lt_iff_lt_mul (by omega), ← Nat.pow_succ]; exact hn
        simpa using ih _ h1 f

theorem parseDigits_none (s : Str) (acc : Nat) (c : Char) (hc : c ∈ s) (hv : digitVal c = none) :
    parseDigits acc s = none := by
  induction s generalizing acc with
  | nil => simp at hc
  | cons d ds ih =>
    simp only [parseDigits]
    cases hd : digitVal d with
    | none => rfl
    | some x =>
      rcases List.mem_cons.mp hc with rfl | hc
      · rw [hv] at hd; simp at hd
      · exact ih _ hc

theorem parseUsize_dec_nul (n k : Nat) :
    parseUsize (dec n ++ List.replicate (k + 1) (Char.ofNat 0)) = none := by
  obtain ⟨c, r, h, hd⟩ := dec_cons n
  have hnone := parseDigits_none (dec n ++ List.replicate (k + 1) (Char.ofNat 0)) 0 (Char.ofNat 0)
    (by simp) (by decide)
  rw [h] at hnone ⊢
  have hplus : c ≠ '+' := by intro he; rw [he] at hd; simp [isDigit] at hd
  unfold parseUsize
  rw [List.cons_append] at hnone ⊢
  split
  · rename_i heq
    exact absurd (List.cons.inj heq).1 hplus
  · simp [hnone]

/-- **C29, violated.** A raw type never survives: its text is padded with NUL characters and is
refused when read back. One-byte integers declared big-endian come back little-endian. -/
theorem C29_violated :
    (∀ n, n < 2 ^ 64 → ∃ j, (DataType.raw n).toJson = .ok j ∧ DataType.fromJson j = .err .json) ∧
    (∃ j, (DataType.int .B1 .big).toJson = .ok j ∧ DataType.fromJson j ≠ .ok (.int .B1 .big)) ∧
    (∃ j, (DataType.uint .B1 .big).toJson = .ok j ∧ DataType.fromJson j ≠ .ok (.uint .B1 .big)) := by
  refine ⟨?_, ⟨_, rfl, by decide⟩, ⟨_, rfl, by decide⟩⟩
  intro n hn
  have hlen : (dec n).length ≤ 20 := dec_length_le 19 n (by omega) _
  obtain ⟨k, hk⟩ : ∃ k, 32 - ('r' :: dec n).length = k + 1 :=
    ⟨30 - (dec n).length, by simp; omega⟩
  refine ⟨.str ('r' :: dec n ++ List.replicate (k + 1) (Char.ofNat 0)), ?_, ?_⟩
  · simp only [DataType.toJson, DataType.serialize]
    rw [if_pos (by simp; omega), hk]
    rfl
  · simp only [DataType.fromJson, DataType.visitStr, List.cons_append]
    rw [if_neg (by simp), if_neg (by simp), if_neg (by simp)]
    simp only [parseUsize_dec_nul]

/-- **C29, what holds.** Every other type is read back as it was written, in particular both byte
orders of all multi-byte types. Missing from the full property: raw types and one-byte integers
declared big-endian, for which it is false. -/
theorem C29_partial (d : DataType) (hraw : ∀ n, d ≠ .raw n)
    (hb1 : d ≠ .int .B1 .big ∧ d ≠ .uint .B1 .big) :
    ∃ j, d.toJson = .ok j ∧ DataType.fromJson j = .ok d := by
  cases d with
  | bool => exact ⟨_, rfl, by decide⟩
  | int s e =>
    cases s <;> cases e <;>
      first
        | exact ⟨_, rfl, by decide⟩
        | exact absurd rfl hb1.1
  | uint s e =>
    cases s <;> cases e <;>
      first
        | exact ⟨_, rfl, by decide⟩
        | exact absurd rfl hb1.2
  | float s e => cases s <;> cases e <;> exact ⟨_, rfl, by decide⟩
  | raw n => exact absurd rfl (hraw n)

example : (∀ n, DataType.float .B8 .big ≠ .raw n) ∧ DataType.float .B8 .big ≠ .int .B1 .big ∧
    DataType.float .B8 .big ≠ .uint .B1 .big := by simp

/-! ## C30 -/

/-- **C30, violated.** Strings of three bytes can make deserialization panic. -/
theorem C30_violated :
    DataType.fromJson (.str str!"foo") = .panic ∧ DataType.fromJson (.str str!"<i3") = .panic ∧
    DataType.fromJson (.str str!"<f1") = .panic ∧
    ExtensibleDataType.fromJson (.str str!"foo") = .panic := by decide

/-- A three-byte type string with a byte order mark whose size digit is one its kind knows; any
second character other than `i`, `u`, `f` will do, too. -/
def Spec.Harmless3 (s : Str) : Prop :=
  ∃ o r, s = o :: r ∧ (o = '<' ∨ o = '>') ∧
    ((∃ z, r = ['i', z] ∧ z ∈ ['1', '2', '4', '8']) ∨
     (∃ z, r = ['u', z] ∧ z ∈ ['1', '2', '4', '8']) ∨
     (∃ z, r = ['f', z] ∧ z ∈ ['2', '4', '8']) ∨
     (∃ k t, r = k :: t ∧ k ≠ 'i' ∧ k ≠ 'u' ∧ k ≠ 'f'))

theorem utf8Size_pos (c : Char) : 1 ≤ c.utf8Size := Char.utf8Size_pos c

theorem byteLen3 {s : Str} (h : byteLen s = 3) : s.length ≤ 3 ∧ s ≠ [] := by
  have : ∀ s : Str, s.length ≤ byteLen s := by
    intro s
    induction s with
    | nil => simp [byteLen]
    | cons c s ih =>
      have := utf8Size_pos c
      simp only [byteLen, List.map_cons, List.sum_cons, List.length_cons] at ih ⊢
      omega
  refine ⟨h ▸ this s, ?_⟩
  rintro rfl
  simp [byteLen] at h

theorem visitStr_panic_iff (s : Str) :
    DataType.visitStr s = .panic ↔ byteLen s = 3 ∧ (∀ r, s ≠ 'r' :: r) ∧ DataType.visit3 s = .panic := by
  unfold DataType.visitStr
  split
  · rename_i h; subst h; simp; decide
  split
  · rename_i h; subst h; simp; decide
  split
  · rename_i h; subst h; simp; decide
  split
  · constructor
    · intro h; split at h <;> try split at h
      all_goals simp at h
    · rintro ⟨_, h, _⟩; exact absurd rfl (h _)
  · rename_i hr
    constructor
    · intro h
      split at h
      · exact ⟨by assumption, fun r hs => hr r hs, h⟩
      · simp at h
    · rintro ⟨h1, _, h2⟩
      simp [h1, h2]

/-- **C30, what holds, exactly.** Deserialization panics for precisely those strings of three UTF-8
bytes that do not start with `r` and are not a byte order mark followed by a known kind and size or
an unknown kind. Missing from the full property: those strings, for which it is false. -/
theorem C30_partial (s : Str) :
    DataType.fromJson (.str s) = .panic ↔
      byteLen s = 3 ∧ (∀ r, s ≠ 'r' :: r) ∧ ¬ Spec.Harmless3 s := by
  rw [DataType.fromJson, visitStr_panic_iff]
  constructor
  · rintro ⟨h1, h2, h3⟩
    refine ⟨h1, h2, ?_⟩
    rintro ⟨o, r, rfl, ho, h⟩
    rcases ho with rfl | rfl <;>
    · rcases h with ⟨z, rfl, hz⟩ | ⟨z, rfl, hz⟩ | ⟨z, rfl, hz⟩ | ⟨k, t, rfl, hi, hu, hf⟩
      · simp at hz; rcases hz with rfl | rfl | rfl | rfl <;> revert h3 <;> decide
      · simp at hz; rcases hz with rfl | rfl | rfl | rfl <;> revert h3 <;> decide
      · simp at hz; rcases hz with rfl | rfl | rfl <;> revert h3 <;> decide
      · simp [DataType.visit3, Endian.deserialChar, hi, hu, hf] at h3
  · rintro ⟨h1, h2, h3⟩
    refine ⟨h1, h2, ?_⟩
    obtain ⟨hlen, hne⟩ := byteLen3 h1
    rcases s with _ | ⟨o, r⟩
    · exact absurd rfl hne
    unfold DataType.visit3 Endian.deserialChar
    by_cases ho : o = '<' ∨ o = '>'
    · have hsome : ∃ e, (if o = '>' then some Endian.big else if o = '<' then some Endian.little
          else none) = some e := by
        rcases ho with rfl | rfl
        · exact ⟨.little, by decide⟩
        · exact ⟨.big, by decide⟩
      obtain ⟨e, he⟩ := hsome
      simp only [he]
      rcases r with _ | ⟨k, t⟩
      · rfl
      have hk : k = 'i' ∨ k = 'u' ∨ k = 'f' := by
        by_cases hi : k = 'i'
        · exact .inl hi
        by_cases hu : k = 'u'
        · exact .inr (.inl hu)
        by_cases hf : k = 'f'
        · exact .inr (.inr hf)
        exact absurd ⟨o, k :: t, rfl, ho, .inr (.inr (.inr ⟨k, t, rfl, hi, hu, hf⟩))⟩ h3
      rcases t with _ | ⟨z, u⟩
      · rcases hk with rfl | rfl | rfl <;> simp
      have hu : u = [] := by
        simp at hlen; exact hlen
      subst hu
      rcases hk with rfl | rfl | rfl
      · have hz : z ∉ ['1', '2', '4', '8'] := fun hz =>
          h3 ⟨o, ['i', z], rfl, ho, .inl ⟨z, rfl, hz⟩⟩
        simp at hz
        simp [IntSize.deserialChar, hz]
      · have hz : z ∉ ['1', '2', '4', '8'] := fun hz =>
          h3 ⟨o, ['u', z], rfl, ho, .inr (.inl ⟨z, rfl, hz⟩)⟩
        simp at hz
        simp [IntSize.deserialChar, hz]
      · have hz : z ∉ ['2', '4', '8'] := fun hz =>
          h3 ⟨o, ['f', z], rfl, ho, .inr (.inr (.inl ⟨z, rfl, hz⟩))⟩
        simp at hz
        simp [FloatSize.deserialChar, hz]
    · simp only [not_or] at ho
      simp [ho.1, ho.2]

example : Spec.Harmless3 str!"<u4" ∧ ¬ Spec.Harmless3 str!"<u3" := by
  refine ⟨⟨'<', ['u', '4'], rfl, .inl rfl, .inr (.inl ⟨'4', rfl, by decide⟩)⟩, ?_⟩
  rintro ⟨o, r, h, _, h'⟩
  simp at h
  obtain ⟨rfl, rfl⟩ := h
  simp at h'

/-! ## C55 -/

/-- **C55.** The declared Zarr type of an element type has the element's size, and that of the raw type
`[u8; n]`, with `8 n` bits, has `n` bytes and no other element type; equality up to byte
order is an equivalence relation, and it holds exactly for types that agree once byte order is
forgotten; the dispatch chooses the element type whose Zarr type the data type is, and no other. -/
theorem C55 (native : Endian) :
    (∀ t : RsType, (t.zarrType native).sizeOf = t.size ∧
      kindOf (t.zarrType native) = kindOfRs t) ∧
    (∀ n : Nat, (DataType.raw (8 * n)).sizeOf = n ∧ (DataType.raw (8 * n)).matchRs = none) ∧
    (∀ a : DataType, a.eqModuloEndian a = true) ∧
    (∀ a b : DataType, a.eqModuloEndian b = true → b.eqModuloEndian a = true) ∧
    (∀ a b c : DataType, a.eqModuloEndian b = true → b.eqModuloEndian c = true →
      a.eqModuloEndian c = true) ∧
    (∀ a b : DataType, a.eqModuloEndian b = true ↔ kindOf a = kindOf b) ∧
    (∀ (d : DataType) (t : RsType), d.matchRs = some t ↔ kindOf d = kindOfRs t) ∧
    (∀ (d : DataType) (t t' : RsType), d.eqModuloEndian (t.zarrType native) = true →
      d.eqModuloEndian (t'.zarrType native) = true → t = t') := by
  have hk : ∀ a b : DataType, a.eqModuloEndian b = true ↔ kindOf a = kindOf b := by
    intro a b
    cases a with
    | bool => cases b <;> simp [DataType.eqModuloEndian, kindOf] <;> rename_i s e <;> cases s <;> simp
    | int s e =>
      cases b <;> cases s <;> simp [DataType.eqModuloEndian, kindOf] <;> rename_i s e <;> cases s <;> simp
    | uint s e =>
      cases b <;> cases s <;> simp [DataType.eqModuloEndian, kindOf] <;> rename_i s e <;> cases s <;> simp
    | float s e =>
      cases b <;> cases s <;> simp [DataType.eqModuloEndian, kindOf] <;> rename_i s e <;> cases s <;> simp
    | raw n => cases b <;> simp [DataType.eqModuloEndian, kindOf] <;> rename_i s e <;> cases s <;> simp
  have hm : ∀ (d : DataType) (t : RsType), d.matchRs = some t ↔ kindOf d = kindOfRs t := by
    intro d t
    cases d with
    | bool => cases t <;> simp [DataType.matchRs, kindOf, kindOfRs]
    | int s e => cases s <;> cases t <;> simp [DataType.matchRs, kindOf, kindOfRs]
    | uint s e => cases s <;> cases t <;> simp [DataType.matchRs, kindOf, kindOfRs]
    | float s e => cases s <;> cases t <;> simp [DataType.matchRs, kindOf, kindOfRs]
    | raw n => cases t <;> simp [DataType.matchRs, kindOf, kindOfRs]
  have hz : ∀ t : RsType, kindOf (t.zarrType native) = kindOfRs t := by
    intro t; cases t <;> rfl
  refine ⟨fun t => ⟨by cases t <;> rfl, hz t⟩, fun n => ⟨?_, rfl⟩, fun a => (hk a a).mpr rfl, ?_, ?_, hk, hm, ?_⟩
  · simp only [DataType.sizeOf]; omega
  · intro a b h; rw [hk] at *; exact h.symm
  · intro a b c h h'; rw [hk] at *; exact h.trans h'
  · intro d t t' h h'
    rw [hk, hz] at h h'
    rw [← hm] at h h'
    rw [h] at h'
    exact Option.some.inj h'

/-! ## C56 -/

/-- **C56, violated.** With an extension type that declares no fallback, every `write_chunk` that
reaches the file panics, and so does reading any stored chunk. -/
theorem C56_violated : ∃ (m : ArrayMetadata) (c : DataChunk .u16) (fs fs' : Fs),
    (∃ e s, m.dataType = .extended e s none) ∧
    (writeChunk Demo.env Demo.hier Demo.path m c Demo.emptyFs).1 = .panic ∧
    writeChunk Demo.env Demo.hier Demo.path Demo.arr Demo.chunk fs = (.ok (), fs') ∧
    (readChunk Demo.env Demo.hier Demo.path m .u16 Demo.chunk.gridPosition fs').1 = .panic := by
  refine ⟨{ Demo.arr with dataType := .extended str!"x" str!"<M8" none }, Demo.chunk, Demo.emptyFs,
    (writeChunk Demo.env Demo.hier Demo.path Demo.arr Demo.chunk Demo.emptyFs).2, ⟨_, _, rfl⟩, ?_,
    ?_, ?_⟩ <;> decide

/-- **C56, what holds.** With a declared fallback, reading (both ways) and writing chunks is the
same as for an array declared with the fallback as its data type. Missing from the full property:
extension types without a fallback, where the code panics instead of returning an error. -/
theorem C56_partial (env : Env) (h : Hier) (path : Str) (m : ArrayMetadata) (e s : Str)
    (d : DataType) (t : RsType) (hm : m.dataType = .extended e s (some d)) :
    (∀ pos fs, readChunk env h path m t pos fs =
      readChunk env h path { m with dataType := .core d } t pos fs) ∧
    (∀ pos buf fs, readChunkInto env h path m t pos buf fs =
      readChunkInto env h path { m with dataType := .core d } t pos buf fs) ∧
    (∀ (c : DataChunk t) fs, writeChunk env h path m c fs =
      writeChunk env h path { m with dataType := .core d } c fs) := by
  have heff : m.dataType.effectiveType =
      ({ m with dataType := .core d } : ArrayMetadata).dataType.effectiveType := by
    rw [hm]; rfl
  have hck : checkArrayType env.native m t =
      checkArrayType env.native { m with dataType := .core d } t := by
    simp only [checkArrayType, heff]
  have hrd : ∀ n st, readData env.native m.dataType t n st = readData env.native (.core d) t n st := by
    intro n st
    unfold readData
    cases t <;> simp only [heff]
  have hwd : ∀ xs : List (El t), writeData env.native m.dataType xs =
      writeData env.native (.core d) xs := by
    intro xs
    unfold writeData
    cases t <;> simp only [heff]
  refine ⟨?_, ?_, ?_⟩
  · intro pos fs
    have : ∀ b, readChunkBytes env.codecs env.native m t pos b =
        readChunkBytes env.codecs env.native { m with dataType := .core d } t pos b := by
      intro b; simp only [readChunkBytes, hck, hrd]; rfl
    simp only [readChunk, this]; rfl
  · intro pos buf fs
    have : ∀ b, readChunkIntoBytes env.codecs env.native m t pos b buf =
        readChunkIntoBytes env.codecs env.native { m with dataType := .core d } t pos b buf := by
      intro b; simp only [readChunkIntoBytes, hck, hrd]; rfl
    simp only [readChunkInto, this]; rfl
  · intro c fs
    have : writeChunkBytes env.codecs env.native m c =
        writeChunkBytes env.codecs env.native { m with dataType := .core d } c := by
      simp only [writeChunkBytes, hck, hwd]; rfl
    simp only [writeChunk, this]; rfl

example : ({ Demo.arr with dataType := .extended str!"x" str!"<M8" (some (.uint .B2 .big)) } :
    ArrayMetadata).dataType = .extended str!"x" str!"<M8" (some (.uint .B2 .big)) := rfl

/-! ## C52 -/

/-- The values of an integer type: least and one past the greatest. -/
def Spec.intRange : RsType → Option (Int × Int)
  | .u8 => some (0, 2 ^ 8) | .u16 => some (0, 2 ^ 16) | .u32 => some (0, 2 ^ 32)
  | .u64 => some (0, 2 ^ 64)
  | .i8 => some (-2 ^ 7, 2 ^ 7) | .i16 => some (-2 ^ 15, 2 ^ 15) | .i32 => some (-2 ^ 31, 2 ^ 31)
  | .i64 => some (-2 ^ 63, 2 ^ 63)
  | .bool | .f16 | .f32 | .f64 => none

/-- The integer an element of an integer type stands for (two's complement for the signed types). -/
def Spec.intValue {t : RsType} (x : El t) : Int :=
  match t with
  | .i8 | .i16 | .i32 | .i64 =>
    if x.toNat < 2 ^ (8 * t.size - 1) then x.toNat else (x.toNat : Int) - 2 ^ (8 * t.size)
  | _ => x.toNat

/-- **C52.** Without a fill value the effective fill value is zero (false); for an integer type an
integer in the type's range gives the element standing for it, everything else is an error; for
`bool` exactly the JSON booleans are accepted; for a floating point type the result is what serde
makes of the value. -/
theorem C52 (env : Env) (m : ArrayMetadata) (t : RsType) :
    (m.fillValue = none → ∃ x, effectiveFillValue env m t = .ok x ∧ x.toNat = 0) ∧
    (∀ j, m.fillValue = some j →
      (∀ lo hi, intRange t = some (lo, hi) →
        (∀ i, j = .int i → lo ≤ i → i < hi →
          ∃ x, effectiveFillValue env m t = .ok x ∧ intValue x = i) ∧
        ((∀ i, j = .int i → i < lo ∨ hi ≤ i) → effectiveFillValue env m t = .err .json)) ∧
      (t = .bool → (∀ b, j = .bool b → ∃ x : El t, effectiveFillValue env m t = .ok x ∧
          x.toNat = b.toNat) ∧
        ((∀ b, j ≠ .bool b) → effectiveFillValue env m t = .err .json)) ∧
      (t = .f16 ∨ t = .f32 ∨ t = .f64 →
        (∀ n, env.floatFill t j = some n → effectiveFillValue env m t = .ok (El.ofNat t n)) ∧
        (env.floatFill t j = none → effectiveFillValue env m t = .err .json))) := by
  constructor
  · intro h
    refine ⟨El.default t, by simp [effectiveFillValue, h], ?_⟩
    cases t <;> rfl
  · intro j hj
    refine ⟨?_, ?_, ?_⟩
    · intro lo hi hr
      constructor
      · rintro i rfl h1 h2
        cases t <;> simp [intRange] at hr <;> obtain ⟨rfl, rfl⟩ := hr <;>
        · simp only [effectiveFillValue, hj, elFromJson, Json.asIntIn]
          rw [if_pos ⟨by omega, by omega⟩]
          refine ⟨_, rfl, ?_⟩
          simp only [intValue, El.toNat, El.ofNat, RsType.size]
          simp only [BitVec.toNat_ofNat]
          first
            | omega
            | (split <;> omega)
      · intro hno
        have hasInt : j.asIntIn lo hi = .err .json := by
          cases j with
          | int i =>
            simp only [Json.asIntIn]
            rw [if_neg]
            have := hno i rfl
            omega
          | _ => rfl
        cases t <;> simp [intRange] at hr <;> obtain ⟨rfl, rfl⟩ := hr <;>
        · simp only [effectiveFillValue, hj, elFromJson]
          simp only [Int.reduceNeg, Int.reducePow] at hasInt ⊢
          rw [hasInt]
          rfl
    · rintro rfl
      constructor
      · rintro b rfl
        refine ⟨b, ?_, rfl⟩
        simp only [effectiveFillValue, hj, elFromJson, Json.asBool]
        cases b <;> rfl
      · intro hno
        cases j with
        | bool b => exact absurd rfl (hno b)
        | _ => simp only [effectiveFillValue, hj, elFromJson, Json.asBool]; rfl
    · rintro (rfl | rfl | rfl) <;>
      · constructor
        · intro n hn
          simp only [effectiveFillValue, hj, elFromJson, hn]; rfl
        · intro hn
          simp only [effectiveFillValue, hj, elFromJson, hn]; rfl

example : intRange .i8 = some (-128, 128) ∧ (-128 : Int) ≤ -5 ∧ (-5 : Int) < 128 := by decide

end Zarr
