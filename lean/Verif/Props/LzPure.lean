import Verif.Model.LzPure
import Verif.Props.Chunk
/-!
# The pure-Rust LZ4 compressor: C51
-/

namespace Zarr

open Spec

/-! ## Specification -/

/-- `n` elements of type `t` are written with a single call: bytes always are, half floats only one by
one, other types up to 256. -/
def Spec.OneWrite (t : RsType) (n : Nat) : Prop := t = .u8 ∨ (n ≤ 256 ∧ (t = .f16 → n ≤ 1))

instance (t : RsType) (n : Nat) : Decidable (OneWrite t n) := by unfold OneWrite; infer_instance

/-! ## The write calls -/

theorem writeChunkBytes_segs {ext : Codecs} {native : Endian} {m : ArrayMetadata} {t : RsType}
    {c : DataChunk t} (h : (writeChunkBytes ext native m c).2 = .ok ()) :
    ∃ segs, writeData native m.dataType c.data = .ok segs ∧
      writeChunkBytes ext native m c = (codecOf ext m.compressor).encode segs := by
  unfold writeChunkBytes at h ⊢
  split at h
  · simp at h
  · simp at h
  · split at h
    · simp at h
    · rename_i hne
      rw [if_neg hne]
      split at h
      · simp at h
      · simp at h
      · rename_i segs hs
        exact ⟨segs, hs, rfl⟩

theorem chunks_nil {α : Type} (k : Nat) : chunks k ([] : List α) = [] := rfl

theorem chunks_one {α : Type} {k : Nat} {l : List α} (h0 : l ≠ []) (h : l.length ≤ k) :
    chunks k l = [l] := by
  unfold chunks
  cases l with
  | nil => exact absurd rfl h0
  | cons x xs =>
    rw [List.length_cons, chunksAux, if_neg (by simp), List.take_of_length_le h,
      List.drop_eq_nil_of_le h]
    cases xs.length <;> simp [chunksAux]

theorem chunks_many {α : Type} {k : Nat} {l : List α} (hk : 0 < k) (h : k < l.length) :
    ∃ rest, chunks k l = l.take k :: rest ∧ rest ≠ [] := by
  have hfl := chunks_flatten k hk l
  cases l with
  | nil => simp at h
  | cons x xs =>
    have he : chunks k (x :: xs) = (x :: xs).take k :: chunksAux k xs.length ((x :: xs).drop k) := by
      unfold chunks
      rw [List.length_cons, chunksAux, if_neg (by simp)]
    refine ⟨_, he, ?_⟩
    intro h0
    rw [he, h0] at hfl
    have := congrArg List.length hfl
    simp only [List.flatten_cons, List.flatten_nil, List.append_nil, List.length_take] at this
    omega

/-- The types written in pieces of 256. -/
theorem pieces_shape {t : RsType} (e : Endian) (data : List (El t)) :
    (data = [] → (chunks writeBuffer data).map (fun c => c.flatMap (elBytes e)) = []) ∧
    (data ≠ [] → data.length ≤ 256 →
      (chunks writeBuffer data).map (fun c => c.flatMap (elBytes e)) = [data.flatMap (elBytes e)]) ∧
    (256 < data.length → ∃ s rest,
      (chunks writeBuffer data).map (fun c => c.flatMap (elBytes e)) = s :: rest ∧
        s ≠ [] ∧ s.length < data.length * t.size) := by
  refine ⟨?_, ?_, ?_⟩
  · rintro rfl; rfl
  · intro h0 h; rw [chunks_one (k := writeBuffer) h0 h]; rfl
  · intro h
    obtain ⟨rest, hr, _⟩ := chunks_many (k := writeBuffer) (by decide) h
    refine ⟨(data.take writeBuffer).flatMap (elBytes e), rest.map (fun c => c.flatMap (elBytes e)),
      by rw [hr]; rfl, ?_⟩
    have hs : 0 < t.size := by cases t <;> simp [RsType.size]
    have hl : ((data.take writeBuffer).flatMap (elBytes e)).length = 256 * t.size := by
      rw [flatMap_elBytes_length, List.length_take,
        Nat.min_eq_left (a := writeBuffer) (Nat.le_of_lt h)]; rfl
    constructor
    · intro h0; rw [h0, List.length_nil] at hl; omega
    · rw [hl]; exact Nat.mul_lt_mul_of_pos_right h hs

theorem writeData_shape {native : Endian} {dt : ExtensibleDataType} {t : RsType} {data : List (El t)}
    {segs : List Bytes} (h : writeData native dt data = .ok segs) :
    (data = [] → segs = []) ∧
    (data ≠ [] → OneWrite t data.length → ∃ s, segs = [s] ∧ s ≠ []) ∧
    (¬ OneWrite t data.length → ∃ s rest, segs = s :: rest ∧ s ≠ [] ∧
      s.length < data.length * t.size) := by
  have general : ∀ {t : RsType} (data : List (El t)) (e : Endian), t ≠ .u8 → t ≠ .f16 →
      segs = (chunks writeBuffer data).map (fun c => c.flatMap (elBytes e)) →
      (data = [] → segs = []) ∧
      (data ≠ [] → OneWrite t data.length → ∃ s, segs = [s] ∧ s ≠ []) ∧
      (¬ OneWrite t data.length → ∃ s rest, segs = s :: rest ∧ s ≠ [] ∧
        s.length < data.length * t.size) := by
    intro t data e h1 h2 hs
    obtain ⟨p1, p2, p3⟩ := pieces_shape e data
    subst hs
    refine ⟨p1, ?_, ?_⟩
    · intro h0 ho
      rcases ho with ho | ⟨ho, _⟩
      · exact absurd ho h1
      · refine ⟨_, p2 h0 ho, ?_⟩
        intro hn
        have := congrArg List.length hn
        rw [flatMap_elBytes_length] at this
        have hs : 0 < t.size := by cases t <;> simp [RsType.size]
        rw [List.length_nil] at this
        rcases Nat.mul_eq_zero.mp this with h | h
        · exact h0 (List.length_eq_zero_iff.mp h)
        · omega
    · intro ho
      apply p3
      unfold OneWrite at ho
      simp only [h1, h2, false_or, false_implies, and_true, Nat.not_le] at ho
      exact ho
  cases t
  case u8 =>
    simp only [writeData, Outcome.ok.injEq] at h
    subst h
    have hlen := flatMap_elBytes_length native (t := .u8) data
    refine ⟨?_, ?_, ?_⟩
    · rintro rfl; rfl
    · intro h0 _
      have hne : data.flatMap (elBytes native) ≠ [] := by
        intro hn
        rw [hn, List.length_nil, RsType.size, Nat.mul_one] at hlen
        exact h0 (List.length_eq_zero_iff.mp hlen.symm)
      refine ⟨data.flatMap (elBytes native), ?_, hne⟩
      rw [if_neg (by simpa using hne)]
    · intro ho; exact absurd (Or.inl rfl) ho
  case f16 =>
    simp only [writeData, Outcome.bind_eq_ok, Outcome.pure_def, Outcome.ok.injEq] at h
    obtain ⟨d, _, rfl⟩ := h
    refine ⟨?_, ?_, ?_⟩
    · rintro rfl; rfl
    · intro h0 ho
      have h1 : data.length ≤ 1 := by
        rcases ho with ho | ⟨_, ho⟩
        · exact absurd ho (by decide)
        · exact ho rfl
      match data, h0, h1 with
      | [x], _, _ =>
        refine ⟨elBytes (d.endian native) x, rfl, ?_⟩
        intro hn
        have := elBytes_length (d.endian native) x
        rw [hn] at this
        simp [RsType.size] at this
    · intro ho
      have h1 : 1 < data.length := by
        apply Nat.lt_of_not_le
        intro hle
        exact ho (.inr ⟨by omega, fun _ => hle⟩)
      match data, h1 with
      | x :: y :: rest, _ =>
        have hl := elBytes_length (d.endian native) x
        refine ⟨elBytes (d.endian native) x, _, rfl, ?_, ?_⟩
        · intro hn
          rw [hn] at hl
          simp [RsType.size] at hl
        · rw [hl]; simp [RsType.size]
  case bool =>
    simp only [writeData, Outcome.ok.injEq] at h
    exact general data native (by decide) (by decide) h.symm
  all_goals
    simp only [writeData, Outcome.bind_eq_ok, Outcome.pure_def, Outcome.ok.injEq] at h
    obtain ⟨d, _, h⟩ := h
    exact general data (d.endian native) (by decide) (by decide) h.symm

/-! ## C51 -/

theorem lzPureEncode_cons {lz : LzFear} {bs : Nat} {s : Bytes} {rest : List Bytes} (hs : s ≠ [])
    (h : (lzPureEncode lz bs (s :: rest)).2 = .ok ()) :
    (lz.frame bs s).2 = .ok () ∧
      (lzPureEncode lz bs (s :: rest)).1 = (lz.frame bs s).1 ++ (lzPureEncode lz bs rest).1 := by
  rw [lzPureEncode, if_neg (by simpa using hs)] at h ⊢
  split at h
  · rename_i out heq
    rw [heq]
    exact ⟨rfl, rfl⟩
  · rename_i r hr
    generalize lz.frame bs s = f at h hr ⊢
    obtain ⟨o, r⟩ := f
    simp only at h
    subst h
    exact absurd rfl (hr o)

/-- **C51 (partial): what happens instead.** With the pure-Rust LZ4 compressor, after a successful
`write_chunk` of a full chunk: a chunk handed over in one write call reads back; a non-empty chunk
that takes more than one is cut off after the first one and cannot be read; reading an empty chunk
panics. Missing: the property holds for the first case only, see `C51_violated`, which has a case of each kind. -/
theorem C51_partial (lz : LzFear) (hlz : lz.Lawful) (env : Env) (h : Hier) (path : Str)
    (m : ArrayMetadata) (bs : Int) {t : RsType} (c : DataChunk t) (fs fs' : Fs)
    (hc : m.compressor = .lz4 bs) (he : env.codecs (.lz4 bs) = lzPureCodec lz bs)
    (hsmall : c.data.length < 2 ^ 32) (hin : m.inBounds c.gridPosition = .ok true)
    (hw : writeChunk env h path m c fs = (.ok (), fs')) :
    (c.data ≠ [] → OneWrite t c.data.length →
      (readChunk env h path m t c.gridPosition fs').1 = .ok (some c)) ∧
    (¬ OneWrite t c.data.length →
      (readChunk env h path m t c.gridPosition fs').1 = .err .unexpectedEof) ∧
    (c.data = [] → (readChunk env h path m t c.gridPosition fs').1 = .panic) := by
  have hok := storeSet_result_ok hw
  have hg := storeGet_of_storeSet hw
  obtain ⟨d, _, hd, ht, hn, hfl, hw2⟩ := writeChunkBytes_ok hok
  obtain ⟨segs, hs, hwb⟩ := writeChunkBytes_segs hok
  have hmod : m.chunkNumElements % 2 ^ 32 = c.data.length := by
    rw [← hn, Nat.mod_eq_of_lt hsmall, Nat.mod_eq_of_lt hsmall]
  have hcod : codecOf env.codecs m.compressor = lzPureCodec lz bs := by rw [hc, ← he]; rfl
  rw [readChunk_inBounds hin hg]
  simp only [readChunkBytes_eq hd ht, hcod, hmod]
  rw [hwb, hcod] at hok ⊢
  obtain ⟨s1, s2, s3⟩ := writeData_shape hs
  have hflat : segs.flatten = c.data.flatMap (elBytes (d.endian env.native)) := by
    obtain ⟨segs', hs', hf⟩ := writeData_eq env.native m.dataType d c.data hd
    rw [hs, Outcome.ok.injEq] at hs'
    rw [hs']; exact hf
  refine ⟨?_, ?_, ?_⟩
  · intro h0 ho
    obtain ⟨s, rfl, hsne⟩ := s2 h0 ho
    obtain ⟨f1, f2⟩ := lzPureEncode_cons hsne hok
    have : (lzPureCodec lz bs).decode ((lzPureCodec lz bs).encode [s]).1 = .ok ⟨s, none⟩ := by
      show lz.read (lzPureEncode lz _ [s]).1 = _
      rw [f2]; exact hlz.read_frame _ _ _ f1
    rw [this, Outcome.bind_ok]
    rw [List.flatten_cons, List.flatten_nil, List.append_nil] at hflat
    subst hflat
    simp only [flatMap_elBytes_length, Nat.le_refl, if_true, Outcome.bind_ok]
    have := elsOfBytes_flatMap (d.endian env.native) c.data []
    rw [List.append_nil] at this
    rw [this]
  · intro ho
    obtain ⟨s, rest, rfl, hsne, hlt⟩ := s3 ho
    obtain ⟨f1, f2⟩ := lzPureEncode_cons hsne hok
    have : (lzPureCodec lz bs).decode ((lzPureCodec lz bs).encode (s :: rest)).1 = .ok ⟨s, none⟩ := by
      show lz.read (lzPureEncode lz _ (s :: rest)).1 = _
      rw [f2]; exact hlz.read_frame _ _ _ f1
    rw [this, Outcome.bind_ok, if_neg (by show ¬ _ ≤ s.length; omega)]
    rfl
  · intro h0
    have hnil := s1 h0
    subst hnil
    have : (lzPureCodec lz bs).decode ((lzPureCodec lz bs).encode []).1 = .panic := hlz.read_nil
    rw [this]; rfl

/-- A library that writes each byte after a mark and ends the frame with another mark. -/
def Demo.lzRead : Bytes → Outcome DecStream
  | [] => .panic
  | b :: bs => .ok (go (b :: bs))
where
  /-- The bytes up to the end mark. -/
  go : Bytes → DecStream
    | [] => ⟨[], some .unexpectedEof⟩
    | [m] => if m = 0 then ⟨[], none⟩ else ⟨[], some .unexpectedEof⟩
    | m :: x :: bs =>
      if m = 0 then ⟨[], none⟩ else let r := go bs; ⟨x :: r.avail, r.fail⟩

/-- The library of which `Demo.lzRead` is the reader. -/
def Demo.lz : LzFear where
  frame _ b := (b.flatMap (fun x => [1, x]) ++ [0], .ok ())
  read := Demo.lzRead

theorem Demo.lzRead_go (b rest : Bytes) :
    Demo.lzRead.go (b.flatMap (fun x => [1, x]) ++ [0] ++ rest) = ⟨b, none⟩ := by
  induction b with
  | nil => cases rest <;> simp [Demo.lzRead.go]
  | cons x b ih =>
    simp only [List.flatMap_cons, List.cons_append, List.nil_append, Demo.lzRead.go]
    rw [ih]
    rfl

theorem Demo.lz_lawful : Demo.lz.Lawful where
  read_nil := rfl
  read_frame := by
    intro bs b rest _
    have h := Demo.lzRead_go b rest
    show Demo.lzRead (b.flatMap (fun x => [1, x]) ++ [0] ++ rest) = _
    generalize hl : b.flatMap (fun x => [1, x]) ++ [0] ++ rest = l at h ⊢
    cases l with
    | nil => have := congrArg List.length hl; simp at this
    | cons y ys => rw [Demo.lzRead, h]

/-- A build with `lz_pure`. -/
def Demo.envLz : Env :=
  { Demo.env with codecs := fun c => match c with
      | .lz4 bs => lzPureCodec Demo.lz bs
      | c => Demo.env.codecs c }

/-- An array with chunks of `n` truth values, compressed with LZ4. -/
def Demo.arrLz (n : Nat) : ArrayMetadata :=
  { Demo.arr with shape := [n], chunkShape := [n], dataType := .core .bool, compressor := .lz4 65536 }

/-- An array with chunks of two half floats. -/
def Demo.arrLzHalf : ArrayMetadata :=
  { Demo.arrLz 2 with dataType := .core (.float .B2 .little) }

/-- Write a chunk at the origin and read it back. -/
def Demo.lzWriteRead (m : ArrayMetadata) (t : RsType) (n : Nat) :
    Outcome Unit × Outcome (Option (DataChunk t)) :=
  let r := writeChunk Demo.envLz Demo.hier Demo.path m ⟨[0], List.replicate n (El.default t)⟩
    Demo.emptyFs
  (r.1, (readChunk Demo.envLz Demo.hier Demo.path m t [0] r.2).1)

set_option maxRecDepth 100000 in
/-- **C51 is violated.** With a correct LZ4 library: 256 truth values read back, 257 do not; two half
floats do not. -/
theorem C51_violated : Demo.lz.Lawful ∧
    Demo.lzWriteRead (Demo.arrLz 256) .bool 256 =
      (.ok (), .ok (some ⟨[0], List.replicate 256 (El.default .bool)⟩)) ∧
    Demo.lzWriteRead (Demo.arrLz 257) .bool 257 = (.ok (), .err .unexpectedEof) ∧
    Demo.lzWriteRead Demo.arrLzHalf .f16 2 = (.ok (), .err .unexpectedEof) ∧
    Demo.lzWriteRead (Demo.arrLz 0) .bool 0 = (.ok (), .panic) := by
  refine ⟨Demo.lz_lawful, ?_, ?_, ?_, ?_⟩ <;> decide +kernel

end Zarr
