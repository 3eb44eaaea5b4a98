import Verif.Props.Chunk
/-!
# Exact results of chunk calls: C06, C07, C09, C59

The theorems in `Props/Chunk.lean` say in which cases the claims hold. Here are the results in all
cases. -/

namespace Zarr

open Spec

/-! ## C06 -/

/-- **C06 (exact).** What `delete_chunk` does by what is at the chunk's location: a file is deleted
and nothing else changes, a directory is an error and nothing changes, and if there is nothing the
call succeeds and changes nothing. So it fails exactly if a directory is there. -/
theorem C06_exact (h : Hier) (path : Str) (m : ArrayMetadata) (pos : List Nat) (fs : Fs)
    (hwf : fs.WF) (hp : Plain (h.loc (chunkKey path m pos))) :
    ((∃ e, (deleteChunk h path m pos fs).1 = .err e) ↔
      fs.get (h.loc (chunkKey path m pos)) = some .dir) ∧
    ((deleteChunk h path m pos fs).1 ≠ .panic) ∧
    (fs.get (h.loc (chunkKey path m pos)) ≠ some .dir → (deleteChunk h path m pos fs).1 = .ok true ∧
      ∀ l, (deleteChunk h path m pos fs).2.get l
        = if l = h.loc (chunkKey path m pos) then none else fs.get l) ∧
    (fs.get (h.loc (chunkKey path m pos)) = some .dir → (deleteChunk h path m pos fs).2 = fs) := by
  have he : deleteChunk h path m pos fs = storeErase h (chunkKey path m pos) fs := rfl
  rw [he, storeErase_spec hwf hp]
  cases hg : fs.get (h.loc (chunkKey path m pos)) with
  | none =>
    refine ⟨by simp, by simp, fun _ => ⟨rfl, fun l => ?_⟩, by simp⟩
    show fs.get l = _
    by_cases hl : l = h.loc (chunkKey path m pos)
    · rw [if_pos hl, hl, hg]
    · rw [if_neg hl]
  | some n =>
    cases n with
    | dir => exact ⟨by simp, by simp, by simp, fun _ => rfl⟩
    | file b =>
      refine ⟨by simp, by simp, fun _ => ⟨rfl, fun l => ?_⟩, by simp⟩
      show (fs.del _).get l = _
      rw [Fs.get_del]

/-- A stored chunk and, in the place of another one, the directory of an array. -/
example :
    let fs1 := (writeChunk Demo.env Demo.hier Demo.path Demo.arr Demo.chunk Demo.emptyFs).2
    let fs2 := (writeChunk Demo.env Demo.hier str!"a/c1" Demo.arr Demo.chunk Demo.emptyFs).2
    (deleteChunk Demo.hier Demo.path Demo.arr [1] fs1).1 = .ok true ∧
    fs1.get (Demo.hier.loc (chunkKey Demo.path Demo.arr [1])) ≠ some .dir ∧
    (deleteChunk Demo.hier str!"a" Demo.arr [1] fs2).1 = .err .isADirectory ∧
    fs2.get (Demo.hier.loc (chunkKey str!"a" Demo.arr [1])) = some .dir := by decide

/-! ## C07 -/

/-- The chunk fits the array: its type is the array's, and it has as many elements (counted in 32
bits) as a chunk. -/
def Spec.FitsArray (m : ArrayMetadata) {t : RsType} (c : DataChunk t) : Prop :=
  (∃ d, effective m.dataType = some d ∧ kindOf d = kindOfRs t) ∧
    c.data.length % 2 ^ 32 = m.chunkShape.prod

theorem writeChunkBytes_unfit {ext : Codecs} {native : Endian} {m : ArrayMetadata} {t : RsType}
    {c : DataChunk t} {d : DataType} (hd : effective m.dataType = some d) (hf : ¬ FitsArray m c) :
    ∃ e, writeChunkBytes ext native m c = ([], .err e) := by
  have hd' := effective_iff.mpr hd
  unfold writeChunkBytes
  by_cases hk : kindOf d = kindOfRs t
  · rw [checkArrayType_ok.mpr ⟨d, hd', (eqModuloEndian_iff_kind _ _ _).mpr hk⟩]
    refine ⟨.invalidData, ?_⟩
    simp only
    rw [if_pos]
    intro hn
    exact hf ⟨⟨d, hd, hk⟩, hn⟩
  · refine ⟨.invalidInput, ?_⟩
    rw [checkArrayType_err hd']
    rw [Bool.eq_false_iff]
    intro hh; exact hk ((eqModuloEndian_iff_kind _ _ _).mp hh)

theorem setSpec_self {fs : Fs} {p : Loc} {b : Bytes} : setSpec fs p b p = some (.file b) := by
  rw [setSpec, if_pos rfl]

/-- **C07 (exact).** The stored chunk after a `write_chunk` that returned an error. If the file could
not be opened nothing changed. If it could, it now holds what the compressor had delivered when the
error came, whatever it held before; for a chunk that does not fit the array these are no bytes at
all. So a stored chunk is the same after the error exactly if it consists of these bytes. -/
theorem C07_exact (env : Env) (h : Hier) (path : Str) (m : ArrayMetadata) {t : RsType}
    (c : DataChunk t) (fs fs' : Fs) (e : ErrKind) (hwf : fs.WF)
    (hp : Plain (h.loc (chunkKey path m c.gridPosition)))
    (hw : writeChunk env h path m c fs = (.err e, fs')) :
    (¬ Writable fs (h.loc (chunkKey path m c.gridPosition)) ∧ fs' = fs) ∨
    (Writable fs (h.loc (chunkKey path m c.gridPosition)) ∧
      ∃ w, storeGet h (chunkKey path m c.gridPosition) fs' = (.ok (some w), fs') ∧
        ((∃ segs, (codecOf env.codecs m.compressor).encode segs = (w, .err e) ∧ FitsArray m c ∧
            ∃ d, effective m.dataType = some d ∧ segs.flatten = c.data.flatMap fun x =>
              numBytes ((orderOf d).getD env.native) t.size x.toNat) ∨
          (w = [] ∧ ¬ FitsArray m c)) ∧
        ∀ b, storeGet h (chunkKey path m c.gridPosition) fs = (.ok (some b), fs) →
          (storeGet h (chunkKey path m c.gridPosition) fs' = (.ok (some b), fs') ↔ b = w)) := by
  obtain ⟨s1, s2⟩ := storeSet_spec (h := h) (key := chunkKey path m c.gridPosition)
    (writeChunkBytes env.codecs env.native m c) hwf hp
  by_cases hwr : Writable fs (h.loc (chunkKey path m c.gridPosition))
  · right
    refine ⟨hwr, ?_⟩
    obtain ⟨fs1, h1, h2, h3⟩ := s1 hwr
    unfold writeChunk at hw
    rw [h1] at hw
    obtain ⟨hr, rfl⟩ : (writeChunkBytes env.codecs env.native m c).2 = .err e ∧ fs1 = fs' := by
      simpa using hw
    have hget : storeGet h (chunkKey path m c.gridPosition) fs1
        = (.ok (some (writeChunkBytes env.codecs env.native m c).1), fs1) := by
      rw [storeGet_eq h2 hp]
      have : fs1.content (h.loc (chunkKey path m c.gridPosition))
          = some (writeChunkBytes env.codecs env.native m c).1 :=
        Fs.content_eq_some.mpr (by rw [h3, setSpec_self])
      rw [this]
    refine ⟨_, hget, ?_, ?_⟩
    · cases hd : effective m.dataType with
      | none =>
        exfalso
        have : writeChunkBytes env.codecs env.native m c = ([], .panic) := by
          have hc : checkArrayType env.native m t = .panic := by
            unfold checkArrayType
            cases hx : m.dataType with
            | core a => rw [hx] at hd; simp [effective] at hd
            | extended a b f =>
              cases f with
              | some f => rw [hx] at hd; simp [effective] at hd
              | none => rfl
          unfold writeChunkBytes
          rw [hc]
        rw [this] at hr
        simp at hr
      | some d =>
        by_cases hf : FitsArray m c
        · left
          obtain ⟨⟨d', hd2, hk⟩, hn⟩ := hf
          rw [hd] at hd2
          cases hd2
          obtain ⟨segs, hs, hwb⟩ := writeChunkBytes_fits (ext := env.codecs) (native := env.native)
            (m := m) (c := c) (effective_iff.mpr hd) ((eqModuloEndian_iff_kind _ _ _).mpr hk) hn
          refine ⟨segs, ?_, ⟨⟨d, hd, hk⟩, hn⟩, d, rfl, ?_⟩
          · rw [← hwb]; exact Prod.ext rfl hr
          · rw [hs, endian_eq_orderOf]; congr 1; funext x; exact elBytes_eq_numBytes _ x
        · right
          obtain ⟨e', he'⟩ := writeChunkBytes_unfit (ext := env.codecs) (native := env.native) hd hf
          exact ⟨by rw [he'], hf⟩
    · intro b _
      rw [hget]
      simp [eq_comm]
  · left
    refine ⟨hwr, ?_⟩
    obtain ⟨e', h1⟩ := s2 hwr
    unfold writeChunk at hw
    rw [h1] at hw
    simp at hw
    exact hw.2.symm

example :
    let fs1 := (writeChunk Demo.env Demo.hier Demo.path Demo.arr Demo.chunk Demo.emptyFs).2
    let bad : DataChunk .i8 := ⟨[1], [(1#8 : BitVec 8), (2#8 : BitVec 8)]⟩
    (writeChunk Demo.env Demo.hier Demo.path Demo.arr bad fs1).1 = .err .invalidInput ∧
    (storeGet Demo.hier (chunkKey Demo.path Demo.arr [1])
      (writeChunk Demo.env Demo.hier Demo.path Demo.arr bad fs1).2).1 = .ok (some []) := by
  decide

/-! ## C09 -/

/-- **C09 (exact).** `write_chunk` succeeds exactly if the chunk fits the array (its elements counted
in 32 bits), the compressor accepts its bytes and the file can be opened. -/
theorem C09_exact (env : Env) (h : Hier) (path : Str) (m : ArrayMetadata) {t : RsType}
    (c : DataChunk t) (fs : Fs) (hwf : fs.WF)
    (hp : Plain (h.loc (chunkKey path m c.gridPosition)))
    (henc : ∀ segs, ((codecOf env.codecs m.compressor).encode segs).2 = .ok ()) :
    (writeChunk env h path m c fs).1 = .ok () ↔
      FitsArray m c ∧ Writable fs (h.loc (chunkKey path m c.gridPosition)) := by
  obtain ⟨s1, s2⟩ := storeSet_spec (h := h) (key := chunkKey path m c.gridPosition)
    (writeChunkBytes env.codecs env.native m c) hwf hp
  constructor
  · intro hw
    have hw' : writeChunk env h path m c fs = (.ok (), (writeChunk env h path m c fs).2) := by
      rw [← hw]
    obtain ⟨d, _, hd, hk, hn, _⟩ := writeChunkBytes_ok (storeSet_result_ok hw')
    refine ⟨⟨⟨d, effective_iff.mp hd, (eqModuloEndian_iff_kind _ _ _).mp hk⟩, hn⟩, ?_⟩
    refine Classical.byContradiction fun hwr => ?_
    obtain ⟨e', h1⟩ := s2 hwr
    unfold writeChunk at hw
    rw [h1] at hw
    simp at hw
  · rintro ⟨⟨⟨d, hd, hk⟩, hn⟩, hwr⟩
    obtain ⟨segs, _, hwb⟩ := writeChunkBytes_fits (ext := env.codecs) (native := env.native)
      (m := m) (c := c) (effective_iff.mpr hd) ((eqModuloEndian_iff_kind _ _ _).mpr hk) hn
    obtain ⟨fs', h1, _⟩ := s1 hwr
    unfold writeChunk
    rw [h1, hwb]
    exact henc segs

example : FitsArray Demo.arr Demo.chunk ∧
    (∀ segs, ((codecOf Demo.env.codecs Demo.arr.compressor).encode segs).2 = .ok ()) ∧
    (writeChunk Demo.env Demo.hier Demo.path Demo.arr Demo.chunk Demo.emptyFs).1 = .ok () :=
  ⟨⟨⟨_, rfl, by decide⟩, by decide⟩, fun _ => rfl, by decide⟩

/-! ## C59 -/

theorem elsOfBytes_flatMap_take (e : Endian) {t : RsType} (xs : List (El t)) (n : Nat)
    (hn : n ≤ xs.length) :
    elsOfBytes e t n (xs.flatMap (elBytes e)) = xs.take n := by
  have h1 : xs.flatMap (elBytes e) = (xs.take n).flatMap (elBytes e)
      ++ (xs.drop n).flatMap (elBytes e) := by
    rw [← List.flatMap_append, List.take_append_drop]
  have h2 : (xs.take n).length = n := by rw [List.length_take]; omega
  rw [h1]
  have := elsOfBytes_flatMap e (xs.take n) ((xs.drop n).flatMap (elBytes e))
  rw [h2] at this
  exact this

/-- Bytes written for an accepted chunk decode to the first elements of it. -/
theorem readChunkBytes_accepted {ext : Codecs} {native : Endian} {m : ArrayMetadata}
    {t : RsType} {c : DataChunk t} (hl : (codecOf ext m.compressor).Lawful)
    (h : (writeChunkBytes ext native m c).2 = .ok ()) (pos : List Nat) :
    readChunkBytes ext native m t pos (writeChunkBytes ext native m c).1
      = .ok ⟨pos, c.data.take (c.data.length % 2 ^ 32)⟩ := by
  obtain ⟨d, segs, hd, ht, hn, hs, hw⟩ := writeChunkBytes_ok h
  rw [hw] at h ⊢
  rw [readChunkBytes_eq hd ht, hl segs h]
  have hmod : m.chunkNumElements % 2 ^ 32 = c.data.length % 2 ^ 32 := by
    rw [← hn]; exact Nat.mod_mod _ _
  have hle : c.data.length % 2 ^ 32 ≤ c.data.length := Nat.mod_le _ _
  simp only [Outcome.bind_ok, hs, hmod, flatMap_elBytes_length]
  rw [if_pos (Nat.mul_le_mul_right _ hle), elsOfBytes_flatMap_take _ _ _ hle]

theorem zipOutcome_ceilDiv_ne_err (xs ys : List Nat) (e : ErrKind) :
    zipOutcome u64CeilDiv xs ys ≠ .err e := by
  induction xs generalizing ys e with
  | nil => simp [zipOutcome]
  | cons x xs ih =>
    cases ys with
    | nil => simp [zipOutcome]
    | cons y ys =>
      simp only [zipOutcome]
      have h1 : ∀ e, u64CeilDiv x y ≠ .err e := by
        intro e; unfold u64CeilDiv; split <;> simp
      cases hu : u64CeilDiv x y with
      | err e' => exact absurd hu (h1 _)
      | panic => simp
      | ok v =>
        cases hz : zipOutcome u64CeilDiv xs ys with
        | err e' => exact absurd hz (ih ys e')
        | panic => simp
        | ok w => simp

theorem gridExtent_ne_err {m : ArrayMetadata} {e : ErrKind} : m.gridExtent ≠ .err e :=
  zipOutcome_ceilDiv_ne_err _ _ _

/-- **C59 (exact).** What `read_chunk` answers for a chunk that `write_chunk` has accepted: outside
the grid of the array it panics; inside it returns the chunk, cut after its length modulo 2^32. So
the chunk is read back exactly if it is inside the grid and has fewer than 2^32 elements. -/
theorem C59_exact (env : Env) (h : Hier) (path : Str) (m : ArrayMetadata) {t : RsType}
    (c : DataChunk t) (fs fs' : Fs) (hcodec : (codecOf env.codecs m.compressor).Lawful)
    (hw : writeChunk env h path m c fs = (.ok (), fs')) :
    (m.inBounds c.gridPosition ≠ .ok true →
      readChunk env h path m t c.gridPosition fs' = (.panic, fs')) ∧
    (m.inBounds c.gridPosition = .ok true →
      readChunk env h path m t c.gridPosition fs'
        = (.ok (some ⟨c.gridPosition, c.data.take (c.data.length % 2 ^ 32)⟩), fs')) ∧
    ((readChunk env h path m t c.gridPosition fs').1 = .ok (some c) ↔
      m.inBounds c.gridPosition = .ok true ∧ c.data.length < 2 ^ 32) := by
  have out : m.inBounds c.gridPosition ≠ .ok true →
      readChunk env h path m t c.gridPosition fs' = (.panic, fs') := by
    intro hne
    have : assertInBounds m c.gridPosition = .panic := by
      unfold assertInBounds
      cases hb : m.inBounds c.gridPosition with
      | ok b => cases b <;> simp_all
      | err e =>
        exfalso
        unfold ArrayMetadata.inBounds at hb
        split at hb
        · cases hg : m.gridExtent with
          | ok x => rw [hg] at hb; simp at hb
          | err e' => exact absurd hg gridExtent_ne_err
          | panic => rw [hg] at hb; simp at hb
        · simp at hb
      | panic => rfl
    simp only [readChunk, M.bind_apply, M.lift_apply, this]
  have inn : m.inBounds c.gridPosition = .ok true →
      readChunk env h path m t c.gridPosition fs'
        = (.ok (some ⟨c.gridPosition, c.data.take (c.data.length % 2 ^ 32)⟩), fs') := by
    intro hin
    rw [readChunk_inBounds hin (storeGet_of_storeSet hw)]
    simp only
    rw [readChunkBytes_accepted hcodec (storeSet_result_ok hw)]
    rfl
  refine ⟨out, inn, ?_⟩
  by_cases hin : m.inBounds c.gridPosition = .ok true
  · rw [inn hin]
    constructor
    · intro heq
      refine ⟨hin, ?_⟩
      have hd : c.data.take (c.data.length % 2 ^ 32) = c.data := by
        have h1 : (⟨c.gridPosition, c.data.take (c.data.length % 2 ^ 32)⟩ : DataChunk t) = c := by
          simpa using heq
        exact congrArg DataChunk.data h1
      have hlen := congrArg List.length hd
      rw [List.length_take] at hlen
      have : c.data.length % 2 ^ 32 < 2 ^ 32 := Nat.mod_lt _ (by decide)
      omega
    · rintro ⟨_, hlt⟩
      rw [Nat.mod_eq_of_lt hlt, List.take_length]
  · rw [out hin]
    simp [hin]

example :
    let c : DataChunk .u16 := { Demo.chunk with gridPosition := [17] }
    (codecOf Demo.env.codecs Demo.arr.compressor).Lawful ∧
    (writeChunk Demo.env Demo.hier Demo.path Demo.arr c Demo.emptyFs).1 = .ok () ∧
    Demo.arr.inBounds [17] = .ok false ∧
    (writeChunk Demo.env Demo.hier Demo.path Demo.arr Demo.chunk Demo.emptyFs).1 = .ok () ∧
    Demo.arr.inBounds Demo.chunk.gridPosition = .ok true :=
  ⟨rawCodec_lawful, by decide, by decide, by decide, by decide⟩

end Zarr
