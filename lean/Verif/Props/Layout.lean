import Verif.Props.Chunk
/-!
# Reading chunk files: C64
-/

namespace Zarr

open Spec

theorem leBytes_ofLeBytes (bs : Bytes) : leBytes bs.length (ofLeBytes bs) = bs := by
  induction bs with
  | nil => rfl
  | cons b bs ih =>
    have hb := b.isLt
    have h1 : BitVec.ofNat 8 (b.toNat + 256 * ofLeBytes bs) = b := by
      apply BitVec.eq_of_toNat_eq
      rw [BitVec.toNat_ofNat]
      omega
    have h2 : (b.toNat + 256 * ofLeBytes bs) / 256 = ofLeBytes bs := by omega
    simp only [List.length_cons, ofLeBytes, leBytes, h1, h2, ih]

theorem ofLeBytes_lt (bs : Bytes) : ofLeBytes bs < 256 ^ bs.length := by
  induction bs with
  | nil => simp [ofLeBytes]
  | cons b bs ih =>
    have hb := b.isLt
    simp only [ofLeBytes, List.length_cons, Nat.pow_succ]
    omega

theorem El.toNat_ofNat {t : RsType} (ht : t ≠ .bool) {n : Nat} (hn : n < 256 ^ t.size) :
    (El.ofNat t n).toNat = n := by
  cases t
  case bool => exact absurd rfl ht
  all_goals
    refine (BitVec.toNat_ofNat _ _).trans (Nat.mod_eq_of_lt ?_)
    simpa [RsType.size] using hn

/-- The bytes of an element decoded from bytes. -/
theorem elBytes_elOfBytes (e : Endian) {t : RsType} (ht : t ≠ .bool) (bs : Bytes)
    (hl : bs.length = t.size) : elBytes e (elOfBytes e t bs) = bs := by
  cases e with
  | little =>
    simp only [elBytes, elOfBytes]
    rw [El.toNat_ofNat ht (by rw [← hl]; exact ofLeBytes_lt bs), ← hl, leBytes_ofLeBytes]
  | big =>
    simp only [elBytes, elOfBytes]
    have h1 : bs.reverse.length = t.size := by simpa using hl
    rw [El.toNat_ofNat ht (by rw [← h1]; exact ofLeBytes_lt _), ← h1, leBytes_ofLeBytes,
      List.reverse_reverse]

theorem elsOfBytes_getElem (e : Endian) (t : RsType) (n i : Nat) (bs : Bytes)
    (hi : i < (elsOfBytes e t n bs).length) :
    (elsOfBytes e t n bs)[i] = elOfBytes e t ((bs.drop (i * t.size)).take t.size) := by
  induction n generalizing i bs with
  | zero => simp [elsOfBytes] at hi
  | succ n ih =>
    cases i with
    | zero => simp [elsOfBytes]
    | succ i =>
      simp only [elsOfBytes, List.getElem_cons_succ]
      rw [ih, List.drop_drop]
      congr 3
      rw [Nat.add_mul]; omega

/-- **C64.** With the raw compressor, any file of at least a full chunk's bytes is read as the chunk
whose element `i` is given by bytes `i * size` up to `(i + 1) * size`: a number by its digits in the
declared byte order, a `bool` as true unless its byte is zero. -/
theorem C64 (env : Env) (h : Hier) (path : Str) (m : ArrayMetadata) (t : RsType) (pos : List Nat)
    (fs : Fs) (d : DataType) (file : Bytes) (hraw : m.compressor = .raw)
    (hd : effective m.dataType = some d) (hk : kindOf d = kindOfRs t)
    (hin : m.inBounds pos = .ok true) (hsmall : m.chunkShape.prod < 2 ^ 32)
    (hfile : storeGet h (chunkKey path m pos) fs = (.ok (some file), fs))
    (hlen : m.chunkShape.prod * t.size ≤ file.length) :
    ∃ xs : List (El t), readChunk env h path m t pos fs = (.ok (some ⟨pos, xs⟩), fs) ∧
      xs.length = m.chunkShape.prod ∧
      (t ≠ .bool → ∀ i (hi : i < xs.length),
        numBytes ((orderOf d).getD env.native) t.size (El.toNat xs[i])
          = (file.drop (i * t.size)).take t.size) ∧
      (t = .bool → ∀ i (hi : i < xs.length), El.toNat xs[i] = if file[i]? = some 0#8 then 0 else 1) := by
  have hty := (eqModuloEndian_iff_kind env.native d t).mpr hk
  have hmod : m.chunkNumElements % 2 ^ 32 = m.chunkShape.prod := Nat.mod_eq_of_lt hsmall
  refine ⟨elsOfBytes (d.endian env.native) t m.chunkShape.prod file, ?_, elsOfBytes_length _ _ _ _, ?_, ?_⟩
  · rw [readChunk_inBounds hin hfile]
    simp only
    rw [readChunkBytes_eq (effective_iff.mpr hd) hty, hraw]
    simp only [codecOf, rawCodec, Outcome.bind_ok, hmod, hlen, if_true]
  · intro ht i hi
    rw [elsOfBytes_getElem]
    rw [elsOfBytes_length] at hi
    rw [← endian_eq_orderOf, ← elBytes_eq_numBytes, elBytes_elOfBytes _ ht]
    rw [List.length_take, List.length_drop]
    have : (i + 1) * t.size ≤ m.chunkShape.prod * t.size := Nat.mul_le_mul_right _ hi
    rw [Nat.add_mul] at this
    omega
  · intro ht i hi
    subst ht
    rw [elsOfBytes_getElem]
    rw [elsOfBytes_length] at hi
    simp only [RsType.size, Nat.mul_one] at hlen ⊢
    have hi' : i < file.length := by omega
    have hbyte : (file.drop i).take 1 = [file[i]] := by
      rw [List.drop_eq_getElem_cons hi']; rfl
    rw [hbyte, List.getElem?_eq_getElem hi']
    have key : ∀ (e : Endian) (b : Byte), El.toNat (elOfBytes e .bool [b]) = if b = 0#8 then 0 else 1 := by
      intro e b
      have h0 : b.toNat = 0 ↔ b = 0#8 := by
        constructor
        · intro h; exact BitVec.eq_of_toNat_eq (by simpa using h)
        · intro h; subst h; rfl
      cases e <;>
        simp only [elOfBytes, ofLeBytes, El.ofNat, El.toNat, List.reverse_singleton, Nat.mul_zero,
          Nat.add_zero, ne_eq, h0] <;>
        by_cases hb : b = 0#8 <;> simp [hb]
    rw [key]
    simp

/-- The hypotheses hold for a file with a trailing byte: `[1, 2, 0, 7, 9]` is `258, 7`. -/
example : ∃ fs, storeGet Demo.hier (chunkKey Demo.path Demo.arr [1]) fs =
      (.ok (some [1#8, 2#8, 0#8, 7#8, 9#8]), fs) ∧ Demo.arr.inBounds [1] = .ok true ∧
    readChunk Demo.env Demo.hier Demo.path Demo.arr .u16 [1] fs = (.ok (some Demo.chunk), fs) :=
  ⟨(storeSet Demo.hier (chunkKey Demo.path Demo.arr [1]) ([1#8, 2#8, 0#8, 7#8, 9#8], .ok ())
    Demo.emptyFs).2, by decide, by decide, by decide⟩

end Zarr
