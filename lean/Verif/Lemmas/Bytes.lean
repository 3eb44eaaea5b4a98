import Verif.Model.Chunk
/-! Lemmas on element bytes and on reading and writing chunk data. -/

namespace Zarr

theorem leBytes_length (k n : Nat) : (leBytes k n).length = k := by
  induction k generalizing n with
  | zero => rfl
  | succ k ih => simp [leBytes, ih]

theorem ofLeBytes_leBytes (k n : Nat) (h : n < 256 ^ k) : ofLeBytes (leBytes k n) = n := by
  induction k generalizing n with
  | zero => simp [leBytes, ofLeBytes]; omega
  | succ k ih =>
    have : n / 256 < 256 ^ k := by
      rw [Nat.div_lt_iff_lt_mul (by decide)]; rw [Nat.pow_succ] at h; exact h
    simp [leBytes, ofLeBytes, ih _ this]
    omega

theorem El.toNat_lt {t : RsType} (x : El t) : x.toNat < 256 ^ t.size := by
  cases t
  case bool => cases x <;> decide
  all_goals (have := BitVec.isLt x; simpa [El.toNat, RsType.size] using this)

theorem El.ofNat_toNat {t : RsType} (x : El t) : El.ofNat t x.toNat = x := by
  cases t
  case bool => cases x <;> rfl
  all_goals exact BitVec.ofNat_toNat _ x |>.trans (BitVec.setWidth_eq x)

theorem RsType.size_pos (t : RsType) : 0 < t.size := by cases t <;> decide

theorem elBytes_length (e : Endian) {t : RsType} (x : El t) : (elBytes e x).length = t.size := by
  cases e <;> simp [elBytes, leBytes_length]

theorem elOfBytes_elBytes (e : Endian) {t : RsType} (x : El t) :
    elOfBytes e t (elBytes e x) = x := by
  cases e <;>
    simp [elBytes, elOfBytes, ofLeBytes_leBytes _ _ x.toNat_lt, El.ofNat_toNat]

theorem elBytes_injective (e : Endian) {t : RsType} {x y : El t} (h : elBytes e x = elBytes e y) :
    x = y := by
  rw [← elOfBytes_elBytes e x, h, elOfBytes_elBytes]

theorem flatMap_elBytes_length (e : Endian) {t : RsType} (xs : List (El t)) :
    (xs.flatMap (elBytes e)).length = xs.length * t.size := by
  induction xs with
  | nil => simp
  | cons x xs ih => simp [List.flatMap_cons, ih, elBytes_length, Nat.add_mul, Nat.add_comm]

theorem elsOfBytes_length (e : Endian) (t : RsType) (n : Nat) (bs : Bytes) :
    (elsOfBytes e t n bs).length = n := by
  induction n generalizing bs with
  | zero => rfl
  | succ n ih => simp [elsOfBytes, ih]

theorem elsOfBytes_flatMap (e : Endian) {t : RsType} (xs : List (El t)) (rest : Bytes) :
    elsOfBytes e t xs.length (xs.flatMap (elBytes e) ++ rest) = xs := by
  induction xs with
  | nil => rfl
  | cons x xs ih =>
    have hl : (elBytes e x).length = t.size := elBytes_length e x
    have h1 : ((x :: xs).flatMap (elBytes e) ++ rest).take t.size = elBytes e x := by
      rw [List.flatMap_cons, List.append_assoc, ← hl, List.take_left]
    have h2 : ((x :: xs).flatMap (elBytes e) ++ rest).drop t.size
        = xs.flatMap (elBytes e) ++ rest := by
      rw [List.flatMap_cons, List.append_assoc, ← hl, List.drop_left]
    simp only [List.length_cons, elsOfBytes, h1, h2, ih, elOfBytes_elBytes]

/-- Only the first `n * size` bytes matter. -/
theorem elsOfBytes_take (e : Endian) (t : RsType) (n k : Nat) (bs : Bytes) (h : n * t.size ≤ k) :
    elsOfBytes e t n (bs.take k) = elsOfBytes e t n bs := by
  induction n generalizing bs k with
  | zero => rfl
  | succ n ih =>
    have hs : t.size ≤ k := by rw [Nat.add_mul] at h; omega
    have hn : n * t.size ≤ k - t.size := by rw [Nat.add_mul] at h; omega
    simp only [elsOfBytes, List.take_take, Nat.min_eq_left hs, List.drop_take, ih _ _ hn]

theorem elsOfBytes_add (e : Endian) (t : RsType) (n m : Nat) (bs : Bytes) :
    elsOfBytes e t (n + m) bs = elsOfBytes e t n bs ++ elsOfBytes e t m (bs.drop (n * t.size)) := by
  induction n generalizing bs with
  | zero => simp [elsOfBytes]
  | succ n ih =>
    rw [show n + 1 + m = (n + m) + 1 by omega]
    simp only [elsOfBytes, ih, List.drop_drop, List.cons_append]
    congr 4; rw [Nat.add_mul]; omega

/-- One-byte elements do not depend on the byte order. -/
theorem elBytes_size1 (e e' : Endian) {t : RsType} (h : t.size = 1) (x : El t) :
    elBytes e x = elBytes e' x := by
  have : ∀ n, leBytes 1 n = (leBytes 1 n).reverse := by intro n; rfl
  cases e <;> cases e' <;> simp [elBytes, h] <;> first | rfl

theorem elsOfBytes_size1 (e e' : Endian) {t : RsType} (h : t.size = 1) (n : Nat) (bs : Bytes) :
    elsOfBytes e t n bs = elsOfBytes e' t n bs := by
  have h1 : ∀ bs : Bytes, elOfBytes e t (bs.take 1) = elOfBytes e' t (bs.take 1) := by
    intro bs
    have : (bs.take 1).reverse = bs.take 1 := by cases bs <;> simp
    cases e <;> cases e' <;> simp [elOfBytes, this]
  induction n generalizing bs with
  | zero => rfl
  | succ n ih => simp only [elsOfBytes, h, h1, ih]

theorem chunksAux_flatten {α : Type} (k : Nat) (hk : 0 < k) (f : Nat) (l : List α)
    (h : l.length ≤ f) : (chunksAux k f l).flatten = l := by
  induction f generalizing l with
  | zero => simp at h; simp [chunksAux, h]
  | succ f ih =>
    unfold chunksAux
    split
    · rename_i h0; simp at h0; simp [h0]
    · rename_i h0
      have hl : 0 < l.length := by cases l <;> simp_all
      rw [List.flatten_cons, ih _ (by simp; omega), List.take_append_drop]

theorem chunks_flatten {α : Type} (k : Nat) (hk : 0 < k) (l : List α) :
    (chunks k l).flatten = l := chunksAux_flatten k hk _ l (Nat.le_refl _)

theorem pieceSizes_sum (k n : Nat) (hk : 0 < k) : (pieceSizes k n).sum = n := by
  have : ((chunks k (List.replicate n ())).flatten).length = n := by
    rw [chunks_flatten k hk]; simp
  rw [List.length_flatten] at this
  exact this

theorem readExact_ok (n : Nat) (s : DecStream) (h : n ≤ s.avail.length) :
    s.readExact n = .ok (s.avail.take n, { s with avail := s.avail.drop n }) := by
  simp [DecStream.readExact, h]

theorem readExact_err (n : Nat) (s : DecStream) (h : s.avail.length < n) :
    s.readExact n = .err (s.fail.getD .unexpectedEof) := by
  simp [DecStream.readExact, Nat.not_le.mpr h]

/-- Reading in pieces delivers the same as reading at once. -/
theorem readPieces_eq (e : Endian) (t : RsType) (ns : List Nat) (s : DecStream) :
    readPieces e t ns s =
      if ns.sum * t.size ≤ s.avail.length then
        .ok (elsOfBytes e t ns.sum s.avail, { s with avail := s.avail.drop (ns.sum * t.size) })
      else .err (s.fail.getD .unexpectedEof) := by
  induction ns generalizing s with
  | nil => simp [readPieces, elsOfBytes]
  | cons n ns ih =>
    unfold readPieces
    rcases Nat.lt_or_ge s.avail.length (n * t.size) with h | h
    · have hs : ¬ (n :: ns).sum * t.size ≤ s.avail.length := by
        simp [Nat.add_mul]; omega
      rw [readExact_err _ _ h, if_neg hs]; rfl
    · rw [readExact_ok _ _ h]
      simp only [Outcome.bind_ok, ih, List.length_drop, List.sum_cons, Nat.add_mul]
      by_cases h2 : ns.sum * t.size ≤ s.avail.length - n * t.size
      · have h3 : n * t.size + ns.sum * t.size ≤ s.avail.length := by omega
        simp only [if_pos h2, if_pos h3, Outcome.bind_ok, Outcome.pure_def,
          elsOfBytes_add, elsOfBytes_take _ _ _ _ _ (Nat.le_refl _), List.drop_drop]
      · have h3 : ¬ n * t.size + ns.sum * t.size ≤ s.avail.length := by omega
        simp [if_neg h2, if_neg h3]

theorem RsType.endian_irrelevant {t : RsType} (h : t = .bool ∨ t = .u8) : t.size = 1 := by
  rcases h with rfl | rfl <;> rfl

/-- What `read_data` does, for a data type with an effective type. -/
theorem readData_eq (native : Endian) (dt : ExtensibleDataType) (d : DataType) (t : RsType)
    (n : Nat) (s : DecStream) (hd : dt.effectiveType = .ok d) :
    readData native dt t n s =
      if n * t.size ≤ s.avail.length then .ok (elsOfBytes (d.endian native) t n s.avail)
      else .err (s.fail.getD .unexpectedEof) := by
  have macroCase : ∀ (t : RsType),
      (do let (bs, _) ← s.readExact (n * t.size)
          pure (elsOfBytes (d.endian native) t n bs) : Outcome (List (El t))) =
      if n * t.size ≤ s.avail.length then .ok (elsOfBytes (d.endian native) t n s.avail)
      else .err (s.fail.getD .unexpectedEof) := by
    intro t
    by_cases h : n * t.size ≤ s.avail.length
    · rw [if_pos h, readExact_ok _ _ h]
      simp [elsOfBytes_take _ _ _ _ _ (Nat.le_refl _)]
    · rw [if_neg h, readExact_err _ _ (by omega)]; rfl
  cases t
  case u8 =>
    simp only [readData, RsType.size, Nat.mul_one]
    by_cases h : n ≤ s.avail.length
    · rw [if_pos h, readExact_ok _ _ h]
      simp [elsOfBytes_take _ .u8 n n s.avail (by simp [RsType.size]),
        elsOfBytes_size1 native (d.endian native) (t := .u8) rfl]
    · rw [if_neg h, readExact_err _ _ (by omega)]; rfl
  case bool =>
    simp only [readData, readPieces_eq, pieceSizes_sum _ _ (show 0 < writeBuffer by decide)]
    rw [elsOfBytes_size1 native (d.endian native) rfl]
    split <;> rfl
  case f16 =>
    simp only [readData, hd, Outcome.bind_ok, readPieces_eq]
    simp only [List.sum_replicate_nat, Nat.mul_one]
    split <;> rfl
  all_goals (simp only [readData, hd, Outcome.bind_ok]; exact macroCase _)

/-- `write_data` delivers the bytes of the elements in order. -/
theorem writeData_eq (native : Endian) (dt : ExtensibleDataType) (d : DataType) {t : RsType}
    (data : List (El t)) (hd : dt.effectiveType = .ok d) :
    ∃ segs, writeData native dt data = .ok segs ∧
      segs.flatten = data.flatMap (elBytes (d.endian native)) := by
  have hc : ∀ (e : Endian) (t : RsType) (data : List (El t)),
      ((chunks writeBuffer data).map fun c => c.flatMap (elBytes e)).flatten
        = data.flatMap (elBytes e) := by
    intro e t data
    conv => rhs; rw [← chunks_flatten writeBuffer (by decide) data]
    simp [List.flatMap_def, List.map_flatten, List.flatten_flatten, Function.comp_def]
  cases t
  case u8 =>
    refine ⟨_, rfl, ?_⟩
    have : elBytes (t := .u8) native = elBytes (d.endian native) :=
      funext fun x => elBytes_size1 _ _ rfl x
    rw [this]
    split <;> simp_all
  case bool =>
    refine ⟨_, rfl, ?_⟩
    have : elBytes (t := .bool) native = elBytes (d.endian native) :=
      funext fun x => elBytes_size1 _ _ rfl x
    rw [← this]
    exact hc _ _ _
  case f16 =>
    refine ⟨_, by simp only [writeData, hd]; rfl, ?_⟩
    rw [List.flatMap_def]
  all_goals exact ⟨_, by simp only [writeData, hd]; rfl, hc _ _ _⟩

end Zarr
