import Verif.Props.Exact
import Verif.Props.RefineBoxes
import Verif.Props.RemoveAll
/-!
# Exact results where a property is violated, continued (C13, C14, C27, C39) -/

namespace Zarr

open Spec

/-! ## C13, C14 -/

/-- The positions in bounds along an axis of length `s` in chunks of `k`: those of chunks that overlap the array, and if
the axis is one short of a multiple of the chunk size the one after them. -/
def Spec.AxisInBounds (s k x : Nat) : Prop := x * k < s ∨ (s % k = k - 1 ∧ LeastCover s k x)

theorem axisInBounds_iff {s k x : Nat} (hk : k ≠ 0) : x < codeCeil s k ↔ AxisInBounds s k x := by
  obtain ⟨n, ⟨hn, hmin⟩, h⟩ := u64CeilDiv_spec (s := s) hk
  simp only [u64CeilDiv, hk, if_false, Outcome.ok.injEq] at h
  rw [show codeCeil s k = n + if s % k = k - 1 then 1 else 0 from h]
  unfold AxisInBounds LeastCover
  have hlt : x * k < s ↔ x < n := by
    constructor
    · intro hx
      apply Nat.lt_of_not_le
      intro hnx
      have := Nat.mul_le_mul_right k hnx
      omega
    · intro hx
      apply Nat.lt_of_not_le
      intro hs
      have := hmin x hs
      omega
  rw [hlt]
  by_cases e : s % k = k - 1
  · rw [if_pos e]
    constructor
    · intro hx
      by_cases hxn : x < n
      · exact .inl hxn
      · have : x = n := by omega
        subst this
        exact .inr ⟨e, hn, hmin⟩
    · rintro (hx | ⟨_, h1, h2⟩)
      · omega
      · have := h2 n hn
        omega
  · rw [if_neg e]
    simp [e]

/-- **C13 (exact).** `in_bounds` never panics and holds exactly for the positions with one coordinate per dimension that
are in bounds along every axis. -/
theorem C13_exact (m : ArrayMetadata) (c : List Nat) (hl : m.shape.length = m.chunkShape.length)
    (hk : ∀ k ∈ m.chunkShape, k ≠ 0) :
    ∃ b, m.inBounds c = .ok b ∧ (b = true ↔ c.length = m.shape.length ∧
      ∀ i s k x : Nat, m.shape[i]? = some s → m.chunkShape[i]? = some k → c[i]? = some x → AxisInBounds s k x) := by
  have hb : ∃ b, m.inBounds c = .ok b := by
    unfold ArrayMetadata.inBounds
    split
    · rw [gridExtent_eq hk]; exact ⟨_, rfl⟩
    · exact ⟨_, rfl⟩
  obtain ⟨b, hb⟩ := hb
  refine ⟨b, hb, ?_⟩
  have : b = true ↔ m.inBounds c = .ok true := by rw [hb]; simp
  rw [this, inBounds_iff hl hk]
  constructor
  · intro h
    refine ⟨h.length.symm, fun i s k x h1 h2 h3 => ?_⟩
    rw [← axisInBounds_iff (hk k (List.mem_of_getElem? h2))]
    exact bounded_get h h1 h2 h3
  · rintro ⟨h1, h2⟩
    refine bounded_of_get hl h1 fun i s k x e1 e2 e3 => ?_
    rw [axisInBounds_iff (hk k (List.mem_of_getElem? e2))]
    exact h2 i s k x e1 e2 e3

example : AxisInBounds 99 50 2 ∧ ¬ AxisInBounds 99 50 3 ∧ AxisInBounds 7 1 7 ∧ ¬ AxisInBounds 100 50 2 :=
  ⟨.inr ⟨by decide, by decide, fun n hn => by omega⟩,
   by rintro (h | ⟨_, _, h⟩); · omega
      · have := h 2 (by omega); omega,
   .inr ⟨by decide, by decide, fun n hn => by omega⟩,
   by rintro (h | ⟨h, _⟩); · omega
      · omega⟩

/-- **C14 (exact).** `get_num_chunks` is the number of positions that are in bounds: the product over the axes of the number
of positions in bounds along the axis. -/
theorem C14_exact (m : ArrayMetadata) (hl : m.shape.length = m.chunkShape.length) (hk : ∀ k ∈ m.chunkShape, k ≠ 0) :
    ∃ e : List Nat, m.numChunks = .ok e.prod ∧ e.length = m.shape.length ∧
      ∀ i s k n : Nat, m.shape[i]? = some s → m.chunkShape[i]? = some k → e[i]? = some n →
        ∀ x, x < n ↔ AxisInBounds s k x := by
  refine ⟨List.zipWith codeCeil m.shape m.chunkShape, ?_, by simp [hl], ?_⟩
  · unfold ArrayMetadata.numChunks
    rw [gridExtent_eq hk]; rfl
  · intro i s k n h1 h2 h3 x
    rw [List.getElem?_zipWith, h1, h2] at h3
    simp only [Option.some.injEq] at h3
    rw [← h3]
    exact axisInBounds_iff (hk k (List.mem_of_getElem? h2))

/-! ## C27 -/

/-- **C27 (exact).** What a successful `write_ndarray` of an array with a zero-length dimension does to the chunks: those
that are not visited stay as they are, and so do those that are stored; those that are visited and absent are stored, with
the fill value for all elements. (Which are visited: along an axis of length zero the chunk around the offset, if that is not
a multiple of the chunk size.) -/
theorem C27_exact (env : Env) (h : Hier) (path : Str) (m : ArrayMetadata) {t : RsType}
    (offset : List Nat) (array : NdArr (El t)) (fs fs' : Fs) (hwf : fs.WF)
    (hb : Plain (segs h.base)) (hp : Plain (segs path)) (hs : GoodSep m.separator)
    (hcodec : (codecOf env.codecs m.compressor).Lawful)
    (hl : m.shape.length = m.chunkShape.length) (hz : 0 ∈ array.shape)
    (hw : writeNdarray env h path m offset array fs = (.ok (), fs')) (pos : List Nat) :
    (¬ Visits m ⟨offset, array.shape⟩ pos →
      (readChunk env h path m t pos fs').1 = (readChunk env h path m t pos fs).1) ∧
    (Visits m ⟨offset, array.shape⟩ pos →
      (∀ c, (readChunk env h path m t pos fs).1 = .ok (some c) → (readChunk env h path m t pos fs').1 = .ok (some c)) ∧
      ((readChunk env h path m t pos fs).1 = .ok none → ∃ fill, effectiveFillValue env m t = .ok fill ∧
        (readChunk env h path m t pos fs').1 = .ok (some ⟨pos, List.replicate m.chunkShape.prod fill⟩))) := by
  obtain ⟨h1, fill, it, hfill, hit, hloop⟩ := writeNdarray_inv hw
  have hn : m.shape ≠ [] := by
    intro hn
    rw [hn] at h1
    simp at h1
    simp [h1] at hz
  have hol := boundedCoordIter_dim hit
  simp only at hol
  have hb' : (BBox.mk offset array.shape).offset.length = (BBox.mk offset array.shape).shape.length := by
    simp only; omega
  obtain ⟨_, hk, _⟩ := boundedCoordIter_ok hl hb' hit
  have hvis : ∀ c, c ∈ it.rest ↔ Visits m ⟨offset, array.shape⟩ c := by
    intro c
    rw [mem_boundedCoordIter hl hb' hn hit, touches_iff hk hl hol h1]
    exact Iff.rfl
  have htch : ∀ c ∈ it.rest, Touches m.shape m.chunkShape offset array.shape c := fun c hc =>
    (mem_boundedCoordIter hl hb' hn hit).mp hc
  obtain ⟨_, w2, w3, w4⟩ := writeLoop_spec (bbox := ⟨offset, array.shape⟩) hb hp hs hcodec hl hk hfill
    (by simp only; omega) (by simp only; omega) it.rest [] hwf htch hloop
  have hno : ∀ p, ¬ InBox offset array.shape p := (inBox_empty (by omega)).mp (by simpa using hz)
  refine ⟨fun hv => w2 pos (fun hc => hv ((hvis pos).mp hc)), fun hv => ?_⟩
  have hmem := (hvis pos).mpr hv
  have hplen : pos.length = m.chunkShape.length := by rw [hv.1, hl]
  obtain ⟨v, hv1, hv2⟩ := w3 pos hmem
  -- every element keeps its value
  have key : ∀ i, Inside m.chunkShape i → ∀ x,
      Reads env h path m t fs (shift (chunkOffset pos m.chunkShape) i) x → v[linear m.order m.chunkShape i]? = some x := by
    intro i hi x hx
    obtain ⟨hco, hwi, hlen⟩ := chunkOf_shift hk hplen hi
    have hr := (w4 _ hlen (by rw [hco]; exact hmem)).2 (hno _) x hx
    rcases hr with ⟨c, hc, hd⟩ | ⟨hc, _⟩
    · rw [hco, hv1] at hc
      simp only [Outcome.ok.injEq, Option.some.injEq] at hc
      subst hc
      rwa [hwi] at hd
    · rw [hco, hv1] at hc; simp at hc
  have all : ∀ (w : List (El t)), w.length = m.chunkShape.prod →
      (∀ i, Inside m.chunkShape i → ∀ x, w[linear m.order m.chunkShape i]? = some x →
        Reads env h path m t fs (shift (chunkOffset pos m.chunkShape) i) x) → v = w := by
    intro w hwl hw
    apply List.ext_getElem?
    intro n
    by_cases hn : n < m.chunkShape.prod
    · obtain ⟨g1, g2⟩ := unlinear_spec (o := m.order) hn
      obtain ⟨x, hx⟩ : ∃ x, w[n]? = some x := ⟨_, List.getElem?_eq_getElem (by omega)⟩
      rw [hx, ← g2]
      exact key _ g1 x (hw _ g1 x (by rw [g2]; exact hx))
    · rw [List.getElem?_eq_none (by omega), List.getElem?_eq_none (by omega)]
  rcases (writeNdarray_spec hwf hb hp hs hcodec hl hn hw).2.2.2.2.2.1 with e | hlt
  · subst e
    exact ⟨fun c hc => hc, fun hc => absurd hv1 (by rw [look, hc]; simp)⟩
  constructor
  · intro c hc
    obtain ⟨_, c1, c2⟩ := look_some hc
    rw [Nat.mod_eq_of_lt hlt] at c2
    have e := all c.data c2 fun i hi x hx => by
      obtain ⟨hco, hwi, _⟩ := chunkOf_shift hk hplen hi
      exact .inl ⟨c, by rw [hco]; exact hc, by rw [hwi]; exact hx⟩
    rw [e] at hv1
    rw [← c1] at hv1 ⊢
    exact hv1
  · intro hc
    refine ⟨fill, hfill, ?_⟩
    have e := all (List.replicate m.chunkShape.prod fill) (by simp) fun i hi x hx => by
      obtain ⟨hco, hwi, _⟩ := chunkOf_shift hk hplen hi
      refine .inr ⟨by rw [hco]; exact hc, ?_⟩
      rw [List.getElem?_replicate] at hx
      split at hx
      · simp only [Option.some.injEq] at hx; rw [hfill, hx]
      · simp at hx
    rw [e] at hv1
    exact hv1

/-- In the example of `C27_violated` the chunk 0 is visited and stored; writing at the offset 2 visits none. -/
example : Visits Demo.arr ⟨[1], [0]⟩ [0] ∧ ∀ pos, ¬ Visits Demo.arr ⟨[2], [0]⟩ pos := by
  constructor
  · refine ⟨rfl, ?_⟩
    intro i s k o w x h1 h2 h3 h4 h5
    match i with
    | 0 =>
      simp [Demo.arr] at h1 h2 h3 h4 h5
      subst h1 h2 h3 h4 h5
      simp [AxisVisits]
    | i + 1 => simp [Demo.arr] at h1
  · rintro pos ⟨hl, h⟩
    match pos, hl with
    | [x], _ => exact absurd (h 0 5 2 2 0 x rfl rfl rfl rfl rfl) (by simp [AxisVisits])

/-! ## C39 -/

/-- **C38, C39 (exact).** What a successful `remove(path)` does to the chunks of every array, at `path`, below it or elsewhere:
a chunk is gone if `path` leads to its file or a directory above it, and otherwise it reads as before. -/
theorem C39_exact (env : Env) (h : Hier) (path q : Str) (fs fs' : Fs) (hwf : fs.WF)
    (hb : Plain (segs h.base)) (hsfx : GoodSuffix h.entry) (hp : Plain (segs path)) (hq : Plain (segs q))
    (hr : remove h path fs = (.ok (), fs')) (m : ArrayMetadata) (hs : GoodSep m.separator) (t : RsType) (pos : List Nat)
    (hin : m.inBounds pos = .ok true) :
    (segs path <+: segs q ++ chunkName m.separator pos → readChunk env h q m t pos fs' = (.ok none, fs')) ∧
    (¬ segs path <+: segs q ++ chunkName m.separator pos →
      (readChunk env h q m t pos fs').1 = (readChunk env h q m t pos fs).1) := by
  obtain ⟨g1, g2⟩ := (remove_ok_iff (h := h) (fs := fs) hwf hb hsfx hp).mp (by rw [hr])
  obtain ⟨fs'', e, w, hget⟩ := remove_spec hwf hb hsfx hp g1 g2
  rw [hr] at e
  simp only [Prod.mk.injEq, true_and] at e
  subst e
  have hpl := plain_loc_chunk (m := m) hb hq hs pos
  have hpre : dataLoc h path <+: h.loc (chunkKey q m pos) ↔ segs path <+: segs q ++ chunkName m.separator pos := by
    rw [dataLoc_prefix_chunk, chunkTail_eq (hs.imp id (·.2))]
  rw [← hpre]
  constructor
  · intro hx
    have hg := storeGet_eq w hpl
    rw [Fs.content, hget, if_pos (.inr (.inr hx))] at hg
    exact readChunk_inBounds hin hg
  · intro hx
    apply readChunk_congr
    rw [storeGet_eq w hpl, storeGet_eq hwf hpl, Fs.content, Fs.content, hget, if_neg]
    rintro (h1 | h1 | h1)
    · exact docLoc_ne_chunk h1.symm
    · exact docLoc_ne_chunk h1.symm
    · exact hx h1

/-- `remove("a/c1")` takes chunk 1 of the array `a` and all chunks `[1, j]` of a matrix `a`, but not chunk 10. -/
example : segs str!"a/c1" <+: segs str!"a" ++ chunkName str!"/" [1] ∧
    segs str!"a/c1" <+: segs str!"a" ++ chunkName str!"/" [1, 7] ∧
    ¬ segs str!"a/c1" <+: segs str!"a" ++ chunkName str!"/" [10] ∧
    ¬ segs str!"a/c1" <+: segs str!"a" ++ chunkName str!"." [1, 7] := by decide +kernel

end Zarr
