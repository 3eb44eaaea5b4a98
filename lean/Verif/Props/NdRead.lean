import Verif.Lemmas.NdRead
import Verif.Props.Grid
/-!
# Properties of reading n-dimensional boxes (C20, C24, C25, C26)
-/

namespace Zarr

open Spec

variable {env : Env} {h : Hier} {path : Str} {m : ArrayMetadata} {t : RsType} {bbox : BBox} {fs : Fs}

theorem BBox.new_ok {b : BBox} (hb : BBox.new b.offset b.shape = .ok b) :
    b.offset.length = b.shape.length := by
  unfold BBox.new at hb; split at hb <;> simp_all

/-- What a successful `read_ndarray_into_with_buffer` did. -/
theorem readInto_inv {arr : NdArr (El t)} {buf : Option (DataChunk t)}
    {r : NdArr (El t) × Option (DataChunk t)}
    (hr : (readNdarrayIntoWithBuffer env h path m t bbox arr buf fs).1 = .ok r) :
    bbox.offset.length = m.shape.length ∧ arr.shape = bbox.shape ∧ 
    m.shape.length = bbox.shape.length ∧
    ∃ it, m.boundedCoordIter bbox = .ok it ∧
      (readLoop env h path m t bbox it.rest arr buf fs).1 = .ok r := by
  unfold readNdarrayIntoWithBuffer at hr
  split at hr
  · simp at hr
  · rename_i h1
    split at hr
    · simp at hr
    · rename_i h2
      simp only [not_or, Decidable.not_not] at h1 h2
      simp only [M.bind_apply, M.lift_apply] at hr
      cases hit : m.boundedCoordIter bbox with
      | err e => simp [hit] at hr
      | panic => simp [hit] at hr
      | ok it =>
        rw [hit] at hr
        exact ⟨h1.1, h2.symm, by rw [h1.2, h2], it, rfl, hr⟩

theorem readInto_eq {arr : NdArr (El t)} {buf : Option (DataChunk t)} {it : CoordIter}
    (h1 : bbox.offset.length = m.shape.length) (h2 : arr.shape = bbox.shape)
    (h3 : m.shape.length = bbox.shape.length) (hit : m.boundedCoordIter bbox = .ok it) :
    readNdarrayIntoWithBuffer env h path m t bbox arr buf fs
      = readLoop env h path m t bbox it.rest arr buf fs := by
  unfold readNdarrayIntoWithBuffer
  rw [if_neg (by simp only [not_or, Decidable.not_not]; exact ⟨h1, by rw [h2, h3]⟩),
    if_neg (by simp only [Decidable.not_not]; exact h2.symm)]
  simp only [M.bind_apply, M.lift_apply, hit]

theorem readNdarrayInto_one {arr : NdArr (El t)} :
    (readNdarrayInto env h path m t bbox arr fs).1
      = (readNdarrayIntoWithBuffer env h path m t bbox arr none fs).1 >>= fun r => .ok r.1 := by
  simp only [readNdarrayInto, M.bind_apply]
  generalize readNdarrayIntoWithBuffer env h path m t bbox arr none fs = x
  obtain ⟨o, s⟩ := x
  cases o <;> rfl

theorem readNdarray_one :
    (readNdarray env h path m t bbox fs).1
      = effectiveFillValue env m t >>= fun fill =>
        (readNdarrayInto env h path m t bbox (NdArr.fromElem bbox.shape fill) fs).1 := by
  simp only [readNdarray, M.bind_apply, M.lift_apply]
  cases effectiveFillValue env m t <;> rfl

theorem bounded_lengths {it : CoordIter} (hl : m.shape.length = m.chunkShape.length)
    (hb : bbox.offset.length = bbox.shape.length)
    (hit : m.boundedCoordIter bbox = .ok it) : ∀ c ∈ it.rest, c.length = m.chunkShape.length := by
  intro c hc
  by_cases hn : m.shape = []
  · obtain ⟨_, _, h3, _⟩ := boundedCoordIter_ok hl hb hit
    rw [h3, hn] at hc
    simp [boundedRanges, isectLoop, multiCartesian] at hc
  · exact ((mem_boundedCoordIter hl hb hn hit).mp hc).length

/-- The demo array after writing the chunk at position 1. -/
abbrev demoFs : Fs :=
  (writeChunk Demo.env Demo.hier Demo.path Demo.arr Demo.chunk Demo.emptyFs).2

/-! ## C20 -/

/-- **C20.** A successful `read_ndarray` returns an array of the requested shape, and each of its
elements that lies inside the array's extent is the element of the stored chunk that covers it, at
the linear position given by the memory order, or the fill value if there is no such chunk. -/
theorem C20 (env : Env) (h : Hier) (path : Str) (m : ArrayMetadata) (t : RsType) (bbox : BBox)
    (fs : Fs) (arr : NdArr (El t)) (hl : m.shape.length = m.chunkShape.length) (hn : m.shape ≠ [])
    (hb : BBox.new bbox.offset bbox.shape = .ok bbox)
    (hr : (readNdarray env h path m t bbox fs).1 = .ok arr) :
    arr.shape = bbox.shape ∧
    ∀ i, Inside bbox.shape i → Inside m.shape (shift bbox.offset i) →
      (∃ c, (readChunk env h path m t (chunkOf m.chunkShape (shift bbox.offset i)) fs).1
          = .ok (some c) ∧
        c.data[linear m.order m.chunkShape (within m.chunkShape (shift bbox.offset i))]?
          = some (arr.get i)) ∨
      ((readChunk env h path m t (chunkOf m.chunkShape (shift bbox.offset i)) fs).1 = .ok none ∧
        effectiveFillValue env m t = .ok (arr.get i)) := by
  have hb' := BBox.new_ok hb
  rw [readNdarray_one, Outcome.bind_eq_ok] at hr
  obtain ⟨fill, hfill, hr⟩ := hr
  rw [readNdarrayInto_one, Outcome.bind_eq_ok] at hr
  obtain ⟨r, hr, hr'⟩ := hr
  simp only [Outcome.ok.injEq] at hr'
  subst hr'
  obtain ⟨h1, h2, h3, it, hit, hr⟩ := readInto_inv hr
  obtain ⟨_, hk, _⟩ := boundedCoordIter_ok hl hb' hit
  have hlen := bounded_lengths hl hb' hit
  obtain ⟨s1, s2, s3⟩ := readLoop_spec hb' (by omega) hk it.rest
    (fun c hc => by rw [hlen c hc]; omega) _ none h2 hr
  refine ⟨s1, fun i hi hin => ?_⟩
  have hmem : chunkOf m.chunkShape (shift bbox.offset i) ∈ it.rest := by
    rw [mem_boundedCoordIter hl hb' hn hit]
    exact touches_of_point hk hl hin ((inside_shift hb').mp hi).2
  obtain ⟨x, hx⟩ := s2 _ hmem
  cases x with
  | none =>
    right
    refine ⟨hx, ?_⟩
    rw [(s3 i hi).2 (.inr hx)]
    exact hfill
  | some c => exact .inl ⟨c, hx, (s3 i hi).1 c hmem hx⟩

/-- A box over an absent chunk (fill value 0) and both elements of a stored one. -/
example : BBox.new [1] [3] = .ok ⟨[1], [3]⟩ ∧ Demo.arr.shape ≠ [] ∧
    ((readNdarray Demo.env Demo.hier Demo.path Demo.arr .u16 ⟨[1], [3]⟩ demoFs).1
      >>= fun a => .ok (a.shape, a.toVec .rowMajor)) = .ok ([3], [0#16, 258#16, 7#16]) := by
  decide +kernel

/-! ## C24 -/

/-- **C24.** Whatever buffer is passed in, `read_ndarray_into_with_buffer` has the outcome of
`read_ndarray_into` and leaves the same array. -/
theorem C24 (env : Env) (h : Hier) (path : Str) (m : ArrayMetadata) (t : RsType) (bbox : BBox)
    (fs : Fs) (arr : NdArr (El t)) (buf : Option (DataChunk t)) :
    ((readNdarrayIntoWithBuffer env h path m t bbox arr buf fs).1 >>= fun r => .ok r.1)
      = (readNdarrayInto env h path m t bbox arr fs).1 := by
  rw [readNdarrayInto_one]
  unfold readNdarrayIntoWithBuffer
  split
  · rfl
  · split
    · rfl
    · simp only [M.bind_apply, M.lift_apply]
      cases m.boundedCoordIter bbox with
      | err e => rfl
      | panic => rfl
      | ok it => exact readLoop_buf it.rest arr buf none

example : ((readNdarrayIntoWithBuffer Demo.env Demo.hier Demo.path Demo.arr .u16 ⟨[1], [3]⟩
    (NdArr.fromElem [3] 9#16) (some ⟨[7], [5#16]⟩) demoFs).1 >>= fun a => .ok (a.1.toVec .rowMajor))
      = .ok [9#16, 258#16, 7#16] := by decide +kernel

/-! ## C25 -/

/-- **C25.** A successful `read_ndarray_into` changes an element of the caller's array only if
`read_chunk` returns a chunk for the position that covers it, and then to the value the chunk holds
there; every other element keeps its value. An element inside the extent over a stored chunk does
take the chunk's value. -/
theorem C25 (env : Env) (h : Hier) (path : Str) (m : ArrayMetadata) (t : RsType) (bbox : BBox)
    (fs : Fs) (arr arr' : NdArr (El t)) (hl : m.shape.length = m.chunkShape.length)
    (hb : BBox.new bbox.offset bbox.shape = .ok bbox)
    (hr : (readNdarrayInto env h path m t bbox arr fs).1 = .ok arr') :
    arr'.shape = arr.shape ∧
    ∀ i, Inside arr.shape i →
      (arr'.get i = arr.get i ∨
       ∃ c, (readChunk env h path m t (chunkOf m.chunkShape (shift bbox.offset i)) fs).1
          = .ok (some c) ∧
        c.data[linear m.order m.chunkShape (within m.chunkShape (shift bbox.offset i))]?
          = some (arr'.get i)) ∧
      (∀ c, m.shape ≠ [] → Inside m.shape (shift bbox.offset i) →
        (readChunk env h path m t (chunkOf m.chunkShape (shift bbox.offset i)) fs).1
          = .ok (some c) →
        c.data[linear m.order m.chunkShape (within m.chunkShape (shift bbox.offset i))]?
          = some (arr'.get i)) := by
  have hb' := BBox.new_ok hb
  rw [readNdarrayInto_one, Outcome.bind_eq_ok] at hr
  obtain ⟨r, hr, hr'⟩ := hr
  simp only [Outcome.ok.injEq] at hr'
  subst hr'
  obtain ⟨h1, h2, h3, it, hit, hr⟩ := readInto_inv hr
  obtain ⟨_, hk, _⟩ := boundedCoordIter_ok hl hb' hit
  have hlen := bounded_lengths hl hb' hit
  obtain ⟨s1, s2, s3⟩ := readLoop_spec hb' (by omega) hk it.rest
    (fun c hc => by rw [hlen c hc]; omega) _ none h2 hr
  rw [h2]
  refine ⟨s1, fun i hi => ⟨?_, fun c hn hin hx => (s3 i hi).1 c ?_ hx⟩⟩
  rotate_left
  · rw [mem_boundedCoordIter hl hb' hn hit]
    exact touches_of_point hk hl hin ((inside_shift hb').mp hi).2
  by_cases hmem : chunkOf m.chunkShape (shift bbox.offset i) ∈ it.rest
  · obtain ⟨x, hx⟩ := s2 _ hmem
    cases x with
    | none => exact .inl ((s3 i hi).2 (.inr hx))
    | some c => exact .inr ⟨c, hx, (s3 i hi).1 c hmem hx⟩
  · exact .inl ((s3 i hi).2 (.inl hmem))

example : BBox.new [1] [3] = .ok ⟨[1], [3]⟩ ∧
    ((readNdarrayInto Demo.env Demo.hier Demo.path Demo.arr .u16 ⟨[1], [3]⟩
      (NdArr.fromElem [3] 9#16) demoFs).1 >>= fun a => .ok (a.toVec .rowMajor))
        = .ok [9#16, 258#16, 7#16] := by decide +kernel

/-! ## C26 -/

theorem look_no_panic {pos : List Nat} (hin : m.inBounds pos = .ok true)
    (heff : m.dataType.effectiveType ≠ .panic)
    (hcodec : ∀ b, (codecOf env.codecs m.compressor).decode b ≠ .panic) :
    look env h path m t fs pos ≠ .panic := by
  intro hp
  simp only [look, readChunk, M.bind_apply, M.lift_apply, assertInBounds_ok.mpr hin] at hp
  rw [show storeGet h (chunkKey path m pos) fs = ((storeGet h (chunkKey path m pos) fs).1, fs)
      from rfl] at hp
  cases hg : (storeGet h (chunkKey path m pos) fs).1 with
  | err e => simp [hg] at hp
  | panic =>
    simp only [storeGet, M.read_apply] at hg
    cases hp : getPath h.base (chunkKey path m pos) with
    | err e => simp [hp] at hg
    | panic => exact getPath_ne_panic _ _ hp
    | ok p =>
      simp only [hp, Outcome.bind_ok] at hg
      split at hg
      · unfold Fs.readFile at hg
        cases hloc : fs.locate (segs p) with
        | err e => simp [hloc] at hg
        | panic => exact Fs.locate_ne_panic _ _ hloc
        | ok l =>
          simp only [hloc] at hg
          cases hget : fs.get l with
          | none => simp [hget] at hg
          | some n => cases n <;> simp [hget] at hg
      · simp at hg
  | ok v =>
    cases v with
    | none => simp [hg] at hp
    | some b =>
      simp only [hg, M.bind_apply, M.lift_apply] at hp
      cases hr : readChunkBytes env.codecs env.native m t pos b with
      | err e => simp [hr] at hp
      | ok c => simp [hr] at hp
      | panic =>
        cases hc : checkArrayType env.native m t with
        | err e => rw [readChunkBytes_check_err hc] at hr; exact absurd hr (by simp)
        | panic =>
          unfold checkArrayType at hc
          cases hd : m.dataType.effectiveType with
          | err e => simp [hd] at hc
          | panic => exact heff hd
          | ok d => rw [hd, Outcome.bind_ok] at hc; split at hc <;> simp at hc
        | ok u =>
          obtain ⟨d, hd, ht⟩ := checkArrayType_ok.mp hc
          rw [readChunkBytes_eq hd ht] at hr
          cases hdec : (codecOf env.codecs m.compressor).decode b with
          | err e => simp [hdec] at hr
          | panic => exact hcodec b hdec
          | ok s => rw [hdec, Outcome.bind_ok] at hr; split at hr <;> simp at hr

theorem fill_no_panic : effectiveFillValue env m t ≠ .panic := by
  have hint : ∀ (j : Json) (lo hi : Int), j.asIntIn lo hi ≠ .panic := by
    intro j lo hi
    unfold Json.asIntIn
    split
    · split <;> simp
    · simp
  have hbool : ∀ j : Json, j.asBool ≠ .panic := by
    intro j; unfold Json.asBool; split <;> simp
  unfold effectiveFillValue
  split
  · simp
  · rename_i j _
    unfold elFromJson
    intro hp
    have hb : ∀ {α β : Type} {x : Outcome α} {f : α → β}, x ≠ .panic →
        (x >>= fun a => pure (f a)) ≠ .panic := by
      intro α β x f hx
      cases x <;> simp_all
    have hb2 : ∀ {α β : Type} {x : Outcome α} {f : α → β}, x ≠ .panic →
        x.bind (fun a => .ok (f a)) ≠ .panic := by
      intro α β x f hx
      cases x <;> simp_all [Outcome.bind]
    refine hb2 ?_ hp
    cases t <;> simp only
    case bool => exact hb (hbool j)
    case f16 => cases env.floatFill .f16 j <;> simp [Outcome.ofOption]
    case f32 => cases env.floatFill .f32 j <;> simp [Outcome.ofOption]
    case f64 => cases env.floatFill .f64 j <;> simp [Outcome.ofOption]
    all_goals exact hb (hint _ _ _)

theorem starts_of_touches {s k o w c : List Nat}
    (hin : ∀ i a b : Nat, o[i]? = some a → s[i]? = some b → a < b)
    (h : Touches s k o w c) : Starts s k c := by
  induction s generalizing k o w c with
  | nil => cases k <;> cases o <;> cases w <;> cases c <;> simp_all [Touches, Starts]
  | cons a s ih =>
    cases k <;> cases o <;> cases w <;> cases c <;> simp only [Touches] at h
    rename_i b k d o e w f c
    have h0 := hin 0 d a rfl rfl
    have h1 := h.1
    exact ⟨by omega, ih (fun i x y hx hy => hin (i + 1) x y (by simpa using hx) (by simpa using hy))
      h.2⟩

theorem not_touches_of_aligned {s k o w c : List Nat} {i a b x : Nat} (ho : o[i]? = some a)
    (hs : s[i]? = some b) (hx : k[i]? = some x) (hle : b ≤ a ∨ w[i]? = some 0) (hd : x ∣ a) :
    ¬ Touches s k o w c := by
  intro h
  induction s generalizing k o w c i with
  | nil => simp at hs
  | cons p s ih =>
    cases k <;> cases o <;> cases w <;> cases c <;> simp only [Touches] at h
    rename_i q k d o e w f c
    cases i with
    | zero =>
      simp only [List.getElem?_cons_zero, Option.some.injEq] at ho hs hx hle
      subst ho hs hx
      obtain ⟨y, rfl⟩ := hd
      have h1 := h.1
      have h2 : f * q < q * y := by omega
      have h3 := h1.1
      rw [Nat.mul_comm] at h2
      have h4 := Nat.lt_of_mul_lt_mul_left h2
      rw [Nat.mul_comm] at h3
      have h5 := Nat.lt_of_mul_lt_mul_right h3
      omega
    | succ i =>
      exact ih (by simpa using ho) (by simpa using hs) (by simpa using hx) (by simpa using hle) h.2

/-- **C26 (partial).** Reading a box of the right dimension does not panic if the box starts inside
the array along every dimension, or if it starts at or beyond the end along some dimension at a
multiple of the chunk size. Assumed: nonzero chunk sizes, chunks of fewer than 2^32 elements, a data
type with a known size, a decoder that does not panic. Missing: boxes that start beyond the array
at other offsets (see `C26_violated`). -/
theorem C26_partial (env : Env) (h : Hier) (path : Str) (m : ArrayMetadata) (t : RsType)
    (bbox : BBox) (fs : Fs) (d : DataType) (hl : m.shape.length = m.chunkShape.length)
    (hk : ∀ k ∈ m.chunkShape, k ≠ 0) (hsmall : m.chunkShape.prod < 2 ^ 32)
    (heff : effective m.dataType = some d)
    (hcodec : ∀ b, (codecOf env.codecs m.compressor).decode b ≠ .panic)
    (hb : BBox.new bbox.offset bbox.shape = .ok bbox)
    (hbox : (∀ i o s : Nat, bbox.offset[i]? = some o → m.shape[i]? = some s → o < s) ∨
      (∃ i o s k : Nat, bbox.offset[i]? = some o ∧ m.shape[i]? = some s ∧
        m.chunkShape[i]? = some k ∧ s ≤ o ∧ k ∣ o)) :
    (readNdarray env h path m t bbox fs).1 ≠ .panic := by
  have hb' := BBox.new_ok hb
  rw [readNdarray_one]
  intro hp
  cases hf : effectiveFillValue env m t with
  | err e => simp [hf] at hp
  | panic => exact fill_no_panic hf
  | ok fill =>
    rw [hf, Outcome.bind_ok, readNdarrayInto_one] at hp
    have hp' : (readNdarrayIntoWithBuffer env h path m t bbox (NdArr.fromElem bbox.shape fill) none
        fs).1 = .panic := by
      revert hp
      cases (readNdarrayIntoWithBuffer env h path m t bbox (NdArr.fromElem bbox.shape fill) none
        fs).1 <;> simp
    clear hp
    by_cases hdim : bbox.offset.length = m.shape.length
    · obtain ⟨it, hit⟩ := boundedCoordIter_exists hdim hk
      rw [readInto_eq hdim rfl (by omega) hit] at hp'
      have hlen := bounded_lengths hl hb' hit
      refine readLoop_no_panic hb' (by omega) hsmall it.rest
        (fun c hc => by rw [hlen c hc]; omega) _ none rfl ?_ hp'
      intro c hc
      have hn : m.shape ≠ [] := by
        intro hn
        obtain ⟨_, _, h3, _⟩ := boundedCoordIter_ok hl hb' hit
        rw [h3, hn] at hc
        simp [boundedRanges, isectLoop, multiCartesian] at hc
      have ht := (mem_boundedCoordIter hl hb' hn hit).mp hc
      have hin : m.inBounds c = .ok true := by
        rw [inBounds_iff hl hk]
        apply bounded_of_starts hk
        rcases hbox with hbox | ⟨i, o, s, k, ho, hs, hk', hle, hd⟩
        · exact starts_of_touches hbox ht
        · exact absurd ht (not_touches_of_aligned ho hs hk' (.inl hle) hd)
      exact look_no_panic hin (by rw [effective_iff.mpr heff]; simp) hcodec
    · unfold readNdarrayIntoWithBuffer at hp'
      rw [if_pos (.inl hdim)] at hp'
      simp at hp'

example : (readNdarray Demo.env Demo.hier Demo.path Demo.arr .u16 ⟨[1], [3]⟩ demoFs).1 ≠ .panic ∧
    (readNdarray Demo.env Demo.hier Demo.path Demo.arr .u16 ⟨[8], [3]⟩ demoFs).1 ≠ .panic := by
  have hk : ∀ k ∈ Demo.arr.chunkShape, k ≠ 0 := by decide
  have hc : ∀ b, (codecOf Demo.env.codecs Demo.arr.compressor).decode b ≠ .panic := by
    intro b; simp [codecOf, Demo.arr, rawCodec]
  refine ⟨C26_partial _ _ _ _ _ _ _ _ rfl hk (by decide) rfl hc rfl (.inl ?_),
    C26_partial _ _ _ _ _ _ _ _ rfl hk (by decide) rfl hc rfl
      (.inr ⟨0, 8, 5, 2, rfl, rfl, rfl, by decide, by decide⟩)⟩
  intro i o s ho hs
  match i with
  | 0 => simp [Demo.arr] at ho hs; omega
  | i + 1 => simp at ho

/-- **C26 (violated).** Reading a box of the right dimension that starts beyond the array, at an
offset that is not a multiple of the chunk size, panics. -/
theorem C26_violated :
    (readNdarray Demo.env Demo.hier Demo.path { Demo.arr with shape := [100], chunkShape := [50] }
      .u16 ⟨[175], [10]⟩ Demo.emptyFs).1 = .panic := rfl

end Zarr
