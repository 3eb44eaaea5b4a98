import Verif.Props.Refine
import Verif.Props.TotalNd
/-!
# Box reads and writes in a hierarchy with ordinary names: C81

C70 for histories that also read and write boxes. The abstract hierarchy is the same: nodes by path and
chunks by path and grid position. -/

namespace Zarr

open Spec

/-! ## The specification -/

/-- The index at a position in memory, row-major. -/
def Spec.unlinearRow : List Nat → Nat → List Nat
  | _ :: ns, v => v / ns.prod :: unlinearRow ns (v % ns.prod)
  | [], _ => []

/-- The index at a position in memory, column-major. -/
def Spec.unlinearCol : List Nat → Nat → List Nat
  | n :: ns, v => v % n :: unlinearCol ns (v / n)
  | [], _ => []

/-- The index at a position in memory. -/
def Spec.unlinear (o : Order) (shape : List Nat) (v : Nat) : List Nat :=
  match o with
  | .rowMajor => unlinearRow shape v
  | .columnMajor => unlinearCol shape v

/-- The memory of an array of the given shape and elements. -/
def Spec.tabulate {α : Type} (o : Order) (shape : List Nat) (f : List Nat → α) : List α :=
  (List.range shape.prod).map fun v => f (unlinear o shape v)

/-- The chunk at a grid position begins inside the array. -/
def Spec.startsIn : List Nat → List Nat → List Nat → Bool
  | s :: ss, k :: ks, c :: cs => decide (c * k < s) && startsIn ss ks cs
  | [], [], [] => true
  | _, _, _ => false

/-- The chunk at a grid position, the box and the array have a point in common. -/
def Spec.meets : List Nat → List Nat → List Nat → List Nat → List Nat → Bool
  | s :: ss, k :: ks, o :: os, w :: ws, c :: cs =>
    decide (max (c * k) o < min ((c + 1) * k) (min (o + w) s)) && meets ss ks os ws cs
  | [], [], [], [], [] => true
  | _, _, _, _, _ => false

/-- The point lies in the box. -/
def Spec.inBox : List Nat → List Nat → List Nat → Bool
  | o :: os, s :: ss, p :: ps => decide (o ≤ p ∧ p < o + s) && inBox os ss ps
  | [], [], [] => true
  | _, _, _ => false

/-- The lowest point of the chunk at a grid position. -/
def Spec.corner : List Nat → List Nat → List Nat
  | k :: ks, c :: cs => c * k :: corner ks cs
  | _, _ => []

/-- The element at a position in the memory of a chunk. -/
def Spec.elemAt (t : RsType) (n : Nat) (d : Data) : Option (El t) :=
  if h : d.1 = t then (h ▸ d.2 : List (El t))[n]? else none

/-- The element at a point: that of the chunk that covers it, otherwise the fill value. -/
def Spec.AbsHier.elem (a : AbsHier) (m : ArrayMetadata) (t : RsType) (fill : El t) (p : List Str)
    (q : List Nat) : El t :=
  ((a.chunk p (chunkOf m.chunkShape q)).bind
    (elemAt t (linear m.order m.chunkShape (within m.chunkShape q)))).getD fill

/-- The calls: those of C70 and box reads and writes. -/
inductive Spec.BCall where
  | call (c : HCall)
  | readBox (p : Str) (t : RsType) (b : BBox)
  | writeBox (p : Str) (t : RsType) (offset : List Nat) (array : NdArr (El t))

/-- What a caller sees: of an array its shape and its elements in row-major order. -/
inductive Spec.BResult where
  | plain (r : HResult)
  | box (r : Outcome (List Nat × Data))

/-- The result of each call on an abstract hierarchy and the hierarchy afterwards. A box read gives at each
point the element there; chunks that begin outside the array are not looked at. A box write changes
the chunks that have a point in common with the box and the array: their elements in the box become those of
the given array, their other elements stay. -/
def Spec.BCall.abs (md : List Str → ArrayMetadata) (fill : List Str → (t : RsType) → El t) :
    BCall → AbsHier → BResult × AbsHier
  | .call c, a => (.plain (c.abs a).1, (c.abs a).2)
  | .readBox p t b, a =>
    let m := md (segs p)
    (.box (.ok (b.shape, ⟨t, tabulate .rowMajor b.shape fun i =>
      if startsIn m.shape m.chunkShape (chunkOf m.chunkShape (shift b.offset i)) then
        a.elem m t (fill (segs p) t) (segs p) (shift b.offset i)
      else fill (segs p) t⟩)), a)
  | .writeBox p t offset array, a =>
    let m := md (segs p)
    (.plain (.unit (.ok ())), ⟨a.node, fun q pos =>
      if q = segs p ∧ meets m.shape m.chunkShape offset array.shape pos = true then
        some ⟨t, tabulate m.order m.chunkShape fun i =>
          let x := shift (corner m.chunkShape pos) i
          if inBox offset array.shape x then array.get (rel offset x)
          else a.elem m t (fill (segs p) t) (segs p) x⟩
      else a.chunk q pos⟩)

/-- The results of a history of calls on an abstract hierarchy. -/
def Spec.bAbsResults (md : List Str → ArrayMetadata) (fill : List Str → (t : RsType) → El t) :
    List BCall → AbsHier → List BResult
  | [], _ => []
  | c :: cs, a => (c.abs md fill a).1 :: bAbsResults md fill cs (c.abs md fill a).2

/-- Perform a call; `md` gives the metadata with which the chunks of each path are accessed. -/
def Spec.BCall.run (env : Env) (h : Hier) (md : List Str → ArrayMetadata) : BCall → Fs → BResult × Fs
  | .call c, fs => (.plain (c.run env h md fs).1, (c.run env h md fs).2)
  | .readBox p t b, fs =>
    let r := Zarr.readNdarray env h p (md (segs p)) t b fs
    (.box (r.1 >>= fun a => .ok (a.shape, ⟨t, tabulate .rowMajor a.shape a.get⟩)), r.2)
  | .writeBox p _ offset array, fs =>
    let r := Zarr.writeNdarray env h p (md (segs p)) offset array fs
    (.plain (.unit r.1), r.2)

/-- The results of a history of calls. -/
def Spec.bResults (env : Env) (h : Hier) (md : List Str → ArrayMetadata) : List BCall → Fs → List BResult
  | [], _ => []
  | c :: cs, fs => (c.run env h md fs).1 :: bResults env h md cs (c.run env h md fs).2

/-- A box access: the array's element type, a valid fill value, at least one dimension, chunks of positive
size below `2^32` elements, and a box that has a point in common with the array. -/
structure Spec.BoxOk (env : Env) (m : ArrayMetadata) (t : RsType) (fill : El t) (b : BBox) : Prop where
  type : ∃ d, effective m.dataType = some d ∧ kindOf d = kindOfRs t
  fill : effectiveFillValue env m t = .ok fill
  dims : m.shape.length = m.chunkShape.length
  some : m.shape ≠ []
  pos : ∀ k ∈ m.chunkShape, k ≠ 0
  small : m.chunkShape.prod < 2 ^ 32
  offset : b.offset.length = m.shape.length
  shape : b.shape.length = m.shape.length
  meets : BoxMeetsArray m b

/-- The calls of which the specification speaks. -/
def Spec.BCall.Ok (env : Env) (h : Hier) (md : List Str → ArrayMetadata)
    (fill : List Str → (t : RsType) → El t) : BCall → Prop
  | .call c => c.Ok env h md
  | .readBox p t b => OrdinaryPath h p ∧ BoxOk env (md (segs p)) t (fill (segs p) t) b
  | .writeBox p t offset array => OrdinaryPath h p ∧
      BoxOk env (md (segs p)) t (fill (segs p) t) ⟨offset, array.shape⟩ ∧
      (codecOf env.codecs (md (segs p)).compressor).Lawful ∧
      ∀ s, ((codecOf env.codecs (md (segs p)).compressor).encode s).2 = .ok ()

/-! ## Lemmas on the specification -/

theorem inBox_iff {o w p : List Nat} : inBox o w p = true ↔ InBox o w p := by
  induction o generalizing w p with
  | nil => cases w <;> cases p <;> simp [inBox, InBox]
  | cons a o ih => cases w <;> cases p <;> simp [inBox, InBox, ih]

theorem corner_eq {k c : List Nat} : corner k c = chunkOffset c k := by
  induction k generalizing c with
  | nil => cases c <;> simp [corner]
  | cons a k ih =>
    cases c with
    | nil => simp [corner]
    | cons b c => simp only [corner, ih]; rfl

theorem startsIn_iff {s k c : List Nat} : startsIn s k c = true ↔ Starts s k c := by
  induction s generalizing k c with
  | nil => cases k <;> cases c <;> simp [startsIn, Starts]
  | cons a s ih => cases k <;> cases c <;> simp [startsIn, Starts, ih]

theorem meets_iff {s k o w c : List Nat} (hk : ∀ x ∈ k, x ≠ 0) :
    meets s k o w c = true ↔ ∃ p, Inside s p ∧ InBox o w p ∧ Covers k c p := by
  induction s generalizing k o w c with
  | nil =>
    cases k <;> cases o <;> cases w <;> cases c <;> simp only [meets, Bool.false_eq_true, false_iff, true_iff]
    · exact ⟨[], trivial, trivial, trivial⟩
    all_goals (rintro ⟨p, h1, h2, h3⟩; cases p <;> first | exact False.elim h1 | exact False.elim h2 | exact False.elim h3)
  | cons a s ih =>
    cases k <;> cases o <;> cases w <;> cases c <;>
      simp only [meets, Bool.false_eq_true, false_iff, Bool.and_eq_true, decide_eq_true_eq]
    case cons.cons.cons.cons b k d o e w f c =>
      rw [ih (fun x hx => hk x (by simp [hx]))]
      constructor
      · rintro ⟨h1, p, h2, h3, h4⟩
        refine ⟨max (f * b) d :: p, ⟨?_, h2⟩, ⟨?_, h3⟩, ?_, h4⟩ <;> omega
      · rintro ⟨p, h1, h2, h3⟩
        cases p with
        | nil => simp [Inside] at h1
        | cons x p =>
          have := h1.1; have := h2.1; have := h3.1
          exact ⟨by omega, p, h1.2, h2.2, h3.2⟩
    all_goals (rintro ⟨p, h1, h2, h3⟩; cases p <;> first | exact False.elim h1 | exact False.elim h2 | exact False.elim h3)

theorem elemAt_same {t : RsType} {n : Nat} {v : List (El t)} : elemAt t n ⟨t, v⟩ = v[n]? := by
  simp [elemAt]

theorem unlinearRow_spec {shape : List Nat} {v : Nat} (hv : v < shape.prod) :
    Inside shape (unlinearRow shape v) ∧ linearRow shape (unlinearRow shape v) = v := by
  induction shape generalizing v with
  | nil => simp [unlinearRow, Inside, linearRow] at hv ⊢; omega
  | cons n ns ih =>
    simp only [List.prod_cons] at hv
    have hp : 0 < ns.prod := by
      rcases Nat.eq_zero_or_pos ns.prod with e | e
      · rw [e] at hv; omega
      · exact e
    obtain ⟨h1, h2⟩ := ih (Nat.mod_lt v hp)
    refine ⟨⟨Nat.div_lt_of_lt_mul (by rwa [Nat.mul_comm]), h1⟩, ?_⟩
    simp only [unlinearRow, linearRow, h2]
    exact Nat.div_add_mod' v ns.prod

theorem unlinearCol_spec {shape : List Nat} {v : Nat} (hv : v < shape.prod) :
    Inside shape (unlinearCol shape v) ∧ linearCol shape (unlinearCol shape v) = v := by
  induction shape generalizing v with
  | nil => simp [unlinearCol, Inside, linearCol] at hv ⊢; omega
  | cons n ns ih =>
    simp only [List.prod_cons] at hv
    have hn : 0 < n := by
      rcases Nat.eq_zero_or_pos n with e | e
      · rw [e] at hv; omega
      · exact e
    obtain ⟨h1, h2⟩ := ih (v := v / n) (Nat.div_lt_of_lt_mul hv)
    refine ⟨⟨Nat.mod_lt v hn, h1⟩, ?_⟩
    simp only [unlinearCol, linearCol, h2]
    exact Nat.mod_add_div v n

theorem unlinear_spec {o : Order} {shape : List Nat} {v : Nat} (hv : v < shape.prod) :
    Inside shape (unlinear o shape v) ∧ linear o shape (unlinear o shape v) = v := by
  cases o with
  | rowMajor => exact unlinearRow_spec hv
  | columnMajor => exact unlinearCol_spec hv

theorem eq_tabulate {α : Type} {o : Order} {shape : List Nat} {f : List Nat → α} {v : List α}
    (hl : v.length = shape.prod) (hv : ∀ i, Inside shape i → v[linear o shape i]? = some (f i)) :
    v = tabulate o shape f := by
  apply List.ext_getElem?
  intro n
  by_cases hn : n < shape.prod
  · obtain ⟨h1, h2⟩ := unlinear_spec (o := o) hn
    have := hv _ h1
    rw [h2] at this
    rw [this]
    simp [tabulate, hn]
  · rw [List.getElem?_eq_none (by omega), List.getElem?_eq_none (by simp [tabulate]; omega)]

theorem tabulate_congr {α : Type} {o : Order} {shape : List Nat} {f g : List Nat → α}
    (h : ∀ i, Inside shape i → f i = g i) : tabulate o shape f = tabulate o shape g := by
  apply List.map_congr_left
  intro n hn
  exact h _ (unlinear_spec (List.mem_range.mp hn)).1

theorem tabulate_getElem {α : Type} {o : Order} {shape : List Nat} {f : List Nat → α} {i : List Nat}
    (hi : Inside shape i) : (tabulate o shape f)[linear o shape i]? = some (f i) := by
  have e : (NdArr.toVec o ⟨shape, f⟩) = tabulate o shape f :=
    eq_tabulate (toVec_length o ⟨shape, f⟩) (fun i hi => toVec_getElem (a := ⟨shape, f⟩) hi)
  rw [← e]; exact toVec_getElem (a := ⟨shape, f⟩) hi

/-! ## The steps -/

section
variable {env : Env} {h : Hier} {md : List Str → ArrayMetadata} {t : RsType} {a : AbsHier} {fs : Fs} {p : Str}

theorem Holds.look (hh : Holds env h md a fs) (hp : OrdinaryPath h p) {pos : List Nat}
    (hc : ChunkCallOk (md (segs p)) t pos) :
    ∃ x, Zarr.look env h p (md (segs p)) t fs pos = .ok x ∧
      a.chunk (segs p) pos = x.map fun c => ⟨t, c.data⟩ := by
  have := hh.data p t pos hp hc
  unfold observe at this
  rw [Outcome.bind_eq_ok] at this
  obtain ⟨x, h1, h2⟩ := this
  exact ⟨x, h1, by simpa using h2.symm⟩

theorem Spec.BoxOk.inBounds {m : ArrayMetadata} {fill : El t} {b : BBox} (ok : BoxOk env m t fill b) {pos : List Nat}
    (hs : Starts m.shape m.chunkShape pos) : m.inBounds pos = .ok true := by
  rw [inBounds_iff ok.dims ok.pos]
  exact bounded_of_starts ok.pos hs

theorem touches_of_starts {s k o w q : List Nat} (hk : ∀ x ∈ k, x ≠ 0) (hm : ∃ p, Inside s p ∧ InBox o w p)
    (hq : InBox o w q) (hs : Starts s k (chunkOf k q)) : Touches s k o w (chunkOf k q) := by
  obtain ⟨p, hp1, hp2⟩ := hm
  induction s generalizing k o w q p with
  | nil =>
    cases p <;> cases o <;> cases w <;> cases q <;> cases k <;>
      simp_all [Inside, InBox, chunkOf, Starts, Touches]
  | cons a s ih =>
    cases p <;> simp only [Inside] at hp1
    cases o <;> cases w <;> simp only [InBox] at hp2
    cases q <;> simp only [InBox] at hq
    cases k <;> simp only [chunkOf, Starts] at hs
    rename_i x p d o e w y q b k
    refine ⟨⟨?_, ?_⟩, ih (fun x hx => hk x (by simp [hx])) hq.2 hs.2 p hp1.2 hp2.2⟩
    · have h1 := hq.1
      have := Nat.lt_mul_div_succ y (Nat.pos_of_ne_zero (hk b (by simp)))
      rw [Nat.mul_comm] at this
      show d < (y / b + 1) * b
      omega
    · have h1 := hq.1
      have h2 := hp1.1
      have h3 := hp2.1
      have h4 := hs.1
      have := Nat.div_mul_le_self y b
      show y / b * b < max d (min a (d + e))
      omega

theorem step_readBox (hh : Holds env h md a fs) {fill : List Str → (t : RsType) → El t} {b : BBox}
    (hok : (BCall.readBox p t b).Ok env h md fill) :
    ((BCall.readBox p t b).run env h md fs).1 = ((BCall.readBox p t b).abs md fill a).1 ∧
    Holds env h md ((BCall.readBox p t b).abs md fill a).2 ((BCall.readBox p t b).run env h md fs).2 := by
  obtain ⟨hp, ok⟩ := hok
  have hb' : b.offset.length = b.shape.length := by rw [ok.offset, ok.shape]
  have hbox : BBox.new b.offset b.shape = .ok b := by simp [BBox.new, hb']
  have hlk : ∀ pos, Starts (md (segs p)).shape (md (segs p)).chunkShape pos →
      ∃ x, Zarr.look env h p (md (segs p)) t fs pos = .ok x ∧
        a.chunk (segs p) pos = x.map fun c => ⟨t, c.data⟩ :=
    fun pos hs => hh.look hp ⟨ok.inBounds hs, ok.type⟩
  obtain ⟨arr, hr⟩ := C68_read env h p (md (segs p)) t b fs ok.dims ok.pos ok.small ok.offset ok.shape ok.meets
    ⟨_, ok.fill⟩ (fun pos hov => by
      obtain ⟨q, q1, q2, q3⟩ := hov
      obtain ⟨x, hx, _⟩ := hlk pos ((starts_iff ok.dims ok.pos).mp ⟨q, q1, q3⟩)
      exact ⟨x, hx⟩)
  have hr1 : (readNdarray env h p (md (segs p)) t b fs).1 = .ok arr := by rw [hr]
  simp only [BCall.run, BCall.abs, hr, Outcome.bind_ok]
  refine ⟨?_, hh⟩
  rw [readNdarray_one, ok.fill, Outcome.bind_ok, readNdarrayInto_one, Outcome.bind_eq_ok] at hr1
  obtain ⟨r, hr1, hr'⟩ := hr1
  simp only [Outcome.ok.injEq] at hr'
  subst hr'
  obtain ⟨h1, h2, h3, it, hit, hr1⟩ := readInto_inv hr1
  have hlen := bounded_lengths ok.dims hb' hit
  obtain ⟨s1, s2, s3⟩ := readLoop_spec hb' (by have := ok.dims; omega) ok.pos it.rest
    (fun c hc => by rw [hlen c hc]; have := ok.dims; omega) _ none h2 hr1
  rw [s1]
  congr 3
  congr 1
  refine tabulate_congr fun i hi => ?_
  have hq := ((inside_shift hb').mp hi).2
  obtain ⟨g1, g2⟩ := s3 i hi
  by_cases hst : startsIn (md (segs p)).shape (md (segs p)).chunkShape
      (chunkOf (md (segs p)).chunkShape (shift b.offset i)) = true
  · rw [if_pos hst]
    have hst' := startsIn_iff.mp hst
    have hmem : chunkOf (md (segs p)).chunkShape (shift b.offset i) ∈ it.rest := by
      rw [mem_boundedCoordIter ok.dims hb' ok.some hit]
      exact touches_of_starts ok.pos ok.meets hq hst'
    obtain ⟨x, hx, hax⟩ := hlk _ hst'
    unfold AbsHier.elem
    rw [hax]
    cases x with
    | none => exact g2 (.inr hx)
    | some c =>
      have := g1 c hmem hx
      simp only [Option.map_some, Option.bind_some, elemAt_same, this, Option.getD_some]
  · rw [if_neg hst]
    refine g2 (.inl fun hmem => hst ?_)
    rw [mem_boundedCoordIter ok.dims hb' ok.some hit] at hmem
    obtain ⟨q, q1, _, q3⟩ := overlap_of_touches ok.pos ok.meets hmem
    exact startsIn_iff.mpr ((starts_iff ok.dims ok.pos).mp ⟨q, q1, q3⟩)

/-- A round of the loop of `write_ndarray` is the write of a chunk. -/
theorem writeCoord_write {m : ArrayMetadata} {bbox : BBox} {fill : El t} {array : NdArr (El t)} {pos : List Nat}
    {existing e : List (El t)} {fs' : Fs}
    (h1 : bbox.offset.length = m.chunkShape.length) (h2 : bbox.shape.length = m.chunkShape.length)
    (hpl : pos.length = m.chunkShape.length)
    (hw : writeCoord env h p m bbox fill array pos existing fs = (.ok e, fs')) :
    ∃ v, v.length = m.chunkShape.prod ∧ writeChunk env h p m (⟨pos, v⟩ : DataChunk t) fs = (.ok (), fs') := by
  obtain ⟨writeBb, arrBb, view, i1, i2, hv, ⟨hfull, i4⟩ | ⟨_, i4⟩⟩ := writeCoord_inv hw
  · refine ⟨_, ?_, i4⟩
    have hck : (chunkOffset pos m.chunkShape).length = m.chunkShape.length := by simp [hpl]
    subst hfull
    rw [toVec_length]
    obtain ⟨e1, e2⟩ := isect_sub (s := m.chunkShape) (o := chunkOffset pos m.chunkShape)
      (w := bbox.shape) (k := bbox.offset) hck h2 h1
    rw [intersect_eq (show (m.chunkBounds pos).offset.length = bbox.offset.length by
      rw [ArrayMetadata.chunkBounds, hck, h1])] at i1
    simp only [Outcome.ok.injEq, ArrayMetadata.chunkBounds, BBox.mk.injEq] at i1
    have hf : isectLoop m.chunkShape (chunkOffset pos m.chunkShape) bbox.shape bbox.offset
        = (m.chunkShape, chunkOffset pos m.chunkShape) := Prod.ext i1.2 i1.1
    rw [hf] at e2
    simp only [BBox.sub, ArrayMetadata.chunkBounds] at i2
    rw [show List.zipWith (· * ·) pos m.chunkShape = chunkOffset pos m.chunkShape from rfl, e2] at i2
    simp only [Outcome.bind_ok, Outcome.pure_def, Outcome.ok.injEq] at i2
    subst i2
    have hv : array.slice (relRanges (m.chunkShape, chunkOffset pos m.chunkShape) bbox.offset) = .ok view := hv
    unfold NdArr.slice at hv
    split at hv
    · simp only [Outcome.ok.injEq] at hv
      subst hv
      show List.prod ((relRanges _ _).map fun x => x.2 - x.1) = _
      rw [relRanges_shape hck h1]
    · simp at hv
  · unfold writePartial at i4
    simp only [M.bind_apply, C11, readChunk_look] at i4
    cases hlk : Zarr.look env h p m t fs pos with
    | err x => simp [hlk] at i4
    | panic => simp [hlk] at i4
    | ok old =>
      rw [hlk] at i4
      have fin : ∀ (o : Outcome (BBox × NdArr (El t) × Order)), (do
            let c ← M.lift o
            let chunkWriteBb ← M.lift (writeBb.sub c.1.offset)
            let a ← M.lift (c.2.1.sliceAssign chunkWriteBb.toSlice view)
            writeChunk env h p m ⟨pos, a.toVec m.order⟩
            pure (a.toVec c.2.2) : M Fs (List (El t))) fs = (.ok e, fs') →
          (∀ c, o = .ok c → c.2.1.shape = m.chunkShape) →
          ∃ v, v.length = m.chunkShape.prod ∧ writeChunk env h p m (⟨pos, v⟩ : DataChunk t) fs = (.ok (), fs') := by
        intro o ho hshape
        cases o with
        | err e => simp at ho
        | panic => simp at ho
        | ok c =>
          simp only [M.bind_apply, M.lift_apply] at ho
          cases e1 : writeBb.sub c.1.offset with
          | err e => simp [e1] at ho
          | panic => simp [e1] at ho
          | ok x =>
            simp only [e1] at ho
            cases e2 : c.2.1.sliceAssign x.toSlice view with
            | err e => simp [e2] at ho
            | panic => simp [e2] at ho
            | ok y =>
              simp only [e2] at ho
              cases e3 : writeChunk env h p m ⟨pos, y.toVec m.order⟩ fs with
              | mk r s =>
                rw [e3] at ho
                cases r with
                | err e => simp at ho
                | panic => simp at ho
                | ok u =>
                  simp only [M.pure_apply, Prod.mk.injEq] at ho
                  refine ⟨_, ?_, by rw [e3, ho.2]⟩
                  rw [toVec_length, ← hshape c rfl]
                  unfold NdArr.sliceAssign at e2
                  split at e2
                  · simp only [Outcome.ok.injEq] at e2
                    subst e2; rfl
                  · simp at e2
      cases old with
      | none =>
        exact fin (do
          let a ← fromShapeVec .rowMajor (m.chunkBounds pos).shape
            (List.replicate (m.chunkBounds pos).shape.prod fill)
          pure (m.chunkBounds pos, a, Order.rowMajor)) i4 (by
            intro c hc
            simp only [fromShapeVec, List.length_replicate, if_true, Outcome.bind_ok, Outcome.pure_def,
              Outcome.ok.injEq] at hc
            subst hc; rfl)
      | some c =>
        exact fin (do
          let a ← fromShapeVec m.order m.chunkShape c.data
          pure (m.chunkBounds c.gridPosition, a, m.order)) i4 (by
            intro x hx
            simp only [fromShapeVec] at hx
            split at hx
            · simp only [Outcome.bind_ok, Outcome.pure_def, Outcome.ok.injEq] at hx
              subst hx; rfl
            · simp at hx)

/-- The chunk that a box write leaves at a position. -/
def boxChunk (a : AbsHier) (m : ArrayMetadata) (fill : El t) (q : List Str) (offset : List Nat)
    (array : NdArr (El t)) (pos : List Nat) : List (El t) :=
  tabulate m.order m.chunkShape fun i =>
    let x := shift (corner m.chunkShape pos) i
    if inBox offset array.shape x then array.get (rel offset x) else a.elem m t fill q x

theorem within_shift {k c i : List Nat} (hi : Inside k i) (hc : c.length = k.length) :
    chunkOf k (shift (chunkOffset c k) i) = c ∧ within k (shift (chunkOffset c k) i) = i := by
  induction k generalizing c i with
  | nil => cases c <;> cases i <;> simp_all [chunkOf, within, Inside]
  | cons a k ih =>
    cases c with
    | nil => simp at hc
    | cons b c =>
      cases i with
      | nil => exact False.elim hi
      | cons d i =>
        obtain ⟨h1, h2⟩ := ih hi.2 (by simpa using hc)
        have hd : d < a := hi.1
        have ha : 0 < a := by omega
        simp only [chunkOffset] at h1 h2
        simp only [chunkOffset, List.zipWith_cons_cons, shift, chunkOf, within, h1, h2]
        refine ⟨?_, ?_⟩
        · rw [Nat.add_comm, Nat.add_mul_div_right _ _ ha, Nat.div_eq_of_lt hd]; simp
        · rw [Nat.add_comm, Nat.add_mul_mod_self_right, Nat.mod_eq_of_lt hd]

theorem shift_len {o i : List Nat} (h : o.length = i.length) : (shift o i).length = i.length := by
  rw [shift_length h, h]

theorem step_coord (hb : Plain (segs h.base)) (hs : ∀ q, GoodSep (md q).separator) (hh : Holds env h md a fs)
    (hp : OrdinaryPath h p) {fill : El t} {offset : List Nat} {array : NdArr (El t)}
    (ok : BoxOk env (md (segs p)) t fill ⟨offset, array.shape⟩)
    (hlaw : (codecOf env.codecs (md (segs p)).compressor).Lawful)
    (htot : ∀ s, ((codecOf env.codecs (md (segs p)).compressor).encode s).2 = .ok ()) {pos : List Nat}
    (hov : OverlapsBoth (md (segs p)) ⟨offset, array.shape⟩ pos) (existing : List (El t)) :
    ∃ e fs', writeCoord env h p (md (segs p)) ⟨offset, array.shape⟩ fill array pos existing fs = (.ok e, fs') ∧
      Holds env h md ⟨a.node, fun q pos' => if q = segs p ∧ pos' = pos then
        some ⟨t, boxChunk a (md (segs p)) fill (segs p) offset array pos⟩ else a.chunk q pos'⟩ fs' := by
  obtain ⟨d, hd, hk⟩ := ok.type
  obtain ⟨q, q1, q2, q3⟩ := hov
  have hin := ok.inBounds ((starts_iff ok.dims ok.pos).mp ⟨q, q1, q3⟩)
  have hcall : ChunkCallOk (md (segs p)) t pos := ⟨hin, ok.type⟩
  have hpl : pos.length = (md (segs p)).chunkShape.length := (Covers.length q3).2
  have ht := touches_of_overlap ok.pos ok.dims q1 q2 q3
  have h1 : offset.length = (md (segs p)).chunkShape.length := by rw [← ok.dims]; exact ok.offset
  have h2 : array.shape.length = (md (segs p)).chunkShape.length := by rw [← ok.dims]; exact ok.shape
  obtain ⟨x, hx, hax⟩ := hh.look hp hcall
  obtain ⟨e, fs', b, w1, w2, w3⟩ := writeCoord_ok (bbox := ⟨offset, array.shape⟩) (fill := fill) (array := array)
    (existing := existing) hh.wf hb hp.plain (hs _) hd hk ok.small htot h1 h2 hpl rfl ⟨q, q2, q3⟩ ⟨x, hx⟩
    (hh.clear _ (.chunk p pos hp (inBounds_length hin)))
  refine ⟨e, fs', w1, ?_⟩
  obtain ⟨v, hvl, hwv⟩ := writeCoord_write (bbox := ⟨offset, array.shape⟩) h1 h2 hpl w1
  obtain ⟨_, _, ⟨v', s3, hvl'⟩, s4⟩ := writeCoord_spec (bbox := ⟨offset, array.shape⟩) hh.wf hb hp.plain (hs _) hlaw
    ok.dims ok.pos ok.fill h1 h2 ht w1
  have hstep := (step_writeChunk hb hs hh p t ⟨pos, v⟩ ⟨hp, hcall, hvl, ok.small, hlaw, htot⟩).2
  simp only [HCall.run, HCall.abs, hwv] at hstep
  have hvv : v = boxChunk a (md (segs p)) fill (segs p) offset array pos := by
    have e1 : v = v' := by
      obtain ⟨y, hy, hay⟩ := hstep.look hp hcall
      rw [s3] at hy
      simp only [Outcome.ok.injEq] at hy
      subst hy
      simp at hay
      exact hay
    subst e1
    refine eq_tabulate hvl fun i hi => ?_
    rw [corner_eq]
    have hcl : (chunkOffset pos (md (segs p)).chunkShape).length = i.length := by
      rw [Inside.length hi]; simp [hpl]
    obtain ⟨c1, c2⟩ := within_shift hi hpl
    obtain ⟨r1, r2⟩ := s4 (shift (chunkOffset pos (md (segs p)).chunkShape) i)
      (by rw [shift_len hcl, Inside.length hi]) c1
    have key : ∀ u, Reads env h p (md (segs p)) t fs' (shift (chunkOffset pos (md (segs p)).chunkShape) i) u →
        v[linear (md (segs p)).order (md (segs p)).chunkShape i]? = some u := by
      intro u hu
      unfold Reads at hu
      rw [c1, c2, s3] at hu
      rcases hu with ⟨c, hc, hu⟩ | ⟨hc, _⟩
      · simp only [Outcome.ok.injEq, Option.some.injEq] at hc
        subst hc; exact hu
      · simp at hc
    simp only
    by_cases hbx : inBox offset array.shape (shift (chunkOffset pos (md (segs p)).chunkShape) i) = true
    · rw [if_pos hbx]
      exact key _ (r1 (inBox_iff.mp hbx))
    · rw [if_neg hbx]
      refine key _ (r2 (fun hc => hbx (inBox_iff.mpr hc)) _ ?_)
      unfold Reads AbsHier.elem
      rw [c1, c2, hx, hax]
      cases x with
      | none => exact .inr ⟨rfl, ok.fill⟩
      | some c =>
        refine .inl ⟨c, rfl, ?_⟩
        have hlen := (look_some hx).2.2
        rw [Nat.mod_eq_of_lt ok.small] at hlen
        have hlt := linear_lt (o := (md (segs p)).order) hi
        simp only [Option.map_some, Option.bind_some, elemAt_same]
        rw [List.getElem?_eq_getElem (by omega)]
        rfl
  rw [hvv] at hstep
  exact hstep

theorem elem_of_chunk {a' : AbsHier} {m : ArrayMetadata} {fill : El t} {q : List Str} {x : List Nat}
    (he : a'.chunk q (chunkOf m.chunkShape x) = a.chunk q (chunkOf m.chunkShape x)) :
    a'.elem m t fill q x = a.elem m t fill q x := by
  unfold AbsHier.elem
  rw [he]

theorem boxChunk_congr {a' : AbsHier} {m : ArrayMetadata} {fill : El t} {q : List Str} {offset : List Nat}
    {array : NdArr (El t)} {pos : List Nat} (hl : pos.length = m.chunkShape.length)
    (he : a'.chunk q pos = a.chunk q pos) :
    boxChunk a' m fill q offset array pos = boxChunk a m fill q offset array pos := by
  refine tabulate_congr fun i hi => ?_
  simp only
  rw [elem_of_chunk]
  rw [corner_eq, (within_shift hi hl).1]
  exact he

theorem step_loop (hb : Plain (segs h.base)) (hs : ∀ q, GoodSep (md q).separator)
    (hp : OrdinaryPath h p) {fill : El t} {offset : List Nat} {array : NdArr (El t)}
    (ok : BoxOk env (md (segs p)) t fill ⟨offset, array.shape⟩)
    (hlaw : (codecOf env.codecs (md (segs p)).compressor).Lawful)
    (htot : ∀ s, ((codecOf env.codecs (md (segs p)).compressor).encode s).2 = .ok ()) (coords : List (List Nat))
    (existing : List (El t)) (a : AbsHier) (fs : Fs) (hh : Holds env h md a fs) (hnd : coords.Nodup)
    (hov : ∀ c ∈ coords, OverlapsBoth (md (segs p)) ⟨offset, array.shape⟩ c) :
    ∃ fs', writeLoop env h p (md (segs p)) ⟨offset, array.shape⟩ fill array coords existing fs = (.ok (), fs') ∧
      Holds env h md ⟨a.node, fun q pos => if q = segs p ∧ pos ∈ coords then
        some ⟨t, boxChunk a (md (segs p)) fill (segs p) offset array pos⟩ else a.chunk q pos⟩ fs' := by
  induction coords generalizing existing a fs with
  | nil => exact ⟨fs, rfl, by simpa using hh⟩
  | cons pos rest ih =>
    obtain ⟨e, fs1, w1, hh1⟩ := step_coord hb hs hh hp ok hlaw htot (hov pos (by simp)) existing
    rw [List.nodup_cons] at hnd
    obtain ⟨fs', w2, hh2⟩ := ih e _ fs1 hh1 hnd.2 fun c hc => hov c (by simp [hc])
    refine ⟨fs', by simp only [writeLoop, M.bind_apply, w1, w2], ?_⟩
    have heq : (fun (q : List Str) (pos' : List Nat) => if q = segs p ∧ pos' ∈ rest then
        some (⟨t, boxChunk (⟨a.node, fun q pos' => if q = segs p ∧ pos' = pos then
          some ⟨t, boxChunk a (md (segs p)) fill (segs p) offset array pos⟩ else a.chunk q pos'⟩ : AbsHier)
            (md (segs p)) fill (segs p) offset array pos'⟩ : Data)
        else if q = segs p ∧ pos' = pos then
          some ⟨t, boxChunk a (md (segs p)) fill (segs p) offset array pos⟩ else a.chunk q pos')
        = fun q pos' => if q = segs p ∧ pos' ∈ pos :: rest then
          some ⟨t, boxChunk a (md (segs p)) fill (segs p) offset array pos'⟩ else a.chunk q pos' := by
      funext q pos'
      by_cases hq : q = segs p
      · by_cases hm : pos' ∈ rest
        · have hne : pos' ≠ pos := fun he => hnd.1 (he ▸ hm)
          have hl : pos'.length = (md (segs p)).chunkShape.length := by
            obtain ⟨_, _, _, q3⟩ := hov pos' (by simp [hm])
            exact (Covers.length q3).2
          rw [if_pos ⟨hq, hm⟩, if_pos ⟨hq, by simp [hm]⟩, boxChunk_congr hl]
          simp [hne]
        · rw [if_neg (fun hc => hm hc.2)]
          by_cases he : pos' = pos
          · rw [if_pos ⟨hq, he⟩, if_pos ⟨hq, by simp [he]⟩, he]
          · rw [if_neg (fun hc => he hc.2), if_neg (fun hc => by
              rcases List.mem_cons.mp hc.2 with h | h
              · exact he h
              · exact hm h)]
      · rw [if_neg (fun hc => hq hc.1), if_neg (fun hc => hq hc.1), if_neg (fun hc => hq hc.1)]
    rw [← heq]
    exact hh2

theorem step_writeBox (hb : Plain (segs h.base)) (hs : ∀ q, GoodSep (md q).separator) (hh : Holds env h md a fs)
    {fill : List Str → (t : RsType) → El t} {offset : List Nat} {array : NdArr (El t)}
    (hok : (BCall.writeBox p t offset array).Ok env h md fill) :
    ((BCall.writeBox p t offset array).run env h md fs).1 = ((BCall.writeBox p t offset array).abs md fill a).1 ∧
    Holds env h md ((BCall.writeBox p t offset array).abs md fill a).2
      ((BCall.writeBox p t offset array).run env h md fs).2 := by
  obtain ⟨hp, ok, hlaw, htot⟩ := hok
  obtain ⟨it, xs, hit, hy, hsorted, _, hmem⟩ := C16_partial (md (segs p)) ⟨offset, array.shape⟩ ok.dims ok.pos ok.some
    ok.offset ok.shape
  rw [yields_iff] at hy
  subst hy
  have hmem := hmem ok.meets
  have hnd : it.rest.Nodup := by
    exact hsorted.imp fun hlt he => by subst he; exact absurd hlt (List.lt_irrefl _)
  obtain ⟨fs', w, hh'⟩ := step_loop hb hs hp ok hlaw htot it.rest [] a fs hh hnd
    (fun c hc => (hmem c).mp hc)
  have hw : writeNdarray env h p (md (segs p)) offset array fs = (.ok (), fs') := by
    unfold writeNdarray
    rw [if_neg (by have := ok.shape; simpa using this)]
    simp only [M.bind_apply, M.lift_apply, ok.fill, hit, w]
  simp only [BCall.run, BCall.abs, hw]
  refine ⟨trivial, ?_⟩
  have heq : ∀ pos, meets (md (segs p)).shape (md (segs p)).chunkShape offset array.shape pos = true ↔ pos ∈ it.rest := by
    intro pos
    rw [meets_iff ok.pos]
    exact (hmem pos).symm
  simp only [heq]
  exact hh'

theorem bStep (hj : env.json.Lawful) (hb : Plain (segs h.base))
    (hsfx : GoodSuffix h.entry) (hdot : '.' ∉ stripDot h.entry.metadataKeySuffix)
    (hs : ∀ q, GoodSep (md q).separator) (hh : Holds env h md a fs) {fill : List Str → (t : RsType) → El t}
    (c : BCall) (hok : c.Ok env h md fill) :
    (c.run env h md fs).1 = (c.abs md fill a).1 ∧ Holds env h md (c.abs md fill a).2 (c.run env h md fs).2 := by
  cases c with
  | call c =>
    obtain ⟨h1, h2⟩ := step hj hb hsfx hdot hs hh c hok
    exact ⟨congrArg BResult.plain h1, h2⟩
  | readBox p t b => exact step_readBox hh hok
  | writeBox p t offset array => exact step_writeBox hb hs hh hok

theorem bResults_of_holds (hj : env.json.Lawful) (hb : Plain (segs h.base))
    (hsfx : GoodSuffix h.entry) (hdot : '.' ∉ stripDot h.entry.metadataKeySuffix)
    (hs : ∀ q, GoodSep (md q).separator) (hh : Holds env h md a fs) {fill : List Str → (t : RsType) → El t}
    (calls : List BCall) (hok : ∀ c ∈ calls, c.Ok env h md fill) :
    bResults env h md calls fs = bAbsResults md fill calls a := by
  induction calls generalizing a fs with
  | nil => rfl
  | cons c cs ih =>
    obtain ⟨h1, h2⟩ := bStep hj hb hsfx hdot hs hh c (hok c (by simp))
    rw [bResults, bAbsResults, h1, ih h2 fun c hc => hok c (by simp [hc])]

end

/-- **C81** In a directory without a hierarchy, every history of the calls of C70 and of box reads and writes gives
the results that it gives on the map of C70: a box read returns the elements of the chunks in the map and the
fill value elsewhere, a box write changes exactly the elements in the box, and neither depends on how the
elements were written or on what happened to other nodes and arrays. -/
theorem C81 (env : Env) (h : Hier) (md : List Str → ArrayMetadata) (fill : List Str → (t : RsType) → El t)
    (calls : List BCall) (fs : Fs) (hwf : fs.WF)
    (hj : env.json.Lawful) (hb : Plain (segs h.base)) (hsfx : GoodSuffix h.entry)
    (hdot : '.' ∉ stripDot h.entry.metadataKeySuffix) (hs : ∀ q, GoodSep (md q).separator)
    (hf : FreshDir h fs) (hok : ∀ c ∈ calls, c.Ok env h md fill) :
    bResults env h md calls fs = bAbsResults md fill calls AbsHier.empty :=
  bResults_of_holds hj hb hsfx hdot hs (.fresh hb hs hwf hf) calls hok

/-! ## A concrete case -/

/-- Create an array of five elements in chunks of two, read all of it, write three elements that lie in two
chunks, write one of them again, read all of it, delete a chunk and read the last four elements. -/
def Demo.boxHistory : List BCall :=
  [.call (.createArray Demo.path Demo.arr), .readBox Demo.path .u16 ⟨[0], [5]⟩,
   .writeBox Demo.path .u16 [1] ⟨[3], fun i => BitVec.ofNat 16 (10 + i.headD 0)⟩,
   .writeBox str!"a/b" .u16 [2] ⟨[1], fun _ => (77 : BitVec 16)⟩, .readBox str!"a//b" .u16 ⟨[0], [5]⟩,
   .call (.readChunk Demo.path .u16 [0]), .call (.deleteChunk Demo.path [0]), .readBox Demo.path .u16 ⟨[1], [4]⟩]

theorem Demo.boxOk {o w : Nat} (hw : 0 < w) (ho : o < 5) : BoxOk Demo.envJ Demo.arr .u16 (El.default .u16) ⟨[o], [w]⟩ where
  type := ⟨_, rfl, rfl⟩
  fill := by decide
  dims := rfl
  some := by decide
  pos := by decide
  small := by decide
  offset := rfl
  shape := rfl
  meets := ⟨[o], ⟨ho, trivial⟩, ⟨⟨Nat.le_refl _, by omega⟩, trivial⟩⟩

/-- The fill value of every path and type. -/
def Demo.fills (_ : List Str) (t : RsType) : El t := El.default t

theorem Demo.boxHistory_ok : ∀ c ∈ Demo.boxHistory, c.Ok Demo.envJ Demo.hier (fun _ => Demo.arr) Demo.fills := by
  have hp : ∀ {p : Str}, (segs p).all (fun s => decide (s = str!"a" ∨ s = str!"b")) = true → OrdinaryPath Demo.hier p :=
    Demo.ordinaryPath
  simp only [Demo.boxHistory, List.forall_mem_cons, BCall.Ok, HCall.Ok]
  refine ⟨⟨hp (by decide), Demo.arr_faithful⟩, ⟨hp (by decide), Demo.boxOk (o := 0) (w := 5) (by decide) (by decide)⟩,
    ⟨hp (by decide), Demo.boxOk (o := 1) (w := 3) (by decide) (by decide), rawCodec_lawful, fun _ => rfl⟩,
    ⟨hp (by decide), Demo.boxOk (o := 2) (w := 1) (by decide) (by decide), rawCodec_lawful, fun _ => rfl⟩,
    ⟨hp (by decide), Demo.boxOk (o := 0) (w := 5) (by decide) (by decide)⟩,
    ⟨hp (by decide), by decide, _, rfl, rfl⟩, ⟨hp (by decide), by decide⟩,
    ⟨hp (by decide), Demo.boxOk (o := 1) (w := 4) (by decide) (by decide)⟩, by simp⟩

/-- The history meets the hypotheses, and its results are these. -/
example : bResults Demo.envJ Demo.hier (fun _ => Demo.arr) Demo.boxHistory Demo.emptyFs =
    [.plain (.unit (.ok ())), .box (.ok ([5], ⟨.u16, ([0, 0, 0, 0, 0] : List (BitVec 16))⟩)), .plain (.unit (.ok ())),
     .plain (.unit (.ok ())), .box (.ok ([5], ⟨.u16, ([0, 10, 77, 12, 0] : List (BitVec 16))⟩)),
     .plain (.data (.ok (some ⟨.u16, ([0, 10] : List (BitVec 16))⟩))), .plain (.bool (.ok true)),
     .box (.ok ([4], ⟨.u16, ([0, 77, 12, 0] : List (BitVec 16))⟩))] := by
  rw [C81 Demo.envJ Demo.hier (fun _ => Demo.arr) Demo.fills Demo.boxHistory Demo.emptyFs Demo.emptyFs_wf
    jsonText_lawful (by decide) (by unfold GoodSuffix; decide) (by decide) (fun _ => .inl rfl) Demo.fresh
    Demo.boxHistory_ok]
  rfl

end Zarr
