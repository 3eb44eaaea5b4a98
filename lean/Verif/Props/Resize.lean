import Verif.Props.LayoutFree
/-!
# Arrays that grow and shrink: C110

The calls take the metadata of the array from the caller. Here every call comes with a shape of its own and
everything else in the metadata stays. -/

namespace Zarr

open Spec

/-! ## The specification -/

/-- The metadata with another shape. -/
def Spec.resized (md : List Str → ArrayMetadata) (s : List Nat) (q : List Str) : ArrayMetadata :=
  { md q with shape := s }

/-- The results of calls that are each made with their own shape. -/
def Spec.resizedResults (env : Env) (h : Hier) (md : List Str → ArrayMetadata) :
    List (List Nat × ECall) → Fs → List BResult
  | [], _ => []
  | c :: cs, fs => (c.2.call.run env h (resized md c.1) fs).1 ::
      resizedResults env h md cs (c.2.call.run env h (resized md c.1) fs).2

/-- The point lies in an array of the given shape. -/
def Spec.inShape : List Nat → List Nat → Bool
  | s :: ss, p :: ps => decide (p < s) && inShape ss ps
  | [], [] => true
  | _, _ => false

/-- A call with a shape on plain arrays of elements: a write changes the elements that are in the box and in the
shape. -/
def Spec.ECall.resizedAbs (fill : List Str → (t : RsType) → El t) (s : List Nat) : ECall → Elements → BResult × Elements
  | .write p t offset array, e => (.plain (.unit (.ok ())), fun q t' x =>
      if ht : t = t' then
        if q = segs p ∧ inBox offset array.shape x = true ∧ inShape s x = true then
          ht ▸ array.get (rel offset x)
        else e q t' x
      else e q t' x)
  | c, e => c.abs fill e

/-- The results of a history on plain arrays of elements. -/
def Spec.resizedAbsResults (fill : List Str → (t : RsType) → El t) : List (List Nat × ECall) → Elements → List BResult
  | [], _ => []
  | c :: cs, e => (c.2.resizedAbs fill c.1 e).1 :: resizedAbsResults fill cs (c.2.resizedAbs fill c.1 e).2

/-- The calls of which the specification speaks: those of C86, with the shape of the call. -/
def Spec.ResizedOk (env : Env) (h : Hier) (md : List Str → ArrayMetadata) (fill : List Str → (t : RsType) → El t)
    (c : List Nat × ECall) : Prop := c.2.Ok env h (resized md c.1) fill

/-- The chunk that covers the point begins inside the shape. -/
def Spec.inChunks (s k x : List Nat) : Bool := startsIn s k (chunkOf k x)

/-- A call with a shape as it is: a read sees, and a write changes, the elements of the box whose chunk begins
inside the shape. -/
def Spec.ECall.chunkedAbs (k : List Str → List Nat) (fill : List Str → (t : RsType) → El t) (s : List Nat) :
    ECall → Elements → BResult × Elements
  | .read p t b, e => (.box (.ok (b.shape, ⟨t, tabulate .rowMajor b.shape fun i =>
      if inChunks s (k (segs p)) (shift b.offset i) then e (segs p) t (shift b.offset i)
      else fill (segs p) t⟩)), e)
  | .write p t offset array, e => (.plain (.unit (.ok ())), fun q t' x =>
      if ht : t = t' then
        if q = segs p ∧ inBox offset array.shape x = true ∧ inChunks s (k q) x = true then
          ht ▸ array.get (rel offset x)
        else e q t' x
      else e q t' x)
  | .remove p, e => ECall.abs fill (.remove p) e

/-- The results of a history, as they are. -/
def Spec.chunkedResults (k : List Str → List Nat) (fill : List Str → (t : RsType) → El t) :
    List (List Nat × ECall) → Elements → List BResult
  | [], _ => []
  | c :: cs, e => (c.2.chunkedAbs k fill c.1 e).1 :: chunkedResults k fill cs (c.2.chunkedAbs k fill c.1 e).2

/-- No point of the box of a write lies outside the shape in a chunk that begins inside it. -/
def Spec.NoOverhang (k : List Str → List Nat) (s : List Nat) : ECall → Prop
  | .write p _ offset array => ∀ x, InBox offset array.shape x → inChunks s (k (segs p)) x = true → Inside s x
  | _ => True

/-! ## Lemmas -/

theorem inShape_iff {s x : List Nat} : inShape s x = true ↔ Inside s x := by
  induction s generalizing x with
  | nil => cases x <;> simp [inShape, Inside]
  | cons a s ih => cases x <;> simp [inShape, Inside, ih]

/-- The metadata with so many chunks that every call is inside the grid. -/
def wideMd (md : List Str → ArrayMetadata) (B : Nat) (q : List Str) : ArrayMetadata :=
  { md q with shape := (md q).chunkShape.map (· * B) }

/-- Every length is below the bound. -/
def LengthsBelow (B : Nat) (s : List Nat) : Prop := ∀ x ∈ s, x + 2 ≤ B

theorem LengthsBelow.bounded {B : Nat} {s k c : List Nat} (hk : ∀ x ∈ k, x ≠ 0) (hB : LengthsBelow B s) (h : Bounded s k c) :
    Bounded (k.map (· * B)) k c := by
  induction s generalizing k c with
  | nil => cases k <;> cases c <;> simp_all [Bounded]
  | cons a s ih =>
    cases k <;> cases c <;> simp only [Bounded] at h
    rename_i b k d c
    refine ⟨?_, ih (fun x hx => hk x (by simp [hx])) (fun x hx => hB x (by simp [hx])) h.2⟩
    have h1 := h.1
    have h2 := hB a (by simp)
    have hb := hk b (by simp)
    have h3 : codeCeil a b ≤ a + 2 := by
      unfold codeCeil
      have := Nat.div_le_self (a + 1) b
      split <;> omega
    have h4 : B ≤ codeCeil (b * B) b := by
      unfold codeCeil
      have : b * B / b ≤ (b * B + 1) / b := Nat.div_le_div_right (by omega)
      rw [Nat.mul_div_cancel_left _ (by omega)] at this
      omega
    show d < codeCeil (b * B) b
    omega

theorem LengthsBelow.inside {B : Nat} {s k x : List Nat} (hk : ∀ x ∈ k, x ≠ 0) (hl : s.length = k.length) (hB : LengthsBelow B s)
    (h : Inside s x) : Inside (k.map (· * B)) x := by
  induction s generalizing k x with
  | nil => cases k <;> cases x <;> simp_all [Inside]
  | cons a s ih =>
    cases k <;> cases x <;> simp only [Inside] at h <;> simp at hl
    rename_i b k d x
    refine ⟨?_, ih (fun x hx => hk x (by simp [hx])) hl (fun x hx => hB x (by simp [hx])) h.2⟩
    have h1 := h.1
    have h2 := hB a (by simp)
    have hb := hk b (by simp)
    have : 1 * B ≤ b * B := Nat.mul_le_mul_right B (by omega)
    show d < b * B
    omega

section
variable {env : Env} {h : Hier} {m : ArrayMetadata} {s s' : List Nat}

theorem readChunk_shape {p : Str} {t : RsType} {pos : List Nat} (h1 : ({ m with shape := s } : ArrayMetadata).inBounds pos = .ok true)
    (h2 : ({ m with shape := s' } : ArrayMetadata).inBounds pos = .ok true) :
    readChunk env h p { m with shape := s } t pos = readChunk env h p { m with shape := s' } t pos := by
  unfold readChunk assertInBounds
  rw [h1, h2]
  rfl

theorem readChunkInto_shape {p : Str} {t : RsType} {pos : List Nat} {buf : DataChunk t}
    (h1 : ({ m with shape := s } : ArrayMetadata).inBounds pos = .ok true)
    (h2 : ({ m with shape := s' } : ArrayMetadata).inBounds pos = .ok true) :
    readChunkInto env h p { m with shape := s } t pos buf = readChunkInto env h p { m with shape := s' } t pos buf := by
  unfold readChunkInto assertInBounds
  rw [h1, h2]
  rfl

theorem writeLoop_shape {p : Str} {t : RsType} {bbox : BBox} {fill : El t} {array : NdArr (El t)}
    (coords : List (List Nat)) (existing : List (El t))
    (h1 : ∀ c ∈ coords, ({ m with shape := s } : ArrayMetadata).inBounds c = .ok true)
    (h2 : ∀ c ∈ coords, ({ m with shape := s' } : ArrayMetadata).inBounds c = .ok true) :
    writeLoop env h p { m with shape := s } bbox fill array coords existing
      = writeLoop env h p { m with shape := s' } bbox fill array coords existing := by
  induction coords generalizing existing with
  | nil => rfl
  | cons c cs ih =>
    have hc : writeCoord env h p { m with shape := s } bbox fill array c existing
        = writeCoord env h p { m with shape := s' } bbox fill array c existing := by
      unfold writeCoord writePartial
      simp only [readChunkInto_shape (h1 c (by simp)) (h2 c (by simp))]
      rfl
    simp only [writeLoop, hc]
    congr 1
    funext e
    exact ih e (fun c hc => h1 c (by simp [hc])) (fun c hc => h2 c (by simp [hc]))

end

section
variable {env : Env} {h : Hier} {md : List Str → ArrayMetadata} {fill : List Str → (t : RsType) → El t}
  {B : Nat} {a : AbsHier} {fs : Fs}

/-- The metadata with the shape of the call at one path. -/
def oneMd (md : List Str → ArrayMetadata) (B : Nat) (s : List Nat) (p : List Str) (q : List Str) : ArrayMetadata :=
  if q = p then resized md s q else wideMd md B q

theorem Holds.narrow {s : List Nat} {p : List Str} (hh : Holds env h (wideMd md B) a fs) (hB : LengthsBelow B s)
    (hl : s.length = (md p).chunkShape.length) (hk : ∀ k ∈ (md p).chunkShape, k ≠ 0) :
    Holds env h (oneMd md B s p) a fs := by
  have key : ∀ q pos, (oneMd md B s p q).inBounds pos = .ok true →
      (wideMd md B q).inBounds pos = .ok true := by
    intro q pos hin
    unfold oneMd at hin
    split at hin
    · rename_i e
      subst e
      rw [inBounds_iff (m := resized md s q) hl hk] at hin
      rw [inBounds_iff (m := wideMd md B q) (by simp [wideMd]) hk]
      exact hB.bounded hk hin
    · exact hin
  refine ⟨hh.wf, ?_, hh.docs, ?_⟩
  · intro l hl'
    apply hh.clear
    cases hl' with
    | array p' hp => exact .array p' hp
    | group p' hp => exact .group p' hp
    | chunk p' pos hp hlen =>
      by_cases e : segs p' = p
      · have h1 : chunkKey p' (oneMd md B s p (segs p')) pos = chunkKey p' (wideMd md B (segs p')) pos := by
          unfold oneMd; rw [if_pos e]; rfl
        rw [h1]
        refine .chunk p' pos hp ?_
        rw [hlen]
        unfold oneMd
        rw [if_pos e]
        simp [resized, wideMd, hl, e]
      · unfold oneMd at hlen ⊢
        rw [if_neg e] at hlen ⊢
        exact .chunk p' pos hp hlen
  · intro p' t pos hp hc
    have hc' : ChunkCallOk (wideMd md B (segs p')) t pos := by
      refine ⟨key _ _ hc.bounds, ?_⟩
      have := hc.type
      unfold oneMd at this
      split at this <;> exact this
    rw [← hh.data p' t pos hp hc']
    unfold oneMd
    by_cases e : segs p' = p
    · rw [if_pos e]
      unfold observe
      have hb := hc.bounds
      unfold oneMd at hb
      rw [if_pos e] at hb
      rw [show readChunk env h p' (resized md s (segs p')) t pos = readChunk env h p' (wideMd md B (segs p')) t pos from
        readChunk_shape hb hc'.bounds]
    · rw [if_neg e]

/-- The chunks of the abstract hierarchy show these elements, inside and outside any shape. -/
def ShowsAll (md : List Str → ArrayMetadata)
    (fill : List Str → (t : RsType) → El t) (a : AbsHier) (e : Elements) : Prop :=
  ∀ q t, (∃ d, effective (md q).dataType = some d ∧ kindOf d = kindOfRs t) →
    ∀ x, x.length = (md q).chunkShape.length → a.elem (md q) t (fill q t) q x = e q t x

theorem resized_step (hb : Plain (segs h.base)) (hsfx : GoodSuffix h.entry)
    (hs : ∀ q, GoodSep (md q).separator) {s : List Nat} {c : ECall} {e : Elements}
    (hh : Holds env h (wideMd md B) a fs) (hB : LengthsBelow B s) (hsh : ShowsAll md fill a e)
    (hok : c.call.Ok env h (resized md s) fill) :
    (c.call.run env h (resized md s) fs).1 = (c.chunkedAbs (fun q => (md q).chunkShape) fill s e).1 ∧
    ∃ a', Holds env h (wideMd md B) a' (c.call.run env h (resized md s) fs).2 ∧
      ShowsAll md fill a' (c.chunkedAbs (fun q => (md q).chunkShape) fill s e).2 := by
  cases c with
  | read p t b =>
    have ok := hok.2
    have hone : oneMd md B s (segs p) (segs p) = resized md s (segs p) := by unfold oneMd; rw [if_pos rfl]
    have hn := hh.narrow hB ok.dims ok.pos
    obtain ⟨h1, h2⟩ := step_readBox (p := p) (t := t) (b := b) (fill := fill) hn
      ⟨hok.1, by rw [hone]; exact ok⟩
    simp only [BCall.run, hone, BCall.abs] at h1
    have hfs : (readNdarray env h p (resized md s (segs p)) t b fs).2 = fs := by
      obtain ⟨arr, hr⟩ := C68_read env h p (resized md s (segs p)) t b fs ok.dims ok.pos ok.small ok.offset ok.shape
        ok.meets ⟨_, ok.fill⟩ (fun pos hov => by
          obtain ⟨y, y1, _, y3⟩ := hov
          obtain ⟨x, hx, _⟩ := hn.look (t := t) (pos := pos) hok.1 (by
            rw [hone]
            exact ⟨ok.inBounds ((starts_iff ok.dims ok.pos).mp ⟨y, y1, y3⟩), ok.type⟩)
          rw [hone] at hx
          exact ⟨x, hx⟩)
      rw [hr]
    refine ⟨?_, a, ?_, hsh⟩
    · simp only [ECall.call, BCall.run, ECall.chunkedAbs, h1]
      congr 4
      apply tabulate_congr
      intro i hi
      have hx : (shift b.offset i).length = (md (segs p)).chunkShape.length := by
        have := Inside.length hi
        rw [shift_len (by rw [this, ok.offset, ok.shape]), this, ok.shape]
        exact ok.dims
      rw [← hsh _ _ ok.type _ hx]
      rfl
    · simp only [ECall.call, BCall.run, hfs]
      exact hh
  | write p t offset array =>
    obtain ⟨hp, ok, hlaw, htot⟩ := hok
    obtain ⟨it, xs, hit, hy, hsorted, _, hmem⟩ := C16_partial (resized md s (segs p)) ⟨offset, array.shape⟩ ok.dims
      ok.pos ok.some ok.offset ok.shape
    rw [yields_iff] at hy
    subst hy
    have hmem := hmem ok.meets
    have hnd : it.rest.Nodup := by
      exact hsorted.imp fun hlt he => by subst he; exact absurd hlt (List.lt_irrefl _)
    have hdim : s.length = (md (segs p)).chunkShape.length := ok.dims
    have hpos : ∀ k ∈ (md (segs p)).chunkShape, k ≠ 0 := ok.pos
    have okw : BoxOk env (wideMd md B (segs p)) t (fill (segs p) t) ⟨offset, array.shape⟩ := by
      obtain ⟨y, y1, y2⟩ := ok.meets
      exact {
        type := ok.type
        fill := ok.fill
        dims := by simp [wideMd]
        some := by
          intro hc
          have h0 : (md (segs p)).chunkShape.length = 0 := by
            have := congrArg List.length hc
            simpa [wideMd] using this
          exact ok.some (List.length_eq_zero_iff.mp (hdim.trans h0))
        pos := ok.pos
        small := ok.small
        offset := by simp only [wideMd, List.length_map]; rw [← hdim]; exact ok.offset
        shape := by simp only [wideMd, List.length_map]; rw [← hdim]; exact ok.shape
        meets := ⟨y, hB.inside hpos hdim y1, y2⟩ }
    obtain ⟨fs', w, hh'⟩ := step_loop hb (md := wideMd md B) hs hp okw hlaw htot it.rest [] a fs hh hnd
      (fun c hc => by
        obtain ⟨y, y1, y2, y3⟩ := (hmem c).mp hc
        exact ⟨y, hB.inside hpos hdim y1, y2, y3⟩)
    have hin1 : ∀ c ∈ it.rest, (resized md s (segs p)).inBounds c = .ok true := by
      intro c hc
      obtain ⟨y, y1, y2, y3⟩ := (hmem c).mp hc
      exact (C13_partial _ c ok.dims ok.pos).1 ⟨y, y1, y3⟩
    have hin2 : ∀ c ∈ it.rest, (wideMd md B (segs p)).inBounds c = .ok true := by
      intro c hc
      obtain ⟨y, y1, y2, y3⟩ := (hmem c).mp hc
      exact (C13_partial _ c okw.dims okw.pos).1 ⟨y, hB.inside hpos hdim y1, y3⟩
    have hw : writeNdarray env h p (resized md s (segs p)) offset array fs = (.ok (), fs') := by
      unfold writeNdarray
      rw [if_neg (by have := ok.shape; simpa using this)]
      simp only [M.bind_apply, M.lift_apply, ok.fill, hit]
      rw [← w]
      exact congrFun (writeLoop_shape it.rest [] hin1 hin2) fs
    refine ⟨?_, ⟨a.node, fun q pos => if q = segs p ∧ pos ∈ it.rest then
        some ⟨t, boxChunk a (wideMd md B (segs p)) (fill (segs p) t) (segs p) offset array pos⟩
      else a.chunk q pos⟩, ?_, ?_⟩
    · simp only [ECall.call, BCall.run, hw, ECall.chunkedAbs]
    · simp only [ECall.call, BCall.run, hw]
      exact hh'
    · intro q t' ht' x hx
      simp only [ECall.chunkedAbs]
      have hold := hsh q t' ht' x hx
      by_cases hq : q = segs p
      · subst hq
        obtain ⟨d, hd, hk⟩ := ok.type
        obtain ⟨d', hd', hk'⟩ := ht'
        rw [show effective (md (segs p)).dataType = some d from hd] at hd'
        simp only [Option.some.injEq] at hd'
        subst hd'
        have htt : t = t' := kindOfRs_inj (hk.symm.trans hk')
        subst htt
        rw [dif_pos rfl]
        simp only [true_and]
        unfold AbsHier.elem
        simp only [true_and]
        have hcv : Covers (md (segs p)).chunkShape (chunkOf (md (segs p)).chunkShape x) x :=
          (covers_iff hpos).mpr ⟨hx, rfl⟩
        by_cases hm : chunkOf (md (segs p)).chunkShape x ∈ it.rest
        · rw [if_pos hm]
          have hst : inChunks s (md (segs p)).chunkShape x = true := by
            obtain ⟨y, y1, y2, y3⟩ := (hmem _).mp hm
            exact startsIn_iff.mpr ((starts_iff hdim hpos).mp ⟨y, y1, y3⟩)
          simp only [Option.bind_some, elemAt_same, boxChunk]
          rw [show (wideMd md B (segs p)).order = (md (segs p)).order from rfl,
            show (wideMd md B (segs p)).chunkShape = (md (segs p)).chunkShape from rfl,
            tabulate_getElem (within_inside hpos hx), corner_eq, shift_within hx]
          simp only [Option.getD_some, hst, and_true]
          by_cases hbx : inBox offset array.shape x = true
          · rw [if_pos hbx, if_pos hbx]
          · rw [if_neg hbx, if_neg hbx]
            exact hold
        · rw [if_neg hm, if_neg]
          · exact hold
          · rintro ⟨hbx, hst⟩
            apply hm
            rw [hmem]
            obtain ⟨y, y1, y2, y3⟩ := overlap_of_touches hpos ok.meets
              (touches_of_starts hpos ok.meets (inBox_iff.mp hbx) (startsIn_iff.mp hst))
            exact ⟨y, y1, y2, y3⟩
      · have h1 : (if ht : t = t' then
            if q = segs p ∧ inBox offset array.shape x = true ∧ inChunks s (md q).chunkShape x = true then
              ht ▸ array.get (rel offset x)
            else e q t' x
          else e q t' x) = e q t' x := by
          split
          · rw [if_neg (fun hh => hq hh.1)]
          · rfl
        rw [h1, ← hold]
        unfold AbsHier.elem
        simp only [hq, false_and, if_false]
  | remove p =>
    obtain ⟨h1, h2⟩ := step_remove hb hsfx (md := wideMd md B) hs hh p hok
    refine ⟨?_, _, h2, ?_⟩
    · exact congrArg BResult.plain h1
    · intro q t ht x hx
      have hold := hsh q t ht x hx
      simp only [ECall.chunkedAbs, ECall.abs, HCall.abs]
      by_cases hq : segs p <+: q
      · rw [if_pos hq]
        unfold AbsHier.elem
        simp only [if_pos hq]
        rfl
      · rw [if_neg hq, ← hold]
        unfold AbsHier.elem
        simp only [if_neg hq]

theorem resized_results (hb : Plain (segs h.base)) (hsfx : GoodSuffix h.entry)
    (hs : ∀ q, GoodSep (md q).separator) (calls : List (List Nat × ECall)) {e : Elements}
    (hh : Holds env h (wideMd md B) a fs) (hB : ∀ c ∈ calls, LengthsBelow B c.1) (hsh : ShowsAll md fill a e)
    (hok : ∀ c ∈ calls, c.2.call.Ok env h (resized md c.1) fill) :
    resizedResults env h md calls fs = chunkedResults (fun q => (md q).chunkShape) fill calls e := by
  induction calls generalizing a fs e with
  | nil => rfl
  | cons c cs ih =>
    obtain ⟨h1, a', h2, h3⟩ := resized_step hb hsfx hs hh (hB c (by simp)) hsh (hok c (by simp))
    rw [resizedResults, chunkedResults, h1, ih h2 (fun c hc => hB c (by simp [hc])) h3 fun c hc => hok c (by simp [hc])]

theorem chunked_eq {k : List Str → List Nat} (calls : List (List Nat × ECall)) {e : Elements}
    (hk : ∀ q, k q = (md q).chunkShape)
    (hok : ∀ c ∈ calls, ResizedOk env h md fill c) (hno : ∀ c ∈ calls, NoOverhang k c.1 c.2) :
    chunkedResults k fill calls e = resizedAbsResults fill calls e := by
  induction calls generalizing e with
  | nil => rfl
  | cons c cs ih =>
    have hstep : c.2.chunkedAbs k fill c.1 e = c.2.resizedAbs fill c.1 e := by
      obtain ⟨s, c⟩ := c
      have hc := hok (s, c) (by simp)
      have hn := hno (s, c) (by simp)
      have hin : ∀ p t b, BoxOk env (resized md s (segs p)) t (fill (segs p) t) b → ∀ x, Inside s x →
          inChunks s (k (segs p)) x = true := by
        intro p t b ok x hx
        rw [hk]
        have hd : s.length = (md (segs p)).chunkShape.length := ok.dims
        have hp : ∀ k ∈ (md (segs p)).chunkShape, k ≠ 0 := ok.pos
        refine startsIn_iff.mpr ((starts_iff hd hp).mp ⟨x, hx, (covers_iff hp).mpr ⟨?_, rfl⟩⟩)
        rw [Inside.length hx, hd]
      cases c with
      | read p t b =>
        obtain ⟨⟨_, ok⟩, hb⟩ := hc
        simp only [ECall.chunkedAbs, ECall.resizedAbs, ECall.abs]
        congr 5
        apply tabulate_congr
        intro i hi
        rw [if_pos (hin p t b ok _ (hb i hi))]
      | write p t offset array =>
        obtain ⟨⟨_, ok, _⟩, _⟩ := hc
        simp only [ECall.chunkedAbs, ECall.resizedAbs]
        congr 1
        funext q t' x
        have : (q = segs p ∧ inBox offset array.shape x = true ∧ inChunks s (k q) x = true)
            = (q = segs p ∧ inBox offset array.shape x = true ∧ inShape s x = true) := by
          apply propext
          constructor
          · rintro ⟨rfl, h2, h3⟩
            exact ⟨rfl, h2, inShape_iff.mpr (hn x (inBox_iff.mp h2) h3)⟩
          · rintro ⟨rfl, h2, h3⟩
            exact ⟨rfl, h2, hin p t _ ok x (inShape_iff.mp h3)⟩
        simp only [this]
      | remove p => rfl
    rw [chunkedResults, resizedAbsResults, hstep, ih (fun c hc => hok c (by simp [hc])) fun c hc => hno c (by simp [hc])]

end

theorem below_exists (calls : List (List Nat × ECall)) : ∃ B, ∀ c ∈ calls, LengthsBelow B c.1 := by
  have one : ∀ s : List Nat, ∃ B, LengthsBelow B s := by
    intro s
    induction s with
    | nil => exact ⟨0, fun x hx => by simp at hx⟩
    | cons a s ih =>
      obtain ⟨B, hB⟩ := ih
      refine ⟨B + a + 2, fun x hx => ?_⟩
      rcases List.mem_cons.mp hx with rfl | hx
      · omega
      · have := hB x hx; omega
  induction calls with
  | nil => exact ⟨0, fun c hc => by simp at hc⟩
  | cons c cs ih =>
    obtain ⟨B, hB⟩ := ih
    obtain ⟨B', hB'⟩ := one c.1
    refine ⟨B + B', fun d hd x hx => ?_⟩
    rcases List.mem_cons.mp hd with rfl | hd
    · have := hB' x hx; omega
    · have := hB d hd x hx; omega

/-! ## The theorems -/

/-- **C110, exact.** In a directory without a hierarchy, calls that each come with their own shape give the results
that they give on plain unbounded arrays of elements where a read sees, and a write changes, the elements of the box
whose chunk begins inside the shape of the call. -/
theorem C110_exact (env : Env) (h : Hier) (md : List Str → ArrayMetadata)
    (fill : List Str → (t : RsType) → El t) (calls : List (List Nat × ECall)) (fs : Fs) (hwf : fs.WF)
    (hb : Plain (segs h.base)) (hsfx : GoodSuffix h.entry) (hs : ∀ q, GoodSep (md q).separator)
    (hf : FreshDir h fs) (hok : ∀ c ∈ calls, c.2.call.Ok env h (resized md c.1) fill) :
    resizedResults env h md calls fs
      = chunkedResults (fun q => (md q).chunkShape) fill calls (fun q t _ => fill q t) := by
  obtain ⟨B, hB⟩ := below_exists calls
  exact resized_results hb hsfx hs calls (.fresh (md := wideMd md B) hb hs hwf hf) hB (fun _ _ _ _ _ => rfl) hok

/-- **C110, as far as it holds.** Calls that each come with their own shape give the results that they give on plain
unbounded arrays of elements where a write changes the elements in the box and in the shape: growing an array shows the
fill value or what was written there before, shrinking and growing it loses nothing. Missing: writes of boxes with
points outside the shape in chunks that begin inside it (see `C110_violated`). -/
theorem C110_partial (env : Env) (h : Hier) (md : List Str → ArrayMetadata)
    (fill : List Str → (t : RsType) → El t) (calls : List (List Nat × ECall)) (fs : Fs) (hwf : fs.WF)
    (hb : Plain (segs h.base)) (hsfx : GoodSuffix h.entry) (hs : ∀ q, GoodSep (md q).separator)
    (hf : FreshDir h fs) (hok : ∀ c ∈ calls, ResizedOk env h md fill c)
    (hno : ∀ c ∈ calls, NoOverhang (fun q => (md q).chunkShape) c.1 c.2) :
    resizedResults env h md calls fs = resizedAbsResults fill calls (fun q t _ => fill q t) := by
  rw [C110_exact env h md fill calls fs hwf hb hsfx hs hf fun c hc => (hok c hc).1]
  exact chunked_eq calls (fun _ => rfl) hok hno

/-! ## Concrete cases -/

/-- Write with five elements, read with eight, write with three, read with eight again. -/
def Demo.resizeHistory : List (List Nat × ECall) :=
  [([5], .write Demo.path .u16 [1] ⟨[4], fun i => BitVec.ofNat 16 (10 + i.headD 0)⟩),
   ([8], .read Demo.path .u16 ⟨[0], [8]⟩),
   ([3], .write Demo.path .u16 [2] ⟨[1], fun _ => (77 : BitVec 16)⟩),
   ([8], .read Demo.path .u16 ⟨[0], [8]⟩)]

/-- Write two elements of which the second lies outside, then grow the array by one. -/
def Demo.overhangHistory : List (List Nat × ECall) :=
  [([5], .write Demo.path .u16 [4] ⟨[2], fun i => BitVec.ofNat 16 (10 + i.headD 0)⟩),
   ([6], .read Demo.path .u16 ⟨[4], [2]⟩)]

theorem Demo.boxOkAt {s o w : Nat} (hw : 0 < w) (ho : o < s) :
    BoxOk Demo.envJ (resized (fun _ => Demo.arr) [s] (segs Demo.path)) .u16 (El.default .u16) ⟨[o], [w]⟩ where
  type := ⟨_, rfl, rfl⟩
  fill := (Demo.boxOk (o := 0) (w := 1) (by decide) (by decide)).fill
  dims := rfl
  some := by simp [resized]
  pos := (Demo.boxOk (o := 0) (w := 1) (by decide) (by decide)).pos
  small := (Demo.boxOk (o := 0) (w := 1) (by decide) (by decide)).small
  offset := rfl
  shape := rfl
  meets := ⟨[o], ⟨ho, trivial⟩, ⟨⟨Nat.le_refl _, by omega⟩, trivial⟩⟩

theorem Demo.insideAt {s o w : Nat} (h : o + w ≤ s) : ∀ i, Inside [w] i → Inside [s] (shift [o] i) := by
  intro i hi
  match i, hi with
  | [x], hi => simp [Inside, shift] at hi ⊢; omega

theorem Demo.resizeHistory_ok : ∀ c ∈ Demo.resizeHistory, ResizedOk Demo.envJ Demo.hier (fun _ => Demo.arr) Demo.fills c := by
  have hp : OrdinaryPath Demo.hier Demo.path := Demo.ordinaryPath (by decide)
  simp only [Demo.resizeHistory, List.forall_mem_cons, ResizedOk, ECall.Ok, ECall.call, BCall.Ok]
  exact ⟨⟨⟨hp, Demo.boxOkAt (by decide) (by decide), rawCodec_lawful, fun _ => rfl⟩, trivial⟩,
    ⟨⟨hp, Demo.boxOkAt (by decide) (by decide)⟩, Demo.insideAt (by decide)⟩,
    ⟨⟨hp, Demo.boxOkAt (by decide) (by decide), rawCodec_lawful, fun _ => rfl⟩, trivial⟩,
    ⟨⟨hp, Demo.boxOkAt (by decide) (by decide)⟩, Demo.insideAt (by decide)⟩, by simp⟩

theorem Demo.overhangHistory_ok :
    ∀ c ∈ Demo.overhangHistory, ResizedOk Demo.envJ Demo.hier (fun _ => Demo.arr) Demo.fills c := by
  have hp : OrdinaryPath Demo.hier Demo.path := Demo.ordinaryPath (by decide)
  simp only [Demo.overhangHistory, List.forall_mem_cons, ResizedOk, ECall.Ok, ECall.call, BCall.Ok]
  exact ⟨⟨⟨hp, Demo.boxOkAt (by decide) (by decide), rawCodec_lawful, fun _ => rfl⟩, trivial⟩,
    ⟨⟨hp, Demo.boxOkAt (by decide) (by decide)⟩, Demo.insideAt (by decide)⟩, by simp⟩

/-- The history meets the hypotheses of `C110_partial`; growing shows the fill value, and shrinking loses nothing. -/
example : resizedResults Demo.envJ Demo.hier (fun _ => Demo.arr) Demo.resizeHistory Demo.emptyFs
      = [.plain (.unit (.ok ())), .box (.ok ([8], ⟨.u16, ([0, 10, 11, 12, 13, 0, 0, 0] : List (BitVec 16))⟩)),
         .plain (.unit (.ok ())), .box (.ok ([8], ⟨.u16, ([0, 10, 77, 12, 13, 0, 0, 0] : List (BitVec 16))⟩))] := by
  rw [C110_partial Demo.envJ Demo.hier (fun _ => Demo.arr) Demo.fills Demo.resizeHistory Demo.emptyFs
    Demo.emptyFs_wf (by decide) (by unfold GoodSuffix; decide) (fun _ => .inl rfl) Demo.fresh
    Demo.resizeHistory_ok (by
      simp only [Demo.resizeHistory, List.forall_mem_cons, NoOverhang]
      refine ⟨?_, trivial, ?_, trivial, by simp⟩ <;>
      · intro x hx _
        match x, hx with
        | [y], hx => simp [InBox, Inside] at hx ⊢; omega)]
  rfl

/-- **C110 does not hold.** An element outside the array that a box write was given is stored with the last chunk and
shows once the array grows, where the element was not part of the array when it was written. -/
theorem C110_violated :
    (∀ c ∈ Demo.overhangHistory, ResizedOk Demo.envJ Demo.hier (fun _ => Demo.arr) Demo.fills c) ∧
    resizedResults Demo.envJ Demo.hier (fun _ => Demo.arr) Demo.overhangHistory Demo.emptyFs
      = [.plain (.unit (.ok ())), .box (.ok ([2], ⟨.u16, ([10, 11] : List (BitVec 16))⟩))] ∧
    resizedAbsResults Demo.fills Demo.overhangHistory (fun q t _ => Demo.fills q t)
      = [.plain (.unit (.ok ())), .box (.ok ([2], ⟨.u16, ([10, 0] : List (BitVec 16))⟩))] := by
  refine ⟨Demo.overhangHistory_ok, ?_, rfl⟩
  rw [C110_exact Demo.envJ Demo.hier (fun _ => Demo.arr) Demo.fills Demo.overhangHistory Demo.emptyFs
    Demo.emptyFs_wf (by decide) (by unfold GoodSuffix; decide) (fun _ => .inl rfl) Demo.fresh
    fun c hc => (Demo.overhangHistory_ok c hc).1]
  rfl

/-- **C110 never holds for such writes.** Whenever a box write is given, for a point outside the array that shares a chunk
with a point of the array, an element other than the fill value, and a later read of a grown array asks for that point:
the element shows, where the claim says that the fill value does. -/
theorem C110_violated_always (env : Env) (h : Hier) (md : List Str → ArrayMetadata)
    (fill : List Str → (t : RsType) → El t) (fs : Fs) (hwf : fs.WF)
    (hb : Plain (segs h.base)) (hsfx : GoodSuffix h.entry) (hs : ∀ q, GoodSep (md q).separator)
    (hf : FreshDir h fs) {s s' offset x y g : List Nat} {p : Str} {t : RsType} {array : NdArr (El t)} {b : BBox}
    (hok : ∀ c ∈ [(s, ECall.write p t offset array), (s', ECall.read p t b)], ResizedOk env h md fill c)
    (hx : InBox offset array.shape x) (hout : ¬ Inside s x) (hy : Inside s y)
    (hgx : Covers (md (segs p)).chunkShape g x) (hgy : Covers (md (segs p)).chunkShape g y)
    (hxb : InBox b.offset b.shape x) (hv : array.get (rel offset x) ≠ fill (segs p) t) :
    ∃ r c : List (El t),
      resizedResults env h md [(s, .write p t offset array), (s', .read p t b)] fs
        = [.plain (.unit (.ok ())), .box (.ok (b.shape, ⟨t, r⟩))] ∧
      resizedAbsResults fill [(s, .write p t offset array), (s', .read p t b)] (fun q t _ => fill q t)
        = [.plain (.unit (.ok ())), .box (.ok (b.shape, ⟨t, c⟩))] ∧
      r[linear .rowMajor b.shape (rel b.offset x)]? = some (array.get (rel offset x)) ∧
      c[linear .rowMajor b.shape (rel b.offset x)]? = some (fill (segs p) t) ∧ r ≠ c := by
  obtain ⟨⟨⟨_, okw, _⟩, _⟩, ⟨⟨_, okr⟩, hbin⟩, _⟩ := by
    simpa only [List.forall_mem_cons, ResizedOk, ECall.Ok, ECall.call, BCall.Ok] using hok
  have hd : s.length = (md (segs p)).chunkShape.length := okw.dims
  have hd' : s'.length = (md (segs p)).chunkShape.length := okr.dims
  have hp : ∀ k ∈ (md (segs p)).chunkShape, k ≠ 0 := okw.pos
  have hin : inChunks s (md (segs p)).chunkShape x = true := by
    refine startsIn_iff.mpr ((starts_iff hd hp).mp ⟨y, hy, ?_⟩)
    rw [((covers_iff hp).mp hgx).2]
    exact hgy
  have hi := rel_inside hxb
  have hx' : Inside s' x := by
    have := hbin _ hi
    rwa [shift_rel hxb] at this
  have hin' : inChunks s' (md (segs p)).chunkShape x = true := by
    refine startsIn_iff.mpr ((starts_iff hd' hp).mp ⟨x, hx', ?_⟩)
    rw [((covers_iff hp).mp hgx).2]
    exact hgx
  have hno : inShape s x = false := by
    cases he : inShape s x with
    | false => rfl
    | true => exact absurd (inShape_iff.mp he) hout
  rw [C110_exact env h md fill _ fs hwf hb hsfx hs hf fun c hc => (hok c hc).1]
  suffices hsuf : ∀ r c : List (El t), r[linear .rowMajor b.shape (rel b.offset x)]? = some (array.get (rel offset x)) →
      c[linear .rowMajor b.shape (rel b.offset x)]? = some (fill (segs p) t) → r ≠ c by
    refine ⟨_, _, rfl, rfl, ?h1, ?h2, hsuf _ _ ?h1 ?h2⟩
    · rw [tabulate_getElem hi, shift_rel hxb]
      simp [ECall.chunkedAbs, hin, hin', inBox_iff.mpr hx]
    · rw [tabulate_getElem hi, shift_rel hxb]
      simp [ECall.resizedAbs, hno]
  rintro r c h1 h2 rfl
  rw [h1] at h2
  exact hv (Option.some.inj h2)

/-- The hypotheses hold for the history above. -/
example : ∃ r c : List (El .u16),
    resizedResults Demo.envJ Demo.hier (fun _ => Demo.arr) Demo.overhangHistory Demo.emptyFs
      = [.plain (.unit (.ok ())), .box (.ok ([2], ⟨.u16, r⟩))] ∧
    resizedAbsResults Demo.fills Demo.overhangHistory (fun q t _ => Demo.fills q t)
      = [.plain (.unit (.ok ())), .box (.ok ([2], ⟨.u16, c⟩))] ∧ r[1]? = some (11 : BitVec 16) ∧ r ≠ c := by
  obtain ⟨r, c, h1, h2, h3, _, h5⟩ := C110_violated_always Demo.envJ Demo.hier (fun _ => Demo.arr) Demo.fills Demo.emptyFs
    Demo.emptyFs_wf (by decide) (by unfold GoodSuffix; decide) (fun _ => .inl rfl) Demo.fresh
    (x := [5]) (y := [4]) (g := [2]) Demo.overhangHistory_ok (by simp [InBox]) (by simp [Inside]) (by simp [Inside])
    (by simp [Covers, Demo.arr]) (by simp [Covers, Demo.arr]) (by simp [InBox]) (by decide)
  exact ⟨r, c, h1, h2, h3, h5⟩

end Zarr
