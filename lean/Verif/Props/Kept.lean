import Verif.Model.Kept
import Verif.Props.NdRead
/-!
# What a box read that stops leaves in the caller's array (C115)
-/

namespace Zarr

open Spec

namespace Spec

/-- What the store holds for the element at index `i` of a box: the element's chunk is stored and
readable and holds `v` there. `read p` is what reading the chunk at position `p` returns. -/
def StoredElem {t : RsType} (m : ArrayMetadata) (offset : List Nat)
    (read : List Nat → Outcome (Option (DataChunk t))) (i : List Nat) (v : El t) : Prop :=
  ∃ c, read (chunkOf m.chunkShape (shift offset i)) = .ok (some c) ∧
    c.data[linear m.order m.chunkShape (within m.chunkShape (shift offset i))]? = some v

end Spec

section

variable {env : Env} {h : Hier} {path : Str} {m : ArrayMetadata} {t : RsType} {bbox : BBox} {fs : Fs}

theorem readLoopKept_cons (pos : List Nat) (rest : List (List Nat)) (arr : NdArr (El t))
    (buf : Option (DataChunk t)) :
    readLoopKept env h path m t bbox fs (pos :: rest) arr buf =
      match look env h path m t fs pos with
      | .ok none => readLoopKept env h path m t bbox fs rest arr buf
      | .ok (some c) =>
        match copyChunk m bbox c arr with
        | .ok arr' => readLoopKept env h path m t bbox fs rest arr' (some c)
        | .err e => (.err e, arr)
        | .panic => (.panic, arr)
      | .err e => (.err e, arr)
      | .panic => (.panic, arr) := by
  rw [readLoopKept, readCoord_eq]
  cases look env h path m t fs pos with
  | ok r => cases r <;> rfl
  | err e => rfl
  | panic => rfl

theorem readLoopKept_agrees (coords : List (List Nat)) (arr : NdArr (El t))
    (buf : Option (DataChunk t)) :
    ((readLoop env h path m t bbox coords arr buf fs).1 >>= fun r => .ok r.1)
      = ((readLoopKept env h path m t bbox fs coords arr buf).1 >>= fun _ =>
          .ok (readLoopKept env h path m t bbox fs coords arr buf).2) := by
  induction coords generalizing arr buf with
  | nil => rfl
  | cons pos rest ih =>
    rw [readLoop_cons, readLoopKept_cons]
    cases look env h path m t fs pos with
    | ok r =>
      cases r with
      | none => exact ih arr buf
      | some c =>
        simp only
        cases copyChunk m bbox c arr with
        | ok a => exact ih a _
        | err e => rfl
        | panic => rfl
    | err e => rfl
    | panic => rfl

/-- Never an error (a panic, perhaps). -/
def NoErr {α : Type} (o : Outcome α) : Prop := ∀ e, o ≠ .err e

theorem NoErr.bind {α β : Type} {o : Outcome α} {f : α → Outcome β} (ho : NoErr o)
    (hf : ∀ a, NoErr (f a)) : NoErr (o >>= f) := by
  cases o with
  | ok a => exact hf a
  | err e => exact absurd rfl (ho e)
  | panic => exact fun e => by simp

theorem NoErr.zip {f : Nat → Nat → Outcome Nat} (hf : ∀ a b, NoErr (f a b)) :
    ∀ as bs, NoErr (zipOutcome f as bs)
  | [], _ => fun e => by simp [zipOutcome]
  | _ :: _, [] => fun e => by simp [zipOutcome]
  | a :: as, b :: bs =>
    (hf a b).bind fun _ => (NoErr.zip hf as bs).bind fun _ e => by simp

theorem NoErr.sub (b : BBox) (o : List Nat) : NoErr (b.sub o) :=
  (NoErr.zip (fun a b e => by unfold checkedSub; split <;> simp) _ _).bind fun _ e => by simp

theorem NoErr.intersect (a b : BBox) : NoErr (a.intersect b) := fun e => by
  unfold BBox.intersect; split <;> simp

theorem copyChunk_ne_err {c : DataChunk t} {arr : NdArr (El t)} {e : ErrKind} :
    copyChunk m bbox c arr ≠ .err e := by
  refine (NoErr.intersect _ _).bind (fun rb => ?_) e
  split
  · exact fun e => by simp
  · refine (NoErr.sub _ _).bind fun b1 => (NoErr.sub _ _).bind fun b2 => NoErr.bind ?_ fun d =>
      NoErr.bind ?_ fun v => ?_
    · intro e; unfold asNdarray; split <;> simp
    · intro e; unfold NdArr.slice; split <;> simp
    · intro e; unfold NdArr.sliceAssign; split <;> simp

theorem bounded_ne_err {e : ErrKind} : m.boundedCoordIter bbox ≠ .err e := by
  refine (NoErr.intersect _ _).bind (fun rb => ?_) e
  refine (NoErr.zip ?_ _ _).bind fun _ => (NoErr.zip ?_ _ _).bind fun _ e => by simp
  · intro a b e; unfold floorDiv; split <;> simp
  · intro a b e; unfold ceilDiv; split <;> simp

/-- A loop that ends early is a loop over the positions before the one it stopped at. -/
theorem readLoopKept_take (coords : List (List Nat)) (arr : NdArr (El t))
    (buf : Option (DataChunk t)) :
    ∃ n b, (readLoop env h path m t bbox (coords.take n) arr buf fs).1
        = .ok ((readLoopKept env h path m t bbox fs coords arr buf).2, b) ∧
      (((readLoopKept env h path m t bbox fs coords arr buf).1 = .ok () ∧ coords.length ≤ n) ∨
       ∃ stop, coords[n]? = some stop ∧
        ((∃ e, (readLoopKept env h path m t bbox fs coords arr buf).1 = .err e ∧
            look env h path m t fs stop = .err e) ∨
         (readLoopKept env h path m t bbox fs coords arr buf).1 = .panic)) := by
  induction coords generalizing arr buf with
  | nil => exact ⟨0, buf, rfl, .inl ⟨rfl, by simp⟩⟩
  | cons pos rest ih =>
    rw [readLoopKept_cons]
    cases hl : look env h path m t fs pos with
    | err e => exact ⟨0, buf, rfl, .inr ⟨pos, rfl, .inl ⟨e, rfl, hl⟩⟩⟩
    | panic => exact ⟨0, buf, rfl, .inr ⟨pos, rfl, .inr rfl⟩⟩
    | ok r =>
      cases r with
      | none =>
        obtain ⟨n, b, h1, h2⟩ := ih arr buf
        refine ⟨n + 1, b, ?_, ?_⟩
        · rw [List.take_succ_cons, readLoop_cons, hl]
          exact h1
        · simpa using h2
      | some c =>
        simp only
        cases hc : copyChunk m bbox c arr with
        | err e => exact absurd hc copyChunk_ne_err
        | panic => exact ⟨0, buf, rfl, .inr ⟨pos, rfl, .inr rfl⟩⟩
        | ok a =>
          obtain ⟨n, b, h1, h2⟩ := ih a (some c)
          refine ⟨n + 1, b, ?_, ?_⟩
          · rw [List.take_succ_cons, readLoop_cons, hl]
            simp only [hc]
            exact h1
          · simpa using h2

theorem bounded_sorted {it : CoordIter} (hl : m.shape.length = m.chunkShape.length)
    (hb : bbox.offset.length = bbox.shape.length) (hit : m.boundedCoordIter bbox = .ok it) :
    it.rest.Pairwise (· < ·) := by
  obtain ⟨_, _, hr, _⟩ := boundedCoordIter_ok hl hb hit
  rw [hr]
  by_cases hne : boundedRanges m.shape m.chunkShape bbox.offset bbox.shape = []
  · rw [hne]; simp [multiCartesian]
  · rw [multiCartesian_eq hne]
    exact cartesian_sorted boundedRanges_sorted

theorem mem_take_sorted {l : List (List Nat)} (hp : l.Pairwise (· < ·)) {n : Nat} {stop : List Nat}
    (hs : l[n]? = some stop) (c : List Nat) : c ∈ l.take n ↔ c ∈ l ∧ c < stop := by
  induction l generalizing n with
  | nil => simp at hs
  | cons a l ih =>
    obtain ⟨ha, hp⟩ := List.pairwise_cons.mp hp
    cases n with
    | zero =>
      simp only [List.getElem?_cons_zero, Option.some.injEq] at hs
      subst hs
      simp only [List.take_zero, List.not_mem_nil, List.mem_cons, false_iff, not_and]
      rintro (rfl | hc)
      · exact List.lt_irrefl _
      · exact fun hlt => List.lt_irrefl _ (List.lt_trans (ha c hc) hlt)
    | succ n =>
      simp only [List.getElem?_cons_succ] at hs
      simp only [List.take_succ_cons, List.mem_cons, ih hp hs]
      constructor
      · rintro (rfl | hc)
        · exact ⟨.inl rfl, ha stop (List.mem_of_getElem? hs)⟩
        · exact ⟨.inr hc.1, hc.2⟩
      · rintro ⟨rfl | hc, hlt⟩
        · exact .inl rfl
        · exact .inr ⟨hc, hlt⟩

theorem copyChunk_shape {c : DataChunk t} {arr arr2 a : NdArr (El t)} (hs : arr.shape = arr2.shape)
    (hc : copyChunk m bbox c arr = .ok a) : ∃ b, copyChunk m bbox c arr2 = .ok b ∧ a.shape = b.shape := by
  unfold copyChunk at hc ⊢
  simp only [Outcome.bind_eq_ok] at hc
  simp only
  obtain ⟨rb, h1, hc⟩ := hc
  rw [h1, Outcome.bind_ok]
  split at hc
  · rename_i he
    rw [if_pos he]
    cases hc
    exact ⟨arr2, rfl, hs⟩
  · rename_i he
    rw [if_neg he]
    simp only [Outcome.bind_eq_ok] at hc
    obtain ⟨b1, h2, b2, h3, d, h4, v, h5, hc⟩ := hc
    rw [h2, Outcome.bind_ok, h3, Outcome.bind_ok, h4, Outcome.bind_ok, h5, Outcome.bind_ok]
    unfold NdArr.sliceAssign at hc ⊢
    rw [← hs]
    split at hc
    · rename_i hk
      rw [if_pos hk]
      cases hc
      exact ⟨_, rfl, rfl⟩
    · cases hc

theorem readLoop_shape (coords : List (List Nat)) (arr arr2 : NdArr (El t))
    (buf : Option (DataChunk t)) (hs : arr.shape = arr2.shape)
    {r : NdArr (El t) × Option (DataChunk t)}
    (hr : (readLoop env h path m t bbox coords arr buf fs).1 = .ok r) :
    ∃ r2, (readLoop env h path m t bbox coords arr2 buf fs).1 = .ok r2 := by
  induction coords generalizing arr arr2 buf with
  | nil => exact ⟨_, rfl⟩
  | cons pos rest ih =>
    rw [readLoop_cons] at hr ⊢
    cases hl : look env h path m t fs pos with
    | err e => simp [hl] at hr
    | panic => simp [hl] at hr
    | ok x =>
      rw [hl] at hr
      cases x with
      | none => exact ih arr arr2 buf hs hr
      | some c =>
        simp only at hr ⊢
        cases hc : copyChunk m bbox c arr with
        | err e => simp [hc] at hr
        | panic => simp [hc] at hr
        | ok a =>
          obtain ⟨b, hb, hs'⟩ := copyChunk_shape hs hc
          rw [hc] at hr
          rw [hb]
          exact ih a b (some c) hs' hr

end

/-- **C115.** Whatever a box read into a caller's array returns, and with whatever buffer: it is
what `readNdarrayIntoWithBuffer` returns, with the same array on success; the array keeps its shape;
and there is a set of chunk positions, closed downwards in the order of positions, such that the
elements of the chunks in it are the stored ones where there are stored ones, and every other
element is what it was before. After a success that is every position. After an error for a reason
other than a mismatch of dimensions, the error is that of reading a chunk that is not in the set. A
second read into the same array, of a store that still has the chunks the first had, succeeds if and
only if a read into the array as it was at first does, with the same elements. -/
theorem C115 (env : Env) (h : Hier) (path : Str) (m : ArrayMetadata) (t : RsType) (bbox : BBox)
    (fs : Fs) (arr : NdArr (El t)) (buf : Option (DataChunk t))
    (hl : m.shape.length = m.chunkShape.length)
    (hb : BBox.new bbox.offset bbox.shape = .ok bbox)
    (o : Outcome Unit) (kept : NdArr (El t))
    (hr : readNdarrayIntoKept env h path m t bbox arr buf fs = (o, kept)) :
    ((readNdarrayIntoWithBuffer env h path m t bbox arr buf fs).1 >>= fun r => .ok r.1)
      = (o >>= fun _ => .ok kept) ∧
    kept.shape = arr.shape ∧
    (∃ filled : List Nat → Prop, (∀ c c', filled c → c' < c → filled c') ∧
      (o = .ok () → ∀ c, filled c) ∧
      (∀ e, o = .err e → bbox.shape = arr.shape → bbox.shape.length = m.shape.length →
        ∃ p, ¬ filled p ∧ (readChunk env h path m t p fs).1 = .err e) ∧
      (∀ i, Inside arr.shape i →
        (filled (chunkOf m.chunkShape (shift bbox.offset i)) → m.shape ≠ [] →
          Inside m.shape (shift bbox.offset i) →
          (∃ v, StoredElem m bbox.offset (fun p => (readChunk env h path m t p fs).1) i v) →
          StoredElem m bbox.offset (fun p => (readChunk env h path m t p fs).1) i (kept.get i)) ∧
        (kept.get i = arr.get i ∨
          (filled (chunkOf m.chunkShape (shift bbox.offset i)) ∧
           StoredElem m bbox.offset (fun p => (readChunk env h path m t p fs).1) i (kept.get i))))) ∧
    (∀ fs', (∀ p c, (readChunk env h path m t p fs).1 = .ok (some c) →
        (readChunk env h path m t p fs').1 ≠ .ok none) →
      (∀ a, (readNdarrayInto env h path m t bbox kept fs').1 = .ok a →
        ∃ a', (readNdarrayInto env h path m t bbox arr fs').1 = .ok a' ∧
          a.shape = a'.shape ∧ ∀ i, Inside a.shape i → a.get i = a'.get i) ∧
      (∀ a', (readNdarrayInto env h path m t bbox arr fs').1 = .ok a' →
        ∃ a, (readNdarrayInto env h path m t bbox kept fs').1 = .ok a)) := by
  have hb' := BBox.new_ok hb
  by_cases h1 : bbox.offset.length ≠ m.shape.length ∨ m.shape.length ≠ arr.shape.length
  · unfold readNdarrayIntoKept at hr
    rw [if_pos h1] at hr
    cases hr
    refine ⟨?_, rfl, ⟨fun _ => False, fun _ _ hf _ => hf, fun hf => by simp at hf,
      fun e _ hs hd => ?_, fun i hi => ⟨fun hf => hf.elim, .inl rfl⟩⟩, fun fs' _ =>
      ⟨fun a ha => ⟨a, ha, rfl, fun _ _ => rfl⟩, fun a ha => ⟨a, ha⟩⟩⟩
    · unfold readNdarrayIntoWithBuffer
      rw [if_pos h1]; rfl
    · rw [← hs] at h1; omega
  by_cases h2 : bbox.shape ≠ arr.shape
  · unfold readNdarrayIntoKept at hr
    rw [if_neg h1, if_pos h2] at hr
    cases hr
    refine ⟨?_, rfl, ⟨fun _ => False, fun _ _ hf _ => hf, fun hf => by simp at hf,
      fun e _ hs _ => absurd hs h2, fun i hi => ⟨fun hf => hf.elim, .inl rfl⟩⟩, fun fs' _ =>
      ⟨fun a ha => ⟨a, ha, rfl, fun _ _ => rfl⟩, fun a ha => ⟨a, ha⟩⟩⟩
    unfold readNdarrayIntoWithBuffer
    rw [if_neg h1, if_pos h2]; rfl
  have hb2 : ∀ (a : NdArr (El t)) (b : Option (DataChunk t)) (f : Fs), a.shape = arr.shape →
      readNdarrayIntoWithBuffer env h path m t bbox a b f =
        (M.lift (m.boundedCoordIter bbox) >>= fun it => readLoop env h path m t bbox it.rest a b) f := by
    intro a b f ha
    unfold readNdarrayIntoWithBuffer
    rw [ha, if_neg h1, if_neg h2]
  unfold readNdarrayIntoKept at hr
  rw [if_neg h1, if_neg h2] at hr
  rw [hb2 arr buf fs rfl]
  simp only [not_or, Decidable.not_not] at h1 h2
  cases hit : m.boundedCoordIter bbox with
  | err e => exact absurd hit bounded_ne_err
  | panic =>
    rw [hit] at hr
    cases hr
    refine ⟨?_, rfl, ⟨fun _ => False, fun _ _ hf _ => hf, fun hf => by simp at hf,
      fun e he => by simp at he, fun i hi => ⟨fun hf => hf.elim, .inl rfl⟩⟩, fun fs' _ =>
      ⟨fun a ha => ⟨a, ha, rfl, fun _ _ => rfl⟩, fun a ha => ⟨a, ha⟩⟩⟩
    rfl
  | ok it =>
    rw [hit] at hr
    simp only at hr
    obtain ⟨_, hk, _⟩ := boundedCoordIter_ok hl hb' hit
    have hlen := bounded_lengths hl hb' hit
    have hsort := bounded_sorted hl hb' hit
    have hkept : kept = (readLoopKept env h path m t bbox fs it.rest arr buf).2 := by rw [hr]
    have hag := readLoopKept_agrees (env := env) (h := h) (path := path) (m := m) (t := t) (bbox := bbox)
      (fs := fs) it.rest arr buf
    obtain ⟨n, b, hn, hcase⟩ := readLoopKept_take (env := env) (h := h) (path := path) (m := m) (t := t)
      (bbox := bbox) (fs := fs) it.rest arr buf
    rw [hr] at hag hn hcase
    simp only at hag hn hcase
    have hlc : ∀ c ∈ it.rest, c.length = bbox.shape.length := fun c hc => by rw [hlen c hc]; omega
    obtain ⟨s1, s2, s3⟩ := readLoop_spec hb' (by omega) hk (it.rest.take n)
      (fun c hc => hlc c (List.mem_of_mem_take hc)) arr buf h2.symm hn
    refine ⟨by simpa only [M.bind_apply, M.lift_apply] using hag, by rw [s1, h2], ?_, ?_⟩
    · have key : ∀ filled : List Nat → Prop,
          (∀ c, c ∈ it.rest.take n ↔ c ∈ it.rest ∧ filled c) → ∀ i, Inside arr.shape i →
          (filled (chunkOf m.chunkShape (shift bbox.offset i)) → m.shape ≠ [] →
            Inside m.shape (shift bbox.offset i) →
            (∃ v, StoredElem m bbox.offset (fun p => (readChunk env h path m t p fs).1) i v) →
            StoredElem m bbox.offset (fun p => (readChunk env h path m t p fs).1) i (kept.get i)) ∧
          (kept.get i = arr.get i ∨
            (filled (chunkOf m.chunkShape (shift bbox.offset i)) ∧
             StoredElem m bbox.offset (fun p => (readChunk env h path m t p fs).1) i (kept.get i))) := by
        intro filled hf i hi
        rw [← h2] at hi
        constructor
        · rintro hfi hne hin ⟨v, c, hc, _⟩
          refine ⟨c, hc, (s3 i hi).1 c ((hf _).mpr ⟨?_, hfi⟩) hc⟩
          rw [mem_boundedCoordIter hl hb' hne hit]
          exact touches_of_point hk hl hin ((inside_shift hb').mp hi).2
        · by_cases hmem : chunkOf m.chunkShape (shift bbox.offset i) ∈ it.rest.take n
          · obtain ⟨x, hx⟩ := s2 _ hmem
            cases x with
            | none => exact .inl ((s3 i hi).2 (.inr hx))
            | some c => exact .inr ⟨((hf _).mp hmem).2, c, hx, (s3 i hi).1 c hmem hx⟩
          · exact .inl ((s3 i hi).2 (.inl hmem))
      rcases hcase with ⟨ho, hn'⟩ | ⟨stop, hstop, ho⟩
      · refine ⟨fun _ => True, fun _ _ _ _ => trivial, fun _ _ => trivial, fun e he => ?_, ?_⟩
        · rw [ho] at he; cases he
        · exact key (fun _ => True) fun c => by rw [List.take_of_length_le hn']; simp
      · refine ⟨fun c => c < stop, fun _ _ hc hc' => List.lt_trans hc' hc, fun hok => ?_,
          fun e he _ _ => ⟨stop, List.lt_irrefl _, ?_⟩, key _ (mem_take_sorted hsort hstop)⟩
        · rcases ho with ⟨e, ho, _⟩ | ho <;> rw [ho] at hok <;> cases hok
        · rcases ho with ⟨e', ho, hlook⟩ | ho
          · rw [ho] at he; cases he; exact hlook
          · rw [ho] at he; cases he
    · intro fs' hfs
      have hksh : kept.shape = arr.shape := by rw [s1, h2]
      have hinto : ∀ a : NdArr (El t), a.shape = arr.shape →
          (readNdarrayInto env h path m t bbox a fs').1
            = ((readLoop env h path m t bbox it.rest a none fs').1 >>= fun r => .ok r.1) := by
        intro a ha
        rw [readNdarrayInto_one, hb2 a none fs' ha]
        simp only [M.bind_apply, M.lift_apply, hit]
      rw [hinto kept hksh, hinto arr rfl]
      simp only [Outcome.bind_eq_ok, Outcome.ok.injEq]
      constructor
      · rintro a ⟨r, hr1, rfl⟩
        obtain ⟨r2, hr2⟩ := readLoop_shape it.rest kept arr none hksh hr1
        obtain ⟨u1, u2, u3⟩ := readLoop_spec hb' (by omega) hk it.rest hlc kept none (by rw [hksh, h2]) hr1
        obtain ⟨w1, w2, w3⟩ := readLoop_spec hb' (by omega) hk it.rest hlc arr none h2.symm hr2
        refine ⟨_, ⟨r2, hr2, rfl⟩, by rw [u1, w1], fun i hi => ?_⟩
        rw [u1] at hi
        by_cases hmem : chunkOf m.chunkShape (shift bbox.offset i) ∈ it.rest
        · obtain ⟨x, hx⟩ := u2 _ hmem
          cases x with
          | some c =>
            have e1 := (u3 i hi).1 c hmem hx
            have e2 := (w3 i hi).1 c hmem hx
            rw [e1] at e2
            exact Option.some.inj e2
          | none =>
            rw [(u3 i hi).2 (.inr hx), (w3 i hi).2 (.inr hx)]
            by_cases hmt : chunkOf m.chunkShape (shift bbox.offset i) ∈ it.rest.take n
            · obtain ⟨y, hy⟩ := s2 _ hmt
              cases y with
              | none => exact (s3 i hi).2 (.inr hy)
              | some c => exact absurd hx (hfs _ c hy)
            · exact (s3 i hi).2 (.inl hmt)
        · rw [(u3 i hi).2 (.inl hmem), (w3 i hi).2 (.inl hmem)]
          exact (s3 i hi).2 (.inl fun hmt => hmem (List.mem_of_mem_take hmt))
      · rintro a' ⟨r, hr1, rfl⟩
        obtain ⟨r2, hr2⟩ := readLoop_shape it.rest arr kept none hksh.symm hr1
        exact ⟨_, r2, hr2, rfl⟩

/-- The demo array with the chunk at position 1 stored and one byte at the place of the chunk at
position 2. -/
def demoTorn : Fs :=
  (storeSet Demo.hier (chunkKey Demo.path Demo.arr [2]) ([5], .ok ()) demoFs).2

/-- The read of elements 1 to 4 stops at the second chunk: the elements of the first are there. -/
example : BBox.new [1] [4] = .ok ⟨[1], [4]⟩ ∧
    (readNdarrayIntoKept Demo.env Demo.hier Demo.path Demo.arr .u16 ⟨[1], [4]⟩
      (NdArr.fromElem [4] 9#16) none demoTorn).1 = .err .unexpectedEof ∧
    ((readNdarrayIntoKept Demo.env Demo.hier Demo.path Demo.arr .u16 ⟨[1], [4]⟩
      (NdArr.fromElem [4] 9#16) none demoTorn).2.toVec .rowMajor : List (BitVec 16))
        = [9#16, 258#16, 7#16, 9#16] := by decide +kernel

end Zarr
