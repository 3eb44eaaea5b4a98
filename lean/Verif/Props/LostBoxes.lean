import Verif.Lemmas.Turns
import Verif.Props.ThreadBoxes
import Verif.Props.StoreCalls
/-!
# Two threads that write boxes in one chunk: the failing case of C78
-/

namespace Zarr

open Spec

/-- The box meets the array in one chunk only and does not contain that chunk. -/
def Spec.InOneChunk (m : ArrayMetadata) (b : BBox) (pos : List Nat) : Prop :=
  (∀ c, OverlapsBoth m b c ↔ c = pos) ∧ ∃ p, Covers m.chunkShape pos p ∧ ¬ InBox b.offset b.shape p

namespace Threads

/-- The program fails, or writes one file and returns. -/
def Prog.SetsOnce (key : Str) : Prog Unit → Prop
  | .done r => r ≠ .ok ()
  | .set k _ f => k = key ∧ ∀ r, f r = .done r
  | _ => False

/-- A thread that makes one write call. -/
def oneWrite {t : RsType} (P : Prog Unit) : Prog (List (BoxResult t)) := do
  let r ← P.record .wrote
  pure [r]

section
variable {env : Env} {h : Hier} {path : Str} {m : ArrayMetadata} {t : RsType} {fs fs' : Fs}

theorem run_oneWrite (P : Prog Unit) (fs : Fs) :
    (oneWrite (t := t) P).run h fs = (.ok [.wrote (P.run h fs).1], (P.run h fs).2) := by
  simp only [oneWrite, Prog.run_bind, M.bind_apply, Prog.run_record]
  rfl

theorem setsOnce_lift₂ {β γ : Type} {key : Str} {r : Outcome β} {f : β → Prog γ} {g : γ → Prog Unit}
    (hf : ∀ a, r = .ok a → (f a >>= g).SetsOnce key) : Prog.SetsOnce key (pLift r >>= f >>= g) := by
  cases r with
  | ok a => exact hf a rfl
  | err e => show Outcome.err e ≠ .ok (); simp
  | panic => show Outcome.panic ≠ .ok (); simp

/-- A box write in a part of one chunk reads that chunk and writes it. -/
theorem write_gets {offset : List Nat} {array : NdArr (El t)} {pos : List Nat}
    (hl : m.shape.length = m.chunkShape.length) (hn : m.shape ≠ []) (hone : InOneChunk m ⟨offset, array.shape⟩ pos)
    (hw : Zarr.writeNdarray env h path m offset array fs = (.ok (), fs')) :
    ∃ K, writeNdarray env path m offset array = .get (chunkKey path m pos) K ∧
      ∀ x, (K x).SetsOnce (chunkKey path m pos) := by
  obtain ⟨h1, fill, it, hfill, hit, hloop⟩ := writeNdarray_inv hw
  have hol := boundedCoordIter_dim hit
  simp only at hol
  have hb' : (BBox.mk offset array.shape).offset.length = (BBox.mk offset array.shape).shape.length := by
    simp only; omega
  obtain ⟨_, hk, _⟩ := boundedCoordIter_ok hl hb' hit
  obtain ⟨it', xs, hit', hy, hsorted, _, hmem⟩ := C16_partial m ⟨offset, array.shape⟩ hl hk hn hol h1
  rw [yields_iff] at hy
  subst hy
  rw [hit] at hit'
  cases hit'
  obtain ⟨p, p1, p2, p3⟩ := (hone.1 pos).mpr rfl
  have hmem := hmem ⟨p, p1, p2⟩
  have hrest : it.rest = [pos] := by
    cases hr : it.rest with
    | nil =>
      have := (hmem pos).mpr ⟨p, p1, p2, p3⟩
      rw [hr] at this; simp at this
    | cons x rest =>
      have hx := (hone.1 x).mp ((hmem x).mp (by rw [hr]; simp))
      subst hx
      cases rest with
      | nil => rfl
      | cons y rest =>
        have hy := (hone.1 y).mp ((hmem y).mp (by rw [hr]; simp))
        subst hy
        rw [hr] at hsorted
        exact absurd ((List.pairwise_cons.mp hsorted).1 y (by simp)) (List.lt_irrefl _)
  rw [hrest] at hloop
  simp only [Zarr.writeLoop, M.bind_apply] at hloop
  have hin := (C13_partial m pos hl hk).1 ⟨p, p1, p3⟩
  have hlen := (Covers.length p3).2
  cases hwc : Zarr.writeCoord env h path m ⟨offset, array.shape⟩ fill array pos [] fs with
  | mk r fs1 =>
  rw [hwc] at hloop
  cases r with
  | err e => simp at hloop
  | panic => simp at hloop
  | ok e =>
    obtain ⟨writeBb, arrBb, view, v1, v2, v3, _⟩ := writeCoord_inv hwc
    have hne : writeBb ≠ m.chunkBounds pos := by
      rw [Ne, Any.whole_iff hlen (by simp only; omega) (by simp only; omega) hk v1]
      intro hc
      obtain ⟨q, q1, q2⟩ := hone.2
      exact q2 (hc q q1)
    have e1 : writeNdarray env path m offset array =
        (writePartial env path m fill pos (m.chunkBounds pos) writeBb view [] >>= fun _ => (pure () : Prog Unit)) := by
      unfold writeNdarray
      rw [if_neg (by simpa using h1)]
      simp only [hfill, hit]
      show writeLoop env path m ⟨offset, array.shape⟩ fill array it.rest [] = _
      rw [hrest]
      show (writeCoord env path m ⟨offset, array.shape⟩ fill array pos [] >>= fun _ => (pure () : Prog Unit)) = _
      unfold writeCoord
      simp only [v1]
      show ((pLift (writeBb.sub offset) >>= fun a => _) >>= _) = _
      simp only [v2]
      show ((pLift (array.slice arrBb.toSlice) >>= fun a => _) >>= _) = _
      simp only [v3]
      show ((if writeBb = m.chunkBounds pos then _ else _) >>= _) = _
      rw [if_neg hne]
    rw [e1]
    unfold writePartial readChunkInto assertInBounds
    rw [hin]
    refine ⟨_, rfl, fun x => ?_⟩
    let F : Bool × DataChunk t → Prog (List (El t)) := fun r => do
      let c ← pLift (
        if r.1 then do
          let a ← fromShapeVec m.order m.chunkShape r.2.data
          pure (m.chunkBounds r.2.gridPosition, a, m.order)
        else do
          let a ← fromShapeVec .rowMajor (m.chunkBounds pos).shape (List.replicate (m.chunkBounds pos).shape.prod fill)
          pure (m.chunkBounds pos, a, Order.rowMajor))
      let chunkWriteBb ← pLift (writeBb.sub c.1.offset)
      let a ← pLift (c.2.1.sliceAssign chunkWriteBb.toSlice view)
      writeChunk env path m ⟨pos, a.toVec m.order⟩
      pure (a.toVec c.2.2)
    have hF : ∀ r, Prog.SetsOnce (chunkKey path m pos) (F r >>= fun _ => (pure () : Prog Unit)) := by
      intro r
      refine setsOnce_lift₂ fun c _ => setsOnce_lift₂ fun b _ => setsOnce_lift₂ fun a _ => ⟨rfl, fun r => ?_⟩
      cases r <;> rfl
    have hread : ∀ y : Outcome (DataChunk t), Prog.SetsOnce (chunkKey path m pos)
        (((pLift y >>= fun c => (pure (true, c) : Prog (Bool × DataChunk t))) >>= F) >>=
          fun _ => (pure () : Prog Unit)) := by
      intro y
      cases y with
      | ok c => exact hF (true, c)
      | err e => show Outcome.err e ≠ .ok (); simp
      | panic => show Outcome.panic ≠ .ok (); simp
    cases x with
    | err e => show Outcome.err e ≠ .ok (); simp
    | panic => show Outcome.panic ≠ .ok (); simp
    | ok v =>
      cases v with
      | none => exact hF (false, ⟨pos, []⟩)
      | some b => exact hread _

theorem look_content (hb : Plain (segs h.base)) (hp : Plain (segs path)) (hs : GoodSep m.separator) (hwf : fs.WF)
    (hwf' : fs'.WF) {pos : List Nat}
    (hc : fs.content (h.loc (chunkKey path m pos)) = fs'.content (h.loc (chunkKey path m pos))) :
    look env h path m t fs pos = look env h path m t fs' pos := by
  unfold look Zarr.readChunk
  simp only [M.bind_apply, M.lift_apply]
  cases assertInBounds m pos with
  | err e => rfl
  | panic => rfl
  | ok u =>
    simp only [storeGet_eq hwf (plain_loc_chunk hb hp hs pos), storeGet_eq hwf' (plain_loc_chunk hb hp hs pos), hc]
    cases fs'.content (h.loc (chunkKey path m pos)) with
    | none => rfl
    | some b =>
      simp only [M.bind_apply, M.lift_apply]
      cases readChunkBytes env.codecs env.native m t pos b <;> rfl

/-- **C78 (violated), in general.** Two threads write a box each, at the same time. If the first box is in a part of one
chunk, there is an interleaving in which both calls return `Ok` and nothing that the second call wrote to that chunk is
there in the end: every element of the chunk is what the first call alone leaves, and every other element is what the
second call alone leaves. -/
theorem C78_violated_always (env : Env) (h : Hier) (path : Str) (m : ArrayMetadata) {t : RsType}
    (offset offset' : List Nat) (array array' : NdArr (El t)) (pos : List Nat)
    (fs : Fs) (hwf : fs.WF) (hb : Plain (segs h.base)) (hp : Plain (segs path)) (hs : GoodSep m.separator)
    (hcodec : (codecOf env.codecs m.compressor).Lawful)
    (hl : m.shape.length = m.chunkShape.length) (hn : m.shape ≠ [])
    (hone : InOneChunk m ⟨offset, array.shape⟩ pos) (hmeet : BoxMeetsArray m ⟨offset', array'.shape⟩)
    (hfree : ∀ c, OverlapsBoth m ⟨offset', array'.shape⟩ c → Writable fs (chunkLoc h path m.separator c))
    (hA : (Zarr.writeNdarray env h path m offset array fs).1 = .ok ())
    (hB : (Zarr.writeNdarray env h path m offset' array' fs).1 = .ok ()) :
    ∃ ts s, (Sys.initial fs ([[.write offset array], [.write offset' array']].map (boxThread env path m))).run h ts
        = some s ∧
      s.result 0 = some (.ok [.wrote (.ok ())]) ∧ s.result 1 = some (.ok [.wrote (.ok ())]) ∧
      ∀ (b : BBox) (a : NdArr (El t)) (f : List Nat → El t), BBox.new b.offset b.shape = .ok b →
        (Zarr.readNdarray env h path m t b fs).1 = .ok a →
        (∀ i, Inside b.shape i → Inside m.shape (shift b.offset i) → f (shift b.offset i) = a.get i) →
        ∃ a', (Zarr.readNdarray env h path m t b s.fs).1 = .ok a' ∧ a'.shape = b.shape ∧
          ∀ i, Inside b.shape i → Inside m.shape (shift b.offset i) →
            (Covers m.chunkShape pos (shift b.offset i) →
              a'.get i = Spec.update [(offset, array)] f (shift b.offset i)) ∧
            (¬ Covers m.chunkShape pos (shift b.offset i) →
              a'.get i = Spec.update [(offset', array')] f (shift b.offset i)) := by
  have hs' : m.separator = str!"/" ∨ '/' ∉ m.separator := hs.imp id (·.2)
  have hpl := fun pos => plain_loc_chunk (h := h) (m := m) hb hp hs pos
  obtain ⟨fsA, hwA⟩ : ∃ fsA, Zarr.writeNdarray env h path m offset array fs = (.ok (), fsA) := ⟨_, Prod.ext hA rfl⟩
  obtain ⟨fsB, hwB⟩ : ∃ fsB, Zarr.writeNdarray env h path m offset' array' fs = (.ok (), fsB) := ⟨_, Prod.ext hB rfl⟩
  obtain ⟨K, hK, hset⟩ := write_gets hl hn hone hwA
  obtain ⟨a1, a2, a3, a4, ⟨fill, a5⟩, _, itA, hitA, a7, a8, a9⟩ := writeNdarray_spec hwf hb hp hs hcodec hl hn hwA
  obtain ⟨b1, b2, b3, b4, _, _, itB, hitB, b7, b8, b9⟩ := writeNdarray_spec hwf hb hp hs hcodec hl hn hwB
  -- the program of the first thread after it has read the chunk
  have hrunA : (writeNdarray env path m offset array).run h fs = (.ok (), fsA) := by rw [run_writeNdarray, hwA]
  rw [hK] at hrunA
  simp only [Prog.run, storeGet_eq hwf (hpl pos)] at hrunA
  obtain ⟨v, f, hKx, hf⟩ : ∃ v f, K (.ok (fs.content (h.loc (chunkKey path m pos)))) =
      .set (chunkKey path m pos) v f ∧ ∀ r, f r = .done r := by
    have hx := hset (.ok (fs.content (h.loc (chunkKey path m pos))))
    revert hx hrunA
    cases K (.ok (fs.content (h.loc (chunkKey path m pos)))) with
    | done r =>
      intro hr hx
      simp only [Prog.run] at hr
      exact absurd (Prod.mk.inj hr).1 hx
    | set k v f => rintro _ ⟨rfl, hf⟩; exact ⟨v, f, rfl, hf⟩
    | _ => intro _ hx; exact hx.elim
  rw [hKx] at hrunA
  simp only [Prog.run, hf] at hrunA
  have hwr : Writable fs (h.loc (chunkKey path m pos)) := by
    by_cases hw : Writable fs (h.loc (chunkKey path m pos))
    · exact hw
    · obtain ⟨e, he⟩ := (storeSet_spec v hwf (hpl pos)).2 hw
      rw [he] at hrunA
      simp at hrunA
  obtain ⟨fsA', s1, s2, s3⟩ := (storeSet_spec v hwf (hpl pos)).1 hwr
  rw [s1] at hrunA
  obtain ⟨hv, hfsA⟩ := Prod.mk.inj hrunA
  simp only at hv hfsA
  subst hfsA
  -- the second thread changes only chunks of the array
  have hchange : Change (fun l => ∃ c, OverlapsBoth m ⟨offset', array'.shape⟩ c ∧ l = h.loc (chunkKey path m c)) fs fsB := by
    have hlen : ∀ {c}, OverlapsBoth m ⟨offset', array'.shape⟩ c → c.length = m.chunkShape.length := by
      rintro c ⟨_, _, _, hc⟩
      exact (Covers.length hc).2
    have := (Prog.run_eval (h := h) (R := fun _ => False)
      (W := fun l => ∃ c, OverlapsBoth m ⟨offset', array'.shape⟩ c ∧ l = h.loc (chunkKey path m c))
      (by
        rintro a b ⟨c, hc, rfl⟩ ⟨c', hc', rfl⟩ hpre
        rw [chunkKey_inj hs ((hlen hc).trans (hlen hc').symm) hpre])
      (writeNdarray env path m offset' array')
      (uses_writeNdarray hpl fun it hit c hc => ⟨c, visited_overlap hl hn b4 hmeet hit hc, rfl⟩) hwf
      (by
        rintro l ⟨c, hc, rfl⟩
        rw [loc_chunkKey hs']
        exact hfree c hc)).2.2
    rwa [run_writeNdarray, hwB] at this
  have hposl : pos.length = m.chunkShape.length := by
    obtain ⟨_, _, _, hc⟩ := (hone.1 pos).mpr rfl
    exact (Covers.length hc).2
  have hwrB : Writable fsB (h.loc (chunkKey path m pos)) := by
    refine hchange.writable hwr ?_ ?_
    · rintro a ⟨c, ⟨_, _, _, hc⟩, rfl⟩ hpre
      rw [chunkKey_inj hs ((Covers.length hc).2.trans hposl.symm) hpre]
    · rintro a ⟨c, ⟨_, _, _, hc⟩, rfl⟩ hpre
      rw [chunkKey_inj hs (hposl.trans (Covers.length hc).2.symm) hpre]
  obtain ⟨fs2, u1, u2, u3⟩ := (storeSet_spec v b1 (hpl pos)).1 hwrB
  have hlead : Leads h (.prog (boxThread env path m [.write offset array])) fs
      (.prog (oneWrite (.set (chunkKey path m pos) v f))) fs := by
    have := leads_get (h := h) (fs := fs) (chunkKey path m pos) fun x => oneWrite (t := t) (K x)
    rw [storeGet_eq hwf (hpl pos), hKx] at this
    have e : boxThread env path m [.write offset array] = .get (chunkKey path m pos) fun x => oneWrite (t := t) (K x) := by
      simp only [boxThread, boxProg, hK]
      rfl
    rw [e]
    exact this
  obtain ⟨ts, s, r1, r2, r3, r4⟩ := overtaken (B := boxThread env path m [.write offset' array']) hlead
  have hrunB : (boxThread env path m [.write offset' array']).run h fs = (.ok [.wrote (.ok ())], fsB) := by
    rw [run_boxThread]
    simp only [boxResults, boxState, BoxOp.run, hwB]
  rw [hrunB] at r2 r3 r4
  simp only [run_oneWrite, Prog.run, u1, hf, hv] at r2 r3 r4
  refine ⟨ts, s, r1, r3, r4, fun b a g hbb hr hg => ?_⟩
  rw [r2]
  have hA2 : look env h path m t fs2 pos = look env h path m t fsA' pos :=
    look_content hb hp hs u2 s2 (by rw [Fs.content_congr (fs := fs2) (fs' := fsA') (by rw [u3, s3]; simp [setSpec])])
  have hB2 : ∀ c, c ≠ pos → look env h path m t fs2 c = look env h path m t fsB c := by
    intro c hc
    refine look_content hb hp hs u2 b1 ((storeSet_frame (v := v) b1 (hpl pos) u1).2 _ fun e => hc ?_)
    unfold Hier.loc at e
    have e := List.append_cancel_left e
    rw [segs_chunkKey, segs_chunkKey] at e
    simp only [List.cons.injEq, true_and] at e
    exact chunkTail_injective hs (List.append_cancel_left e)
  obtain ⟨a'A, w1, w2⟩ := write_then_read hwf hb hp hs hcodec hl hn hwA hbb hr
  obtain ⟨a'B, x1, x2⟩ := write_then_read hwf hb hp hs hcodec hl hn hwB hbb hr
  have hbl := BBox.new_ok hbb
  obtain ⟨hd, it, hit, hlkA⟩ := readNdarray_looks hl hbl w1
  obtain ⟨_, it', hit', hlkB⟩ := readNdarray_looks hl hbl x1
  rw [hit] at hit'
  cases hit'
  have hprod : m.chunkShape.prod < 2 ^ 32 := by
    obtain ⟨p, p1, p2, p3⟩ := (hone.1 pos).mpr rfl
    have hmem : pos ∈ itA.rest := by
      rw [mem_boundedCoordIter (b := ⟨offset, array.shape⟩) hl a2 hn hitA, ← ((covers_iff a4).mp p3).2]
      exact touches_of_point a4 hl p1 p2
    obtain ⟨w, hw, hwl⟩ := a8 pos hmem
    have := (look_some hw).2.2
    simp only at this
    have hlt : m.chunkShape.prod % 2 ^ 32 < 2 ^ 32 := Nat.mod_lt _ (by decide)
    omega
  obtain ⟨a', ha'⟩ := readNdarray_ok (fs := fs2) hl hbl hd a5 hit (fun c hc => by
    have : ∃ x, look env h path m t fs2 c = .ok x := by
      by_cases hcp : c = pos
      · subst hcp; rw [hA2]; exact hlkA c hc
      · rw [hB2 c hcp]; exact hlkB c hc
    obtain ⟨x, hx⟩ := this
    cases x with
    | none => exact .inl hx
    | some x =>
      have := (look_some hx).2.2
      rw [Nat.mod_eq_of_lt hprod] at this
      exact .inr ⟨x, hx, by omega⟩)
  refine ⟨a', ha', (C20 env h path m t b _ a' hl hn hbb ha').1, fun i hi hin => ?_⟩
  have q0 := readNdarray_reads hl hn hbb ha' i hi hin
  have qA := readNdarray_reads hl hn hbb w1 i hi hin
  have qB := readNdarray_reads hl hn hbb x1 i hi hin
  obtain ⟨wa, wb⟩ := w2 i hi hin
  obtain ⟨xa, xb⟩ := x2 i hi hin
  refine ⟨fun hcov => ?_, fun hcov => ?_⟩
  · have hch : chunkOf m.chunkShape (shift b.offset i) = pos := ((covers_iff a4).mp hcov).2
    have := (Reads.congr (by rw [hch, hA2])).mpr qA
    rw [q0.unique this]
    simp only [Spec.update]
    by_cases hbx : InBox offset array.shape (shift b.offset i)
    · rw [if_pos hbx, wa hbx]
    · rw [if_neg hbx, wb hbx, hg i hi hin]
  · have hch : chunkOf m.chunkShape (shift b.offset i) ≠ pos := fun e => hcov (by
      rw [← e]; exact covers_chunkOf a4 (by rw [Inside.length hin, hl]))
    have := (Reads.congr (by rw [hB2 _ hch])).mpr qB
    rw [q0.unique this]
    simp only [Spec.update]
    by_cases hbx : InBox offset' array'.shape (shift b.offset i)
    · rw [if_pos hbx, xa hbx]
    · rw [if_neg hbx, xb hbx, hg i hi hin]

/-- The first two elements of the demo array are in one chunk: in some interleaving of the two calls that write them,
the second is lost although both return `Ok`. -/
example : ∃ ts s, (Sys.initial Demo.emptyFs ([[.write [0] (demoCell 7)], [.write [1] (demoCell 8)]].map
      (boxThread Demo.env Demo.path Demo.arr))).run Demo.hier ts = some s ∧
    s.result 0 = some (.ok [.wrote (.ok ())]) ∧ s.result 1 = some (.ok [.wrote (.ok ())]) ∧
    ∃ a', (Zarr.readNdarray Demo.env Demo.hier Demo.path Demo.arr .u16 ⟨[0], [5]⟩ s.fs).1 = .ok a' ∧
      a'.get [0] = 7#16 ∧ a'.get [1] = 0#16 := by
  obtain ⟨ts, s, k1, k2, k3, k4⟩ := C78_violated_always Demo.env Demo.hier Demo.path Demo.arr [0] [1] (demoCell 7)
    (demoCell 8) [0] Demo.emptyFs Demo.emptyFs_wf (by decide) (by decide) (.inl rfl) rawCodec_lawful rfl (by decide)
    ⟨fun c => ⟨fun hc => by obtain ⟨x, rfl, h1, h2⟩ := demoBoxes_overlap 0 1 c hc; rw [show x = 0 by omega],
        fun e => by subst e; exact ⟨[0], by simp [Inside, Demo.arr], by simp [InBox, demoCell], by simp [Covers, Demo.arr]⟩⟩,
      [1], by simp [Covers, Demo.arr], by simp [InBox, demoCell]⟩
    (demoBoxes_meets 1 1 (by decide) (by decide))
    (fun _ _ => Demo.writable_empty (by simp [chunkLoc, dataLoc, Demo.hier])) (by decide +kernel) (by decide +kernel)
  refine ⟨ts, s, k1, k2, k3, ?_⟩
  have hread : ∃ a, (Zarr.readNdarray Demo.env Demo.hier Demo.path Demo.arr .u16 ⟨[0], [5]⟩ Demo.emptyFs).1 = .ok a ∧
      a.get [1] = 0#16 := by
    have h : ((Zarr.readNdarray Demo.env Demo.hier Demo.path Demo.arr .u16 ⟨[0], [5]⟩ Demo.emptyFs).1 >>=
        fun a => .ok (a.get [1])) = .ok 0#16 := by decide +kernel
    cases hr : (Zarr.readNdarray Demo.env Demo.hier Demo.path Demo.arr .u16 ⟨[0], [5]⟩ Demo.emptyFs).1 with
    | ok a => rw [hr] at h; exact ⟨a, rfl, by injection h⟩
    | err e => rw [hr] at h; cases h
    | panic => rw [hr] at h; cases h
  obtain ⟨a, ha, h3⟩ := hread
  obtain ⟨a', e1, _, e3⟩ := k4 ⟨[0], [5]⟩ a a.get (by decide) ha (fun i hi _ => by
      match i, hi with
      | [x], _ => simp [shift])
  refine ⟨a', e1, ?_, ?_⟩
  · rw [(e3 [0] (by simp [Inside]) (by simp [Inside, shift, Demo.arr])).1 (by simp [Covers, shift, Demo.arr])]
    simp [Spec.update, shift, InBox, demoCell]
    rfl
  · rw [(e3 [1] (by simp [Inside]) (by simp [Inside, shift, Demo.arr])).1 (by simp [Covers, shift, Demo.arr])]
    simp [Spec.update, shift, InBox, demoCell, h3]
    rfl

end
end Threads
end Zarr
