import Verif.Props.ThreadCalls
import Verif.Props.NdWrite
import Verif.Props.TotalNd
/-!
# Threads that read and write boxes of one array at the same time: C78
-/

namespace Zarr

open Spec

/-! ## Specification -/

/-- A `write_ndarray` or `read_ndarray` call on an array. -/
inductive Spec.BoxOp (t : RsType) where
  | write (offset : List Nat) (array : NdArr (El t))
  | read (b : BBox)

/-- The box a call is about. -/
def Spec.BoxOp.box {t : RsType} : BoxOp t → BBox
  | .write offset array => ⟨offset, array.shape⟩
  | .read b => b

/-- The box updates among calls. -/
def Spec.boxWrites {t : RsType} : List (BoxOp t) → List (List Nat × NdArr (El t))
  | [] => []
  | .write offset array :: cs => (offset, array) :: boxWrites cs
  | .read _ :: cs => boxWrites cs

/-- What a call returns. -/
inductive Spec.BoxResult (t : RsType) where
  | wrote (r : Outcome Unit)
  | got (r : Outcome (NdArr (El t)))

/-- One call: its result and the filesystem afterwards. -/
def Spec.BoxOp.run (env : Env) (h : Hier) (path : Str) (m : ArrayMetadata) {t : RsType} : BoxOp t → Fs →
    BoxResult t × Fs
  | .write offset array, fs =>
    (.wrote (writeNdarray env h path m offset array fs).1, (writeNdarray env h path m offset array fs).2)
  | .read b, fs => (.got (readNdarray env h path m t b fs).1, (readNdarray env h path m t b fs).2)

/-- The results of calls made one after the other. -/
def Spec.boxResults (env : Env) (h : Hier) (path : Str) (m : ArrayMetadata) {t : RsType} :
    List (BoxOp t) → Fs → List (BoxResult t)
  | [], _ => []
  | c :: cs, fs => (c.run env h path m fs).1 :: boxResults env h path m cs (c.run env h path m fs).2

/-- The filesystem after calls made one after the other. -/
def Spec.boxState (env : Env) (h : Hier) (path : Str) (m : ArrayMetadata) {t : RsType} : List (BoxOp t) → Fs → Fs
  | [], fs => fs
  | c :: cs, fs => boxState env h path m cs (c.run env h path m fs).2

namespace Threads

/-- A call as a program of store calls. -/
def boxProg (env : Env) (path : Str) (m : ArrayMetadata) {t : RsType} : BoxOp t → Prog (BoxResult t)
  | .write offset array => (writeNdarray env path m offset array).record .wrote
  | .read b => (readNdarray env path m t b).record .got

/-- A thread that makes the calls one after the other, whatever they return. -/
def boxThread (env : Env) (path : Str) (m : ArrayMetadata) {t : RsType} : List (BoxOp t) → Prog (List (BoxResult t))
  | [] => pure []
  | c :: cs => do
    let r ← boxProg env path m c
    let rs ← boxThread env path m cs
    pure (r :: rs)

section
variable {env : Env} {h : Hier} {path : Str} {m : ArrayMetadata} {t : RsType}

theorem run_boxProg (c : BoxOp t) (fs : Fs) :
    (boxProg env path m c).run h fs = (.ok (c.run env h path m fs).1, (c.run env h path m fs).2) := by
  cases c <;> simp only [boxProg, BoxOp.run] <;> rw [Prog.run_record]
  · rw [run_writeNdarray]
  · rw [run_readNdarray]

theorem run_boxThread (cs : List (BoxOp t)) (fs : Fs) :
    (boxThread env path m cs).run h fs = (.ok (boxResults env h path m cs fs), boxState env h path m cs fs) := by
  induction cs generalizing fs with
  | nil => rfl
  | cons c cs ih =>
    simp only [boxThread, Prog.run_bind, M.bind_apply, run_boxProg, ih]
    rfl

/-! ## The files a call uses -/

section
variable {R W : Loc → Prop}

theorem uses_readChunkInto {pos : List Nat} {buf : DataChunk t} (hpl : Plain (h.loc (chunkKey path m pos)))
    (hr : R (h.loc (chunkKey path m pos)) ∨ W (h.loc (chunkKey path m pos))) :
    (readChunkInto env path m t pos buf).Uses h R W :=
  (uses_lift _).bind fun _ => (uses_get hpl hr).bind fun v => by
    cases v with
    | none => exact uses_pure _
    | some b => exact (uses_lift _).bind fun _ => uses_pure _

theorem uses_readLoop {bbox : BBox} (coords : List (List Nat)) (arr : NdArr (El t)) (buf : Option (DataChunk t))
    (hpl : ∀ pos, Plain (h.loc (chunkKey path m pos)))
    (hr : ∀ pos ∈ coords, R (h.loc (chunkKey path m pos)) ∨ W (h.loc (chunkKey path m pos))) :
    (readLoop env path m t bbox coords arr buf).Uses h R W := by
  induction coords generalizing arr buf with
  | nil => exact uses_pure _
  | cons pos rest ih =>
    have ih' := fun arr buf => ih arr buf fun pos hp => hr pos (by simp [hp])
    have h0 := hr pos (by simp)
    unfold readLoop
    refine Prog.Uses.bind ?_ fun r => ?_
    · cases buf with
      | none => exact (uses_readChunk (hpl pos) h0).bind fun _ => uses_pure _
      | some b => exact (uses_readChunkInto (hpl pos) h0).bind fun _ => uses_pure _
    · split
      · exact (uses_lift _).bind fun _ => ih' _ _
      · exact ih' _ _

theorem uses_readNdarray {bbox : BBox} (hpl : ∀ pos, Plain (h.loc (chunkKey path m pos)))
    (hr : ∀ it, m.boundedCoordIter bbox = .ok it → ∀ pos ∈ it.rest,
      R (h.loc (chunkKey path m pos)) ∨ W (h.loc (chunkKey path m pos))) :
    (readNdarray env path m t bbox).Uses h R W := by
  refine (uses_lift _).bind fun fill => Prog.Uses.bind (.ite (uses_lift _) (.ite (uses_lift _) ?_)) fun _ => uses_pure _
  cases hit : m.boundedCoordIter bbox with
  | ok it => exact uses_readLoop _ _ _ hpl (hr it hit)
  | err e => exact trivial
  | panic => exact trivial

theorem uses_writeCoord {bbox : BBox} {fill : El t} {array : NdArr (El t)} {pos : List Nat} {existing : List (El t)}
    (hpl : Plain (h.loc (chunkKey path m pos))) (hw : W (h.loc (chunkKey path m pos))) :
    (writeCoord env path m bbox fill array pos existing).Uses h R W := by
  refine (uses_lift _).bind fun _ => (uses_lift _).bind fun _ => (uses_lift _).bind fun _ => .ite ?_ ?_
  · exact Prog.Uses.bind (uses_set hpl hw) fun _ => uses_pure _
  · refine (uses_readChunkInto hpl (.inr hw)).bind fun r => (uses_lift _).bind fun _ => (uses_lift _).bind fun _ =>
      (uses_lift _).bind fun _ => ?_
    exact Prog.Uses.bind (uses_set hpl hw) fun _ => uses_pure _

theorem uses_writeLoop {bbox : BBox} {fill : El t} {array : NdArr (El t)} (coords : List (List Nat))
    (existing : List (El t)) (hpl : ∀ pos, Plain (h.loc (chunkKey path m pos)))
    (hw : ∀ pos ∈ coords, W (h.loc (chunkKey path m pos))) :
    (writeLoop env path m bbox fill array coords existing).Uses h R W := by
  induction coords generalizing existing with
  | nil => exact uses_pure _
  | cons pos rest ih =>
    exact (uses_writeCoord (hpl pos) (hw pos (by simp))).bind fun e => ih e fun pos hp => hw pos (by simp [hp])

theorem uses_writeNdarray {offset : List Nat} {array : NdArr (El t)} (hpl : ∀ pos, Plain (h.loc (chunkKey path m pos)))
    (hw : ∀ it, m.boundedCoordIter ⟨offset, array.shape⟩ = .ok it → ∀ pos ∈ it.rest, W (h.loc (chunkKey path m pos))) :
    (writeNdarray env path m offset array).Uses h R W := by
  refine .ite (uses_lift _) ((uses_lift _).bind fun fill => ?_)
  cases hit : m.boundedCoordIter ⟨offset, array.shape⟩ with
  | ok it => exact uses_writeLoop _ _ hpl (hw it hit)
  | err e => exact trivial
  | panic => exact trivial

/-- A call uses the chunks that meet its box and the array. -/
theorem uses_boxThread (cs : List (BoxOp t)) (hpl : ∀ pos, Plain (h.loc (chunkKey path m pos)))
    (hr : ∀ b, .read b ∈ cs → ∀ it, m.boundedCoordIter b = .ok it → ∀ pos ∈ it.rest,
      R (h.loc (chunkKey path m pos)) ∨ W (h.loc (chunkKey path m pos)))
    (hw : ∀ offset array, .write offset array ∈ cs → ∀ it, m.boundedCoordIter ⟨offset, array.shape⟩ = .ok it →
      ∀ pos ∈ it.rest, W (h.loc (chunkKey path m pos))) :
    (boxThread env path m cs).Uses h R W := by
  induction cs with
  | nil => exact uses_pure _
  | cons c cs ih =>
    refine Prog.Uses.bind ?_ fun r => (ih (fun b hb => hr b (by simp [hb])) fun o a ha => hw o a (by simp [ha])).bind
      fun rs => uses_pure _
    cases c with
    | write offset array => exact (uses_writeNdarray hpl (hw offset array (by simp))).record
    | read b => exact (uses_readNdarray hpl (hr b (by simp))).record

end

/-- Reading a box depends on the contents of the files only. -/
theorem readNdarray_congr {fs fs' : Fs} (hb : Plain (segs h.base)) (hp : Plain (segs path)) (hs : GoodSep m.separator)
    (hwf : fs.WF) (hwf' : fs'.WF) (hc : ∀ l, fs.content l = fs'.content l) (b : BBox) :
    (Zarr.readNdarray env h path m t b fs).1 = (Zarr.readNdarray env h path m t b fs').1 := by
  have hu : (readNdarray env path m t b).Uses h (fun _ => True) (fun _ => False) :=
    uses_readNdarray (plain_loc_chunk hb hp hs) fun _ _ _ _ => .inl trivial
  rw [← run_readNdarray (h := h),
    (Prog.run_eval (fun _ _ h _ _ => h.elim) _ hu hwf fun _ h => h.elim).1,
    (Prog.run_eval (fun _ _ h _ _ => h.elim) _ hu hwf' fun _ h => h.elim).1, funext hc]

/-- The positions visited for a box that meets the array. -/
theorem visited_overlap (hl : m.shape.length = m.chunkShape.length) (hn : m.shape ≠ [])
    (hk : ∀ k ∈ m.chunkShape, k ≠ 0) {b : BBox} (hm : BoxMeetsArray m b) {it : CoordIter}
    (hit : m.boundedCoordIter b = .ok it) {pos : List Nat} (hp : pos ∈ it.rest) : OverlapsBoth m b pos := by
  have hd : b.offset.length = b.shape.length := by
    obtain ⟨p, _, h2⟩ := hm
    have := Zarr.InBox.length h2
    omega
  exact overlap_of_touches hk hm ((mem_boundedCoordIter hl hd hn hit).mp hp)

theorem chunkKey_inj (hs : GoodSep m.separator) {pos pos' : List Nat} (hl : pos.length = pos'.length)
    (hpre : h.loc (chunkKey path m pos) <+: h.loc (chunkKey path m pos')) : pos = pos' := by
  have hs' : m.separator = str!"/" ∨ '/' ∉ m.separator := hs.imp id (·.2)
  have e := hpre.eq_of_length (by
    rw [loc_chunkKey hs', loc_chunkKey hs']
    simp only [chunkLoc, List.length_append, chunkName_length _ hl])
  unfold Hier.loc at e
  have e := List.append_cancel_left e
  rw [segs_chunkKey, segs_chunkKey] at e
  simp only [List.cons.injEq, true_and] at e
  exact chunkTail_injective hs (List.append_cancel_left e)

/-- Calls that were made one after the other and wrote without error are a history of box writes. -/
theorem writes_of_results (cs : List (BoxOp t)) (fs : Fs)
    (hok : ∀ r, BoxResult.wrote r ∈ boxResults env h path m cs fs → r = .ok ()) :
    Writes env h path m t (boxWrites cs) fs (boxState env h path m cs fs) := by
  induction cs generalizing fs with
  | nil => exact .nil
  | cons c cs ih =>
    have ih' := ih (c.run env h path m fs).2 fun r hr => hok r (by simp [boxResults, hr])
    cases c with
    | write offset array =>
      exact .cons (Prod.ext (hok _ (by simp [boxResults, BoxOp.run])) rfl) ih'
    | read b =>
      simp only [BoxOp.run, (C58_ndarray env h path m t b fs).1] at ih'
      simpa only [boxWrites, boxState, BoxOp.run, (C58_ndarray env h path m t b fs).1] using ih'

theorem boxResults_append (xs ys : List (BoxOp t)) (fs : Fs) :
    boxResults env h path m (xs ++ ys) fs =
      boxResults env h path m xs fs ++ boxResults env h path m ys (boxState env h path m xs fs) := by
  induction xs generalizing fs with
  | nil => rfl
  | cons x xs ih => rw [List.cons_append, boxResults, ih]; rfl

theorem boxState_append (xs ys : List (BoxOp t)) (fs : Fs) :
    boxState env h path m (xs ++ ys) fs = boxState env h path m ys (boxState env h path m xs fs) := by
  induction xs generalizing fs with
  | nil => rfl
  | cons x xs ih => rw [List.cons_append, boxState, ih]; rfl

theorem runAll_boxes (css : List (List (BoxOp t))) (fs : Fs) :
    ∃ rs : List (List (BoxResult t)), (runAll h (css.map (boxThread env path m)) fs).1 = rs.map .ok ∧
      rs.length = css.length ∧ rs.flatten = boxResults env h path m css.flatten fs ∧
      (runAll h (css.map (boxThread env path m)) fs).2 = boxState env h path m css.flatten fs := by
  induction css generalizing fs with
  | nil => exact ⟨[], rfl, rfl, rfl, rfl⟩
  | cons c css ih =>
    obtain ⟨rs, h1, h2, h3, h4⟩ := ih (boxState env h path m c fs)
    refine ⟨boxResults env h path m c fs :: rs, ?_, by simp [h2], ?_, ?_⟩
    · simp only [List.map_cons, runAll, run_boxThread, h1]
    · rw [List.flatten_cons, List.flatten_cons, boxResults_append, h3]
    · simp only [List.map_cons, runAll, run_boxThread, List.flatten_cons, boxState_append, h4]

end

/-- **C78 (partial).** Several threads write and read boxes of one array at the same time, each making any
such calls one after the other, interleaved in any way. Here: if no chunk meets both a box that one
thread writes and a box that another thread uses, then every call of a thread returns what it returns
when the thread runs alone; no thread waits for another or runs forever; and when all have finished and
every write returned `Ok`, any box that could be read at the start can be read and holds the initial
values updated by all the writes. Missing: boxes that are disjoint but share a chunk, where writes are
lost (see `C78_violated`). -/
theorem C78_partial (env : Env) (h : Hier) (path : Str) (m : ArrayMetadata) {t : RsType} (css : List (List (BoxOp t)))
    (fs : Fs) (hwf : fs.WF) (hb : Plain (segs h.base)) (hp : Plain (segs path)) (hs : GoodSep m.separator)
    (hcodec : (codecOf env.codecs m.compressor).Lawful)
    (hl : m.shape.length = m.chunkShape.length) (hn : m.shape ≠ []) (hk : ∀ k ∈ m.chunkShape, k ≠ 0)
    (hbox : ∀ cs ∈ css, ∀ c ∈ cs, BoxMeetsArray m c.box)
    (hfree : ∀ cs ∈ css, ∀ offset array, .write offset array ∈ cs → ∀ pos, OverlapsBoth m ⟨offset, array.shape⟩ pos →
      Writable fs (chunkLoc h path m.separator pos))
    (hsep : ∀ (i j : Nat) cs cs', css[i]? = some cs → css[j]? = some cs' → i ≠ j →
      ∀ offset array, .write offset array ∈ cs → ∀ c' ∈ cs', ∀ pos,
        ¬ (OverlapsBoth m ⟨offset, array.shape⟩ pos ∧ OverlapsBoth m c'.box pos)) :
    ∃ N, ∀ ts s, (Sys.initial fs (css.map (boxThread env path m))).run h ts = some s →
      ts.length ≤ N ∧
      (∀ (i : Nat) cs, css[i]? = some cs → ∀ r, s.result i = some r → r = .ok (boxResults env h path m cs fs)) ∧
      (∀ i, i < css.length → s.result i = none → ∃ s', s.advance h i = some s') ∧
      ((∀ i, i < css.length → ∃ rs, s.result i = some (.ok rs) ∧ ∀ r, BoxResult.wrote r ∈ rs → r = .ok ()) →
        ∀ (b : BBox) (a : NdArr (El t)) (f : List Nat → El t), BBox.new b.offset b.shape = .ok b →
          (Zarr.readNdarray env h path m t b fs).1 = .ok a →
          (∀ i, Inside b.shape i → Inside m.shape (shift b.offset i) → f (shift b.offset i) = a.get i) →
          ∃ a', (Zarr.readNdarray env h path m t b s.fs).1 = .ok a' ∧ a'.shape = b.shape ∧
            ∀ i, Inside b.shape i → Inside m.shape (shift b.offset i) →
              a'.get i = Spec.update (boxWrites css.flatten) f (shift b.offset i)) := by
  have hs' : m.separator = str!"/" ∨ '/' ∉ m.separator := hs.imp id (·.2)
  let R : Nat → Loc → Prop := fun i l => ∃ cs b pos, css[i]? = some cs ∧ .read b ∈ cs ∧ OverlapsBoth m b pos ∧
    l = h.loc (chunkKey path m pos)
  let W : Nat → Loc → Prop := fun i l => ∃ cs offset array pos, css[i]? = some cs ∧ .write offset array ∈ cs ∧
    OverlapsBoth m ⟨offset, array.shape⟩ pos ∧ l = h.loc (chunkKey path m pos)
  have hlen : ∀ {b pos}, OverlapsBoth m b pos → pos.length = m.chunkShape.length := by
    rintro b pos ⟨_, _, _, hc⟩
    exact (Covers.length hc).2
  have huse : ∀ (i : Nat) p, (css.map (boxThread env path m))[i]? = some p → p.Uses h (R i) (W i) := by
    intro i p hi
    rw [List.getElem?_map] at hi
    obtain ⟨cs, h1, rfl⟩ := Option.map_eq_some_iff.mp hi
    have hmem := List.mem_of_getElem? h1
    refine uses_boxThread cs (plain_loc_chunk hb hp hs) ?_ ?_
    · intro b hbm it hit pos hpos
      exact .inl ⟨cs, b, pos, h1, hbm, visited_overlap hl hn hk (hbox cs hmem _ hbm) hit hpos, rfl⟩
    · intro offset array hbm it hit pos hpos
      exact ⟨cs, offset, array, pos, h1, hbm, visited_overlap hl hn hk (hbox cs hmem _ hbm) hit hpos, rfl⟩
  have hfreeW : ∀ i l, W i l → Writable fs l := by
    rintro i l ⟨cs, offset, array, pos, h1, h2, h3, rfl⟩
    rw [loc_chunkKey hs']
    exact hfree cs (List.mem_of_getElem? h1) offset array h2 pos h3
  have hsepW : ∀ i j a b, W i a → W j b → a <+: b → a = b ∧ i = j := by
    rintro i j a b ⟨cs, offset, array, pos, h1, h2, h3, rfl⟩ ⟨cs', offset', array', pos', h1', h2', h3', rfl⟩ hpre
    have e := chunkKey_inj hs ((hlen h3).trans (hlen h3').symm) hpre
    subst e
    refine ⟨rfl, ?_⟩
    by_cases hij : i = j
    · exact hij
    · exact absurd ⟨h3, h3'⟩ (hsep i j cs cs' h1 h1' hij offset array h2 _ h2' pos)
  have hreadW : ∀ i j a, W i a → R j a → i = j := by
    rintro i j a ⟨cs, offset, array, pos, h1, h2, h3, rfl⟩ ⟨cs', b, pos', h1', h2', h3', he⟩
    have e := chunkKey_inj hs ((hlen h3).trans (hlen h3').symm) (by rw [he]; exact List.prefix_refl _)
    subst e
    by_cases hij : i = j
    · exact hij
    · exact absurd ⟨h3, h3'⟩ (hsep i j cs cs' h1 h1' hij offset array h2 _ h2' pos)
  obtain ⟨N, hN⟩ := C75 h fs (css.map (boxThread env path m)) R W hwf huse hfreeW hsepW hreadW
  refine ⟨N, fun ts s hrun => ?_⟩
  obtain ⟨k1, _, k3, k4, k5, k6⟩ := hN ts s hrun
  refine ⟨k5, ?_, ?_, ?_⟩
  · intro i cs hi r hr
    rw [(k1 i (boxThread env path m cs) r (by rw [List.getElem?_map, hi]; rfl) hr).1, run_boxThread]
  · intro i hi hr
    exact k4 i _ (List.getElem?_eq_getElem (by simpa using hi)) hr
  · intro hall b a f hbb hr hf
    obtain ⟨j1, j2⟩ := k6 fun i hi => by
      obtain ⟨rs, h1, _⟩ := hall i (by simpa using hi)
      rw [h1]; rfl
    obtain ⟨rs, r1, r2, r3, r4⟩ := runAll_boxes (env := env) (h := h) (path := path) (m := m) css fs
    have hwr := writes_of_results (env := env) (h := h) (path := path) (m := m) css.flatten fs (by
      intro r hr
      rw [← r3] at hr
      obtain ⟨x, hx, hrx⟩ := List.mem_flatten.mp hr
      obtain ⟨i, hi, rfl⟩ := List.getElem_of_mem hx
      obtain ⟨ys, h1, h2⟩ := hall i (r2 ▸ hi)
      rw [j1 i (by simpa using r2 ▸ hi), r1, List.getElem?_map, List.getElem?_eq_getElem hi] at h1
      cases h1
      exact h2 r hrx)
    have hwf2 : (boxState env h path m css.flatten fs).WF := by
      rw [← r4]
      exact (runAll_spec hwf huse hfreeW hsepW hreadW).1
    rw [readNdarray_congr hb hp hs k3 hwf2 fun l => by rw [j2 l, r4]]
    exact C23 env h path m (boxWrites css.flatten) fs _ hwf hb hp hs hcodec hl hn hwr b a f hbb hr hf

/-! ### Concrete cases -/

/-- One element. -/
def demoCell (n : Nat) : NdArr (El .u16) := ⟨[1], fun _ => BitVec.ofNat 16 n⟩

/-- One thread writes the first element and reads it back, one writes the third, one reads the last. -/
def demoBoxes : List (List (BoxOp .u16)) :=
  [[.write [0] (demoCell 7), .read ⟨[0], [2]⟩], [.write [2] (demoCell 8)], [.read ⟨[4], [1]⟩]]

theorem demoBoxes_overlap (n x : Nat) (pos : List Nat)
    (ho : OverlapsBoth Demo.arr ⟨[n], [x]⟩ pos) : ∃ c, pos = [c] ∧ n < (c + 1) * 2 ∧ c * 2 < n + x := by
  obtain ⟨p, h1, h2, h3⟩ := ho
  match p, h1, h2, pos, h3 with
  | [q], _, h2, [c], h3 =>
    simp only [InBox, Covers, Demo.arr] at h2 h3
    exact ⟨c, rfl, by omega, by omega⟩

theorem demoBoxes_meets (n x : Nat) (h1 : n < 5) (h2 : 0 < x) : BoxMeetsArray Demo.arr ⟨[n], [x]⟩ :=
  ⟨[n], ⟨h1, trivial⟩, ⟨by simp; omega, trivial⟩⟩

theorem demoBoxes_sep (i j : Nat) (cs cs' : List (BoxOp .u16)) (hi : demoBoxes[i]? = some cs)
    (hj : demoBoxes[j]? = some cs') (hij : i ≠ j) (offset : List Nat) (array : NdArr (El .u16))
    (hc : .write offset array ∈ cs) (c' : BoxOp .u16) (hc' : c' ∈ cs') (pos : List Nat) :
    ¬ (OverlapsBoth Demo.arr ⟨offset, array.shape⟩ pos ∧ OverlapsBoth Demo.arr c'.box pos) := by
  rintro ⟨h1, h2⟩
  have hx : ∀ (k : Nat) ds, demoBoxes[k]? = some ds → (k = 0 ∧ ds = [.write [0] (demoCell 7), .read ⟨[0], [2]⟩]) ∨
      (k = 1 ∧ ds = [.write [2] (demoCell 8)]) ∨ (k = 2 ∧ ds = [.read ⟨[4], [1]⟩]) := by
    intro k ds hk
    match k with
    | 0 => exact .inl ⟨rfl, (Option.some.inj hk).symm⟩
    | 1 => exact .inr (.inl ⟨rfl, (Option.some.inj hk).symm⟩)
    | 2 => exact .inr (.inr ⟨rfl, (Option.some.inj hk).symm⟩)
    | k + 3 => simp [demoBoxes] at hk
  rcases hx i cs hi with ⟨rfl, rfl⟩ | ⟨rfl, rfl⟩ | ⟨rfl, rfl⟩ <;>
    rcases hx j cs' hj with ⟨rfl, rfl⟩ | ⟨rfl, rfl⟩ | ⟨rfl, rfl⟩ <;>
    simp only [List.mem_cons, List.not_mem_nil, or_false, BoxOp.write.injEq, reduceCtorEq] at hc hc' <;>
    first
    | exact absurd rfl hij
    | (obtain ⟨rfl, rfl⟩ := hc
       obtain ⟨x, rfl, h3, h4⟩ := demoBoxes_overlap _ _ _ h1
       first
       | (subst hc'; obtain ⟨y, e, h5, h6⟩ := demoBoxes_overlap _ _ _ h2; cases e; omega)
       | (rcases hc' with rfl | rfl <;>
            (obtain ⟨y, e, h5, h6⟩ := demoBoxes_overlap _ _ _ h2; cases e; omega)))

/-- They meet the hypotheses of C78: in any interleaving the first thread reads back what it wrote, and
in the end all values are there. -/
example : ∃ N, ∀ ts s, (Sys.initial Demo.emptyFs (demoBoxes.map (boxThread Demo.env Demo.path Demo.arr))).run
      Demo.hier ts = some s → ts.length ≤ N ∧
    (∀ r, s.result 0 = some r → r = .ok (boxResults Demo.env Demo.hier Demo.path Demo.arr
      [.write [0] (demoCell 7), .read ⟨[0], [2]⟩] Demo.emptyFs)) ∧
    ((∀ i, i < 3 → (s.result i).isSome) → ∃ a', (Zarr.readNdarray Demo.env Demo.hier Demo.path Demo.arr .u16
      ⟨[0], [5]⟩ s.fs).1 = .ok a' ∧ a'.get [0] = 7#16 ∧ a'.get [2] = 8#16 ∧ a'.get [3] = 0#16) := by
  have hall : ∀ cs ∈ demoBoxes, ∀ r, BoxResult.wrote r ∈
      boxResults Demo.env Demo.hier Demo.path Demo.arr cs Demo.emptyFs → r = .ok () := by
    have h1 : (Zarr.writeNdarray Demo.env Demo.hier Demo.path Demo.arr [0] (demoCell 7) Demo.emptyFs).1 = .ok () := by
      decide +kernel
    have h2 : (Zarr.writeNdarray Demo.env Demo.hier Demo.path Demo.arr [2] (demoCell 8) Demo.emptyFs).1 = .ok () := by
      decide +kernel
    simp [demoBoxes, boxResults, BoxOp.run, h1, h2]
  obtain ⟨N, hN⟩ := C78_partial Demo.env Demo.hier Demo.path Demo.arr demoBoxes Demo.emptyFs Demo.emptyFs_wf
    (by decide) (by decide) (.inl rfl) rawCodec_lawful rfl (by decide) (by decide)
    (by
      simp only [demoBoxes, List.forall_mem_cons, List.not_mem_nil, false_imp_iff, implies_true, and_true]
      exact ⟨⟨demoBoxes_meets 0 1 (by decide) (by decide), demoBoxes_meets 0 2 (by decide) (by decide)⟩,
        demoBoxes_meets 2 1 (by decide) (by decide), demoBoxes_meets 4 1 (by decide) (by decide)⟩)
    (fun _ _ _ _ _ _ _ => Demo.writable_empty (by simp [chunkLoc, dataLoc, Demo.hier])) demoBoxes_sep
  refine ⟨N, fun ts s hrun => ?_⟩
  obtain ⟨k1, k2, _, k4⟩ := hN ts s hrun
  refine ⟨k1, fun r hr => k2 0 _ rfl r hr, fun hfin => ?_⟩
  have hread : ∃ a, (Zarr.readNdarray Demo.env Demo.hier Demo.path Demo.arr .u16 ⟨[0], [5]⟩ Demo.emptyFs).1 = .ok a ∧
      a.get [3] = 0#16 := by
    have h : ((Zarr.readNdarray Demo.env Demo.hier Demo.path Demo.arr .u16 ⟨[0], [5]⟩ Demo.emptyFs).1 >>=
        fun a => .ok (a.get [3])) = .ok 0#16 := by decide +kernel
    cases hr : (Zarr.readNdarray Demo.env Demo.hier Demo.path Demo.arr .u16 ⟨[0], [5]⟩ Demo.emptyFs).1 with
    | ok a => rw [hr] at h; exact ⟨a, rfl, by injection h⟩
    | err e => rw [hr] at h; cases h
    | panic => rw [hr] at h; cases h
  obtain ⟨a, ha, h3⟩ := hread
  obtain ⟨a', e1, _, e3⟩ := k4 (fun i hi => by
      obtain ⟨r, hr⟩ := Option.isSome_iff_exists.mp (hfin i hi)
      have hg : demoBoxes[i]? = some demoBoxes[i] := List.getElem?_eq_getElem hi
      have := k2 i _ hg r hr
      exact ⟨_, by rw [hr, this], hall _ (List.getElem_mem hi)⟩)
    ⟨[0], [5]⟩ a a.get (by decide) ha (fun i hi _ => by
      match i, hi with
      | [x], _ => simp [shift])
  refine ⟨a', e1, ?_, ?_, ?_⟩
  · rw [e3 [0] (by simp [Inside]) (by simp [Inside, shift, Demo.arr])]
    simp [demoBoxes, boxWrites, Spec.update, shift, InBox, demoCell]
    rfl
  · rw [e3 [2] (by simp [Inside]) (by simp [Inside, shift, Demo.arr])]
    simp [demoBoxes, boxWrites, Spec.update, shift, InBox, demoCell]
    rfl
  · rw [e3 [3] (by simp [Inside]) (by simp [Inside, shift, Demo.arr])]
    simp [demoBoxes, boxWrites, Spec.update, shift, InBox, demoCell, h3]
    rfl

/-! ### Violation -/

/-- Two threads write one element each of one chunk. -/
def demoLost : List (List (BoxOp .u16)) := [[.write [0] (demoCell 7)], [.write [1] (demoCell 8)]]

/-- Both look for the chunk before either writes it. -/
def demoLostTs : List Nat := [0, 1] ++ List.replicate 19 0 ++ List.replicate 9 1

/-- The only result of a thread is a successful write. -/
def wroteOk {t : RsType} : Option (Outcome (List (BoxResult t))) → Bool
  | some (.ok [.wrote (.ok _)]) => true
  | _ => false

theorem wroteOk_iff {t : RsType} {r : Option (Outcome (List (BoxResult t)))} :
    wroteOk r = true ↔ r = some (.ok [.wrote (.ok ())]) := by
  constructor
  · intro h
    unfold wroteOk at h
    split at h
    · rfl
    · cases h
  · rintro rfl; rfl

/-- The elements of the example array. -/
def demoElems (fs : Fs) : Option (List (BitVec 16)) :=
  match (Zarr.readNdarray Demo.env Demo.hier Demo.path Demo.arr .u16 ⟨[0], [5]⟩ fs).1 with
  | .ok a => some (a.toVec .rowMajor)
  | _ => none

theorem demoLost_runs : ((Sys.initial Demo.emptyFs (demoLost.map (boxThread Demo.env Demo.path Demo.arr))).run
    Demo.hier demoLostTs).map (fun s => wroteOk (s.result 0) && wroteOk (s.result 1) &&
      demoElems s.fs == some [0#16, 8#16, 0#16, 0#16, 0#16]) = some true := by decide +kernel

/-- **C78 (violated).** Two threads write the first and the second element of an array, which are in one
chunk. Both calls return `Ok` and the first element is lost; one after the other, both elements are
there. -/
theorem C78_violated :
    ∃ (ts : List Nat) (s : Sys (List (BoxResult .u16))),
      (Sys.initial Demo.emptyFs (demoLost.map (boxThread Demo.env Demo.path Demo.arr))).run Demo.hier ts = some s ∧
      s.result 0 = some (.ok [.wrote (.ok ())]) ∧ s.result 1 = some (.ok [.wrote (.ok ())]) ∧
      demoElems s.fs = some [0#16, 8#16, 0#16, 0#16, 0#16] ∧
      (∀ css, css = demoLost ∨ css = demoLost.reverse →
        demoElems (boxState Demo.env Demo.hier Demo.path Demo.arr css.flatten Demo.emptyFs) =
          some [7#16, 8#16, 0#16, 0#16, 0#16]) := by
  obtain ⟨s, h1, h2⟩ := run_of_test demoLost_runs
  simp only [Bool.and_eq_true, wroteOk_iff, beq_iff_eq] at h2
  refine ⟨demoLostTs, s, h1, h2.1.1, h2.1.2, h2.2, ?_⟩
  rintro css (rfl | rfl) <;> decide +kernel

end Threads
end Zarr
