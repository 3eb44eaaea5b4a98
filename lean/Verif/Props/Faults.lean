import Verif.Lemmas.Harmless
import Verif.Props.Locality
import Verif.Props.ThreadBoxes
/-!
# Failing system calls: C87 and C88
-/

namespace Zarr

open Spec

/-! ## Specification -/

/-- The API calls: as a program of system calls, as a function of the filesystem, and the files they may
change. Left out are `array_exists`, which answers "no" for every error, and `list_nodes` and `remove`, for which
see `Props/WalkFaults.lean`. -/
inductive Spec.ApiCall (env : Env) (h : Hier) : (α : Type) → Threads.Prog α → M Fs α → (Loc → Prop) → Prop
  | createGroup (p : Str) : Plain (segs p) →
      ApiCall env h Unit (Threads.createGroup env h p) (createGroup env h p) (· = docLoc h str!"group" p)
  | createArray (p : Str) (m : ArrayMetadata) : Plain (segs p) →
      ApiCall env h Unit (Threads.createArray env h p m) (createArray env h p m) (· = docLoc h str!"array" p)
  | setAttributes (p : Str) (b : JsonObject) : Plain (segs p) →
      ApiCall env h Unit (Threads.setAttributes env h p b) (setAttributes env h p b)
        (fun l => l = docLoc h str!"array" p ∨ l = docLoc h str!"group" p)
  | listAttributes (p : Str) : Plain (segs p) →
      ApiCall env h JsonObject (Threads.listAttributes env h p) (listAttributes env h p) (fun _ => False)
  | getArrayMetadata (p : Str) : Plain (segs p) →
      ApiCall env h ArrayMetadata (Threads.getArrayMetadata env h p) (getArrayMetadata env h p) (fun _ => False)
  | nodeExists (p : Str) : Plain (segs p) →
      ApiCall env h Bool (Threads.nodeExists h p) (nodeExists h p) (fun _ => False)
  | readChunk (p : Str) (m : ArrayMetadata) (t : RsType) (pos : List Nat) : Plain (segs p) → GoodSep m.separator →
      ApiCall env h (Option (DataChunk t)) (Threads.readChunk env p m t pos) (readChunk env h p m t pos) (fun _ => False)
  | writeChunk (p : Str) (m : ArrayMetadata) {t : RsType} (c : DataChunk t) : Plain (segs p) → GoodSep m.separator →
      ApiCall env h Unit (Threads.writeChunk env p m c) (writeChunk env h p m c)
        (· = chunkLoc h p m.separator c.gridPosition)
  | deleteChunk (p : Str) (m : ArrayMetadata) (pos : List Nat) : Plain (segs p) → GoodSep m.separator →
      ApiCall env h Bool (Threads.deleteChunk p m pos) (deleteChunk h p m pos) (· = chunkLoc h p m.separator pos)
  | readNdarray (p : Str) (m : ArrayMetadata) (t : RsType) (b : BBox) : Plain (segs p) → GoodSep m.separator →
      ApiCall env h (NdArr (El t)) (Threads.readNdarray env p m t b) (readNdarray env h p m t b) (fun _ => False)
  | writeNdarray (p : Str) (m : ArrayMetadata) {t : RsType} (offset : List Nat) (a : NdArr (El t)) :
      Plain (segs p) → GoodSep m.separator → m.shape.length = m.chunkShape.length → m.shape ≠ [] →
      (∀ k ∈ m.chunkShape, k ≠ 0) → BoxMeetsArray m ⟨offset, a.shape⟩ →
      ApiCall env h Unit (Threads.writeNdarray env p m offset a) (writeNdarray env h p m offset a)
        (fun l => ∃ pos, OverlapsBoth m ⟨offset, a.shape⟩ pos ∧ l = chunkLoc h p m.separator pos)

namespace Threads

/-! ## The calls stop at the first error -/

theorem strict_lift {α : Type} (r : Outcome α) : (pLift r).Strict := trivial
theorem strict_pure {α : Type} (r : α) : (pure r : Prog α).Strict := trivial
theorem strict_exists (key : Str) : (pExists key).Strict := ⟨fun _ => rfl, fun _ => trivial⟩
theorem strict_get (key : Str) : (pGet key).Strict := ⟨fun _ => rfl, fun _ => trivial⟩
theorem strict_set (key : Str) (v : Bytes × Outcome Unit) : (pSet key v).Strict := ⟨fun _ => rfl, fun _ => trivial⟩
theorem strict_erase (key : Str) : (pErase key).Strict := ⟨fun _ => rfl, fun _ => trivial⟩

section
variable {env : Env} {h : Hier} {p : Str} {m : ArrayMetadata} {t : RsType}

theorem strict_getArrayMetadata : (getArrayMetadata env h p).Strict :=
  (strict_get _).bind fun _ => (strict_lift _).bind fun _ => strict_lift _

theorem strict_createGroup : (createGroup env h p).Strict :=
  (strict_exists _).bind fun _ => .ite (strict_lift _) ((strict_exists _).bind fun _ =>
    .ite (strict_pure _) (strict_set _ _))

theorem strict_createArray : (createArray env h p m).Strict :=
  (strict_exists _).bind fun _ => .ite (strict_lift _) ((strict_exists _).bind fun _ =>
    .ite (strict_lift _) (strict_set _ _))

theorem strict_key : (nodeMetadataKey h p).Strict :=
  (strict_exists _).bind fun _ => .ite (strict_pure _) ((strict_exists _).bind fun _ =>
    .ite (strict_pure _) (strict_lift _))

theorem strict_listAttributes : (listAttributes env h p).Strict :=
  strict_key.bind fun _ => (strict_get _).bind fun _ => (strict_lift _).bind fun _ => (strict_lift _).bind fun _ =>
    strict_lift _

theorem strict_setAttributes {b : JsonObject} : (setAttributes env h p b).Strict :=
  strict_key.bind fun _ => (strict_get _).bind fun _ => (strict_lift _).bind fun _ => (strict_lift _).bind fun _ =>
    (strict_lift _).bind fun _ => .ite (strict_set _ _) (strict_pure _)

theorem strict_nodeExists : (nodeExists h p).Strict :=
  (strict_exists _).bind fun _ => .ite (strict_pure _) ((strict_exists _).bind fun _ =>
    .ite (strict_pure _) (strict_exists _))

theorem strict_readChunk {pos : List Nat} : (readChunk env p m t pos).Strict :=
  (strict_lift _).bind fun _ => (strict_get _).bind fun v => by
    cases v with
    | none => exact strict_pure _
    | some b => exact (strict_lift _).bind fun _ => strict_pure _

theorem strict_readChunkInto {pos : List Nat} {buf : DataChunk t} : (readChunkInto env p m t pos buf).Strict :=
  (strict_lift _).bind fun _ => (strict_get _).bind fun v => by
    cases v with
    | none => exact strict_pure _
    | some b => exact (strict_lift _).bind fun _ => strict_pure _

theorem strict_readLoop {bbox : BBox} (coords : List (List Nat)) (arr : NdArr (El t)) (buf : Option (DataChunk t)) :
    (readLoop env p m t bbox coords arr buf).Strict := by
  induction coords generalizing arr buf with
  | nil => exact strict_pure _
  | cons pos rest ih =>
    unfold readLoop
    refine Prog.Strict.bind ?_ fun r => ?_
    · cases buf with
      | none => exact strict_readChunk.bind fun _ => strict_pure _
      | some b => exact strict_readChunkInto.bind fun _ => strict_pure _
    · split
      · exact (strict_lift _).bind fun _ => ih _ _
      · exact ih _ _

theorem strict_readNdarray {bbox : BBox} : (readNdarray env p m t bbox).Strict :=
  (strict_lift _).bind fun _ => Prog.Strict.bind (.ite (strict_lift _) (.ite (strict_lift _)
    ((strict_lift _).bind fun _ => strict_readLoop _ _ _))) fun _ => strict_pure _

theorem strict_writeCoord {bbox : BBox} {fill : El t} {array : NdArr (El t)} {pos : List Nat} {existing : List (El t)} :
    (writeCoord env p m bbox fill array pos existing).Strict := by
  refine (strict_lift _).bind fun _ => (strict_lift _).bind fun _ => (strict_lift _).bind fun _ => .ite ?_ ?_
  · exact Prog.Strict.bind (strict_set _ _) fun _ => strict_pure _
  · refine strict_readChunkInto.bind fun r => (strict_lift _).bind fun _ => (strict_lift _).bind fun _ =>
      (strict_lift _).bind fun _ => ?_
    exact Prog.Strict.bind (strict_set _ _) fun _ => strict_pure _

theorem strict_writeLoop {bbox : BBox} {fill : El t} {array : NdArr (El t)} (coords : List (List Nat))
    (existing : List (El t)) : (writeLoop env p m bbox fill array coords existing).Strict := by
  induction coords generalizing existing with
  | nil => exact strict_pure _
  | cons pos rest ih => exact strict_writeCoord.bind fun e => ih e

theorem strict_writeNdarray {offset : List Nat} {array : NdArr (El t)} : (writeNdarray env p m offset array).Strict :=
  .ite (strict_lift _) ((strict_lift _).bind fun _ => (strict_lift _).bind fun _ => strict_writeLoop _ _)

end

section
variable {env : Env} {h : Hier} {α : Type} {p : Prog α} {f : M Fs α} {W : Loc → Prop}

theorem apiCall_strict (hc : ApiCall env h α p f W) : p.Strict := by
  cases hc with
  | createGroup => exact strict_createGroup
  | createArray => exact strict_createArray
  | setAttributes => exact strict_setAttributes
  | listAttributes => exact strict_listAttributes
  | getArrayMetadata => exact strict_getArrayMetadata
  | nodeExists => exact strict_nodeExists
  | readChunk => exact strict_readChunk
  | writeChunk => exact strict_set _ _
  | deleteChunk => exact strict_erase _
  | readNdarray => exact strict_readNdarray
  | writeNdarray => exact strict_writeNdarray

theorem apiCall_run (hc : ApiCall env h α p f W) : p.run h = f := by
  cases hc with
  | createGroup => rw [run_createGroup]
  | createArray => rw [run_createArray]
  | setAttributes => rw [run_setAttributes]
  | listAttributes => rw [run_listAttributes]
  | getArrayMetadata => rw [run_getArrayMetadata]
  | nodeExists => rw [run_nodeExists]
  | readChunk => rw [run_readChunk]
  | writeChunk => rw [run_writeChunk]
  | deleteChunk => rw [run_deleteChunk]
  | readNdarray => rw [run_readNdarray]
  | writeNdarray => rw [run_writeNdarray]

theorem docs_plain (hb : Plain (segs h.base)) (hsfx : GoodSuffix h.entry)
    (hdot : '.' ∉ stripDot h.entry.metadataKeySuffix) {q : Str} (hq : Plain (segs q)) :
    Plain (h.loc (arrayMetadataKey h.entry q)) ∧ Plain (h.loc (groupMetadataKey h.entry q)) ∧
      Plain (h.loc (setExtension (setExtension (groupMetadataKey h.entry q) []) [])) := by
  refine ⟨?_, ?_, ?_⟩
  · rw [loc_arrayKey hsfx hq]; exact plain_docLoc hb hq (by simp)
  · rw [loc_groupKey hsfx hq]; exact plain_docLoc hb hq (by simp)
  · rw [Hier.loc, segs_implicitKey hsfx hdot hq]; exact hb.append (Plain.append (a := [str!"meta", str!"root"]) (by decide) hq)

theorem apiCall_uses (hb : Plain (segs h.base)) (hsfx : GoodSuffix h.entry)
    (hdot : '.' ∉ stripDot h.entry.metadataKeySuffix) (hc : ApiCall env h α p f W) :
    p.Uses h (fun _ => True) W := by
  cases hc with
  | createGroup q hq =>
    obtain ⟨h1, h2, _⟩ := docs_plain hb hsfx hdot hq
    exact uses_createGroup h1 h2 (.inl trivial) (.inl trivial) (loc_groupKey hsfx hq)
  | createArray q m hq =>
    obtain ⟨h1, h2, _⟩ := docs_plain hb hsfx hdot hq
    exact uses_createArray h1 h2 (.inl trivial) (.inl trivial) m (loc_arrayKey hsfx hq)
  | setAttributes q b hq =>
    obtain ⟨h1, h2, _⟩ := docs_plain hb hsfx hdot hq
    exact uses_setAttributes h1 h2 (.inl trivial) (.inl trivial) b (.inl (loc_arrayKey hsfx hq))
      (.inr (loc_groupKey hsfx hq))
  | listAttributes q hq =>
    obtain ⟨h1, h2, _⟩ := docs_plain hb hsfx hdot hq
    exact uses_listAttributes h1 h2 (.inl trivial) (.inl trivial)
  | getArrayMetadata q hq =>
    obtain ⟨h1, h2, _⟩ := docs_plain hb hsfx hdot hq
    exact uses_getArrayMetadata h1 (.inl trivial)
  | nodeExists q hq =>
    obtain ⟨h1, h2, h3⟩ := docs_plain hb hsfx hdot hq
    exact uses_nodeExists h1 h2 (.inl trivial) (.inl trivial) h3 trivial
  | readChunk q m t pos hq hs => exact uses_readChunk (plain_loc_chunk hb hq hs _) (.inl trivial)
  | writeChunk q m c hq hs =>
    exact uses_set (plain_loc_chunk hb hq hs _) (loc_chunkKey (hs.imp id (·.2)))
  | deleteChunk q m pos hq hs =>
    exact uses_erase (plain_loc_chunk hb hq hs _) (loc_chunkKey (hs.imp id (·.2)))
  | readNdarray q m t b hq hs => exact uses_readNdarray (plain_loc_chunk hb hq hs) fun _ _ _ _ => .inl trivial
  | writeNdarray q m offset a hq hs hl hn hk hm =>
    exact uses_writeNdarray (plain_loc_chunk hb hq hs) fun it hit pos hpos =>
      ⟨pos, visited_overlap hl hn hk hm hit hpos, loc_chunkKey (hs.imp id (·.2))⟩

theorem run_wf {q : Prog α} (hq : q.Keys h) {fs : Fs} (hwf : fs.WF) : (q.run h fs).2.WF := by
  induction q generalizing fs with
  | done r => exact hwf
  | «exists» key k ih => simp only [Prog.run, storeExists_eq hwf hq.1]; exact ih _ (hq.2 _) hwf
  | get key k ih => simp only [Prog.run, storeGet_eq hwf hq.1]; exact ih _ (hq.2 _) hwf
  | set key v k ih => exact ih _ (hq.2 _) (storeSet_wf hwf hq.1)
  | erase key k ih =>
    simp only [Prog.run]
    refine ih _ (hq.2 _) ?_
    rw [storeErase_spec hwf hq.1]
    split
    · rename_i hg; exact hwf.del_file hg
    · exact hwf
    · exact hwf

end

/-! ## C87 -/

/-- **C87 (partial).** System calls of an API call fail, any of them and any number of times, with any
error. If the call returns `Ok` nevertheless, then it returns what it returns without failures, and
leaves every file and directory as it does without failures. Here: if the failures are not those of
`exists` or `is_file` checks for existence in `get`, `exists` and `erase`, and not those of writes that are made when
the buffer is dropped. Missing: these (see `C87_violated`), and `array_exists`, which does not return
errors. -/
theorem C87_partial (env : Env) (h : Hier) {α : Type} (p : Prog α) (f : M Fs α) (W : Loc → Prop)
    (hc : ApiCall env h α p f W) (fs : Fs) (hwf : fs.WF) (hb : Plain (segs h.base)) (hsfx : GoodSuffix h.entry)
    (hdot : '.' ∉ stripDot h.entry.metadataKeySuffix) (s : List (Option Fault)) (hn : AllNoticed h (.prog p) fs s)
    (r : α) (fs' : Fs) (hr : (Pc.prog p).runFaulty h fs s = some (.prog (.done (.ok r)), fs')) :
    ∃ fs1, f fs = (.ok r, fs1) ∧ ∀ l, fs1.get l = fs'.get l := by
  have hi : FInv h (p.run h fs) fs (.prog p) :=
    ⟨hwf, .of_uses (apiCall_uses hb hsfx hdot hc), apiCall_strict hc, fun r fs1 h1 => ⟨fs1, h1, ?_⟩⟩
  · obtain ⟨_, _, _, hg⟩ := hi.run hn hr
    obtain ⟨fs1, h1, h2⟩ := hg r fs' rfl
    exact ⟨fs1, by rw [← apiCall_run hc]; exact h1, h2.2.2⟩
  · have hw := run_wf (Prog.Keys.of_uses (apiCall_uses hb hsfx hdot hc)) hwf
    rw [h1] at hw
    exact .refl hw

/-! ## C88 -/

/-- **C88.** Whatever system calls of an API call fail, and whether that is noticed or not: at every
moment of the call the filesystem is a tree, every directory is still there, no file that the call is not
about has changed, appeared or gone, and nothing has appeared or gone but such files and directories
above them. -/
theorem C88 (env : Env) (h : Hier) {α : Type} (p : Prog α) (f : M Fs α) (W : Loc → Prop)
    (hc : ApiCall env h α p f W) (fs : Fs) (hwf : fs.WF) (hb : Plain (segs h.base)) (hsfx : GoodSuffix h.entry)
    (hdot : '.' ∉ stripDot h.entry.metadataKeySuffix) (s : List (Option Fault)) (pc : Pc α) (fs' : Fs)
    (hr : (Pc.prog p).runFaulty h fs s = some (pc, fs')) :
    fs'.WF ∧ (∀ l, fs.get l = some .dir → fs'.get l = some .dir) ∧
      (∀ l, ¬ W l → fs'.content l = fs.content l) ∧ ∀ l, fs'.get l ≠ fs.get l → ∃ w, W w ∧ l <+: w := by
  have hi : HInv h (fun _ => True) W fs (.prog p) := ⟨hwf, apiCall_uses hb hsfx hdot hc⟩
  obtain ⟨_, h2⟩ := hi.run hr
  exact ⟨h2.wf, h2.dir, h2.content, h2.near⟩

/-- C88 for `array_exists`: it changes nothing. -/
theorem C88_arrayExists (env : Env) (h : Hier) (p : Str) (hp : Plain (segs p)) (fs : Fs) (hwf : fs.WF)
    (hb : Plain (segs h.base)) (hsfx : GoodSuffix h.entry) (hdot : '.' ∉ stripDot h.entry.metadataKeySuffix)
    (s : List (Option Fault)) (pc : Pc Bool) (fs' : Fs)
    (hr : (Pc.prog (arrayExists env h p)).runFaulty h fs s = some (pc, fs')) : ∀ l, fs'.get l = fs.get l := by
  obtain ⟨h1, h2, h3⟩ := docs_plain hb hsfx hdot hp
  have hi : HInv h (fun _ => True) (fun _ => False) fs (.prog (arrayExists env h p)) :=
    ⟨hwf, uses_arrayExists h1 h2 (.inl trivial) (.inl trivial) h3 trivial⟩
  obtain ⟨_, h2⟩ := hi.run hr
  intro l
  by_cases e : fs'.get l = fs.get l
  · exact e
  · obtain ⟨_, hw, _⟩ := h2.near l e
    exact hw.elim

/-! ## Concrete cases -/

/-- The call ended with this result and in a filesystem that passes the test. -/
def endsWith {α : Type} (r : Option (Pc α × Fs)) (f : α → Fs → Bool) : Bool :=
  match r with
  | some (.prog (.done (.ok a)), fs) => f a fs
  | _ => false

theorem of_endsWith {α : Type} {r : Option (Pc α × Fs)} {f : α → Fs → Bool} (he : endsWith r f = true) :
    ∃ a fs, r = some (.prog (.done (.ok a)), fs) ∧ f a fs = true := by
  unfold endsWith at he
  split at he
  · rename_i a fs; exact ⟨a, fs, rfl, he⟩
  · cases he

/-- An error of the device. -/
def demoFault : Fault := ⟨.other, false⟩

/-- A filesystem with one chunk. -/
def demoChunkFs : Fs := (Zarr.writeChunk Demo.env Demo.hier Demo.path Demo.arr Demo.chunk Demo.emptyFs).2

/-- The elements of the stored chunk. -/
def demoData (fs : Fs) : Option (List (BitVec 16)) :=
  match (Zarr.readChunk Demo.env Demo.hier Demo.path Demo.arr .u16 [1] fs).1 with
  | .ok (some c) => some c.data
  | _ => none

theorem allNoticed_none {α : Type} (h : Hier) (pc : Pc α) (fs : Fs) (n : Nat) :
    AllNoticed h pc fs (List.replicate n none) := by
  induction n generalizing pc fs with
  | zero => trivial
  | succ n ih => exact ⟨fun _ hx => (by cases hx), fun r _ => ih r.1 r.2⟩

/-- The hypotheses of C87 are met by a `write_chunk` that cannot see the directory of its chunk: it tries
to make it, finds that it is there, and writes the chunk. -/
example : ∃ fs', (Pc.prog (writeChunk Demo.env Demo.path Demo.arr Demo.chunk)).runFaulty Demo.hier demoChunkFs
      (some demoFault :: List.replicate 11 none) = some (.prog (.done (.ok ())), fs') ∧
    ∀ l, (Zarr.writeChunk Demo.env Demo.hier Demo.path Demo.arr Demo.chunk demoChunkFs).2.get l = fs'.get l := by
  obtain ⟨a, fs', h1, _⟩ := of_endsWith (f := fun _ _ => true)
    (r := (Pc.prog (writeChunk Demo.env Demo.path Demo.arr Demo.chunk)).runFaulty Demo.hier demoChunkFs
      (some demoFault :: List.replicate 11 none)) (by decide +kernel)
  refine ⟨fs', h1, ?_⟩
  obtain ⟨fs1, h2, h3⟩ := C87_partial Demo.env Demo.hier _ _ _ (.writeChunk Demo.path Demo.arr Demo.chunk (by decide)
    (.inl rfl)) demoChunkFs (storeSet_wf Demo.emptyFs_wf (by decide)) (by decide) (by unfold GoodSuffix; decide)
    (by decide) (some demoFault :: List.replicate 11 none) ⟨fun _ _ => trivial, fun r _ => allNoticed_none _ _ _ _⟩ a fs' h1
  rw [h2]; exact h3

/-- A chunk write that fails after one byte: the chunk is damaged, and C88 says that nothing else is. -/
example : ∃ fs', (Pc.prog (writeChunk Demo.env Demo.path Demo.arr Demo.chunk)).runFaulty Demo.hier demoChunkFs
      [none, none, none, none, none, some demoFault] = some (.prog (.done (.err .other)), fs') ∧
    demoData fs' = none ∧
    ∀ l, l ≠ chunkLoc Demo.hier Demo.path Demo.arr.separator [1] → fs'.content l = demoChunkFs.content l := by
  refine ⟨_, rfl, by decide +kernel, ?_⟩
  exact (C88 Demo.env Demo.hier _ _ _ (.writeChunk Demo.path Demo.arr Demo.chunk (by decide) (.inl rfl)) demoChunkFs
    (storeSet_wf Demo.emptyFs_wf (by decide)) (by decide) (by unfold GoodSuffix; decide) (by decide)
    [none, none, none, none, none, some demoFault] _ _ rfl).2.2.1

/-- A box that is read and written meets the hypotheses of C88. -/
example (s : List (Option Fault)) (pc : Pc Unit) (fs' : Fs)
    (hr : (Pc.prog (writeNdarray Demo.env Demo.path Demo.arr (t := .u16) [2] (demoCell 9))).runFaulty Demo.hier
      demoChunkFs s = some (pc, fs')) (l : Loc) (hl : l ≠ chunkLoc Demo.hier Demo.path str!"/" [1]) :
    fs'.content l = demoChunkFs.content l := by
  refine (C88 Demo.env Demo.hier _ _ _ (.writeNdarray Demo.path Demo.arr [2] (demoCell 9) (by decide) (.inl rfl) rfl
    (by decide) (by decide) (demoBoxes_meets 2 1 (by omega) (by omega))) demoChunkFs
    (storeSet_wf Demo.emptyFs_wf (by decide)) (by decide) (by unfold GoodSuffix; decide) (by decide) s pc fs' hr).2.2.1 l ?_
  rintro ⟨pos, ho, rfl⟩
  obtain ⟨c, rfl, h1, h2⟩ := demoBoxes_overlap 2 1 pos ho
  have : c = 1 := by omega
  subst this
  exact hl rfl

/-- **C87 (violated).** The call that asks whether a stored chunk exists fails: `read_chunk` returns
`Ok(None)`. -/
theorem C87_violated : ∃ fs', (Pc.prog (readChunk Demo.env Demo.path Demo.arr .u16 [1])).runFaulty Demo.hier demoChunkFs
      [some demoFault] = some (.prog (.done (.ok none)), fs') ∧
    (Zarr.readChunk Demo.env Demo.hier Demo.path Demo.arr .u16 [1] demoChunkFs).1 = .ok (some Demo.chunk) :=
  ⟨_, rfl, rfl⟩

/-- **C87 (violated, data lost).** The same failure in a `write_ndarray` of one element of the chunk: the
other element is overwritten with the fill value, and the call returns `Ok`. -/
theorem C87_violated_write : ∃ fs', (Pc.prog (writeNdarray Demo.env Demo.path Demo.arr (t := .u16) [2]
      (demoCell 9))).runFaulty Demo.hier demoChunkFs (some demoFault :: List.replicate 9 none)
        = some (.prog (.done (.ok ())), fs') ∧
    demoData demoChunkFs = some [(258#16 : BitVec 16), (7#16 : BitVec 16)] ∧
    demoData fs' = some [(9#16 : BitVec 16), (0#16 : BitVec 16)] := by
  obtain ⟨a, fs', h1, h2⟩ := of_endsWith (f := fun _ fs => decide (demoData fs = some [(9#16 : BitVec 16), (0#16 : BitVec 16)]))
    (r := (Pc.prog (writeNdarray Demo.env Demo.path Demo.arr (t := .u16) [2]
      (demoCell 9))).runFaulty Demo.hier demoChunkFs (some demoFault :: List.replicate 9 none)) (by decide +kernel)
  exact ⟨fs', h1, by decide +kernel, of_decide_eq_true h2⟩

/-- The filesystem with one array. -/
def demoArrayFs : Fs := (Zarr.createArray Demo.envJ Demo.hier str!"/a" Demo.arr Demo.emptyFs).2

set_option maxRecDepth 20000 in
/-- **C87 (violated, node of two kinds).** The call by which `create_group` asks whether an array exists
fails: `create_group` returns `Ok` and makes a group where there is an array. -/
theorem C87_violated_group : ∃ fs', (Pc.prog (createGroup Demo.envJ Demo.hier str!"/a")).runFaulty Demo.hier demoArrayFs
      (some demoFault :: List.replicate 39 none) = some (.prog (.done (.ok ())), fs') ∧
    (Zarr.createGroup Demo.envJ Demo.hier str!"/a" demoArrayFs).1 = .err .alreadyExists ∧
    (arrayDoc Demo.hier fs' str!"/a").isSome ∧ (groupDoc Demo.hier fs' str!"/a").isSome := by
  obtain ⟨a, fs', h1, h2⟩ := of_endsWith (f := fun _ fs => (arrayDoc Demo.hier fs str!"/a").isSome &&
      (groupDoc Demo.hier fs str!"/a").isSome)
    (r := (Pc.prog (createGroup Demo.envJ Demo.hier str!"/a")).runFaulty Demo.hier demoArrayFs
      (some demoFault :: List.replicate 39 none)) (by decide +kernel)
  rw [Bool.and_eq_true] at h2
  exact ⟨fs', h1, by decide +kernel, h2.1, h2.2⟩

/-- **C87 (violated, write on drop).** The device fails when the buffer is written on drop: `write_chunk`
returns `Ok` and the chunk is gone. -/
theorem C87_violated_drop : ∃ fs', (Pc.prog (writeChunk Demo.env Demo.path Demo.arr Demo.chunk)).runFaulty Demo.hier
      demoChunkFs [none, none, none, none, some ⟨.other, true⟩] = some (.prog (.done (.ok ())), fs') ∧
    demoData fs' = none := by
  obtain ⟨a, fs', h1, h2⟩ := of_endsWith (f := fun _ fs => decide (demoData fs = none))
    (r := (Pc.prog (writeChunk Demo.env Demo.path Demo.arr Demo.chunk)).runFaulty Demo.hier
      demoChunkFs [none, none, none, none, some ⟨.other, true⟩]) (by decide +kernel)
  exact ⟨fs', h1, of_decide_eq_true h2⟩

/-- **C87 (violated, `array_exists`).** The metadata cannot be read: `array_exists` returns `Ok(false)`. -/
theorem C87_violated_arrayExists : ∃ fs', (Pc.prog (arrayExists Demo.envJ Demo.hier str!"/a")).runFaulty Demo.hier
      demoArrayFs [none, none, some demoFault] = some (.prog (.done (.ok false)), fs') ∧
    (Zarr.arrayExists Demo.envJ Demo.hier str!"/a" demoArrayFs).1 = .ok true := by
  obtain ⟨a, fs', h1, h2⟩ := of_endsWith (f := fun a _ => !a)
    (r := (Pc.prog (arrayExists Demo.envJ Demo.hier str!"/a")).runFaulty Demo.hier
      demoArrayFs [none, none, some demoFault]) (by decide +kernel)
  have : a = false := by simpa using h2
  subst this
  exact ⟨fs', h1, by decide +kernel⟩

end Threads

end Zarr
